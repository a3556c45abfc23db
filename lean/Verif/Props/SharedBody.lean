import Verif.Lemmas.SharedBody
import Verif.Props.Core

/-!
# Properties of headers whose fields share bytes and what follows them: C115
-/

namespace Deku

open HeadSlot Writer

/-- **C115.** A struct of a header whose fields share bytes in both bit orders, and of a body: any checked definition (C61) that fills
whole bytes and may refer to the header. The body is Lsb0 throughout, or the header ends in Msb0. Every value is written as the header
and the body one after the other, and comes back with what was appended as the rest. -/
theorem C115_a_header_and_a_body_come_back (m : Machine) (env : Env) (ss : List HeadSlot) (h : ∀ s ∈ ss, s.Fits m.native)
    (o : Order) (ho : o = .lsb0 ∨ headTag m.native .msb0 ss = .msb0) (d : Def) (v : Val)
    (hd : d.valid m.native = true) (hc : d.check m.native o (some 0) = some (some 0)) (hv : d.has v = true)
    (hg : d.good m (headEnv (headValues ss)) v = true) (hr : d.refusal m.native (headEnv (headValues ss)) v = none) :
    ∃ head body,
      toBytes ((headBody m.native (headKinds ss) (d.toTy m)).write m env (.ofList [intValue (headValues ss), v])) = .ok (head ++ body) ∧
      bytesBits head = ss.flatMap (bits m.native) ∧ 8 * body.length = d.bits m.native (headEnv (headValues ss)) v ∧
      ∀ more, fromBytes ((headBody m.native (headKinds ss) (d.toTy m)).read m env) (head ++ body ++ more) 0 =
        .ok ((more, 0), .ofList [intValue (headValues ss), v]) := by
  obtain ⟨w1, head, e1, a1, l1, t1, d1, b1⟩ := head_written m.native ss h
  obtain ⟨w2, body, e2, a2, l2, d2, r2, n2⟩ := body_bytes m o d (headEnv (headValues ss)) v hd hc hv hg hr a1 l1 (by rw [t1]; exact ho)
  refine ⟨head, body, ?_, b1, n2, fun more => ?_⟩
  · obtain ⟨w3, e3, d3⟩ := finalize_empty a2 l2
    have hw : (headBody m.native (headKinds ss) (d.toTy m)).write m env (.ofList [intValue (headValues ss), v]) (Writer.new {}) = (.ok (), w2) := by
      rw [headBody, twoFields_write, headKinds, headValues, intStruct_write m _ (fun f hf => by
        obtain ⟨s, hs, hf⟩ := List.mem_flatMap.1 hf
        exact (h s hs).small f hf), M.bind_ok e1]
      exact e2
    simp only [toBytes]
    rw [M.bind_ok hw, e3]
    simp only [d3, d2, d1]
  · have hh : ReadsBytes ((intStruct m.native (headKinds ss)).read m { ctx := [] }) head (intValue (headValues ss)) := by
      rw [headKinds, intStruct_read]
      have := (head_reads m.native ss h b1).bind (g := fun vs => pure (intValue vs)) (ReadsBytes.pure (intValue (headValues ss)))
      rwa [List.append_nil] at this
    have := hh.bind (g := fun x => do
      let v ← (d.toTy m).read m (({ ctx := [] } : Env).push x)
      pure (Val.ofList [x, v])) (r2.bind (ReadsBytes.pure (Val.ofList [intValue (headValues ss), v])))
    rw [List.append_nil] at this
    obtain ⟨r, e, _, _, hb⟩ := this (Reader.new { data := head ++ body ++ more }) more (Reader.new_at _) (by simp [Reader.new])
    have hb : r.bitsRead = 8 * (head ++ body).length := by rw [hb]; simp [Reader.new]
    refine fromBytes_ok_iff.2 ⟨r, ?_, ?_, ?_, ?_⟩
    · rw [readFrom_zero, headBody, twoFields_read]; exact e
    · rw [hb, List.length_append (bs := more)]; omega
    · rw [hb, show 8 * (head ++ body).length / 8 = (head ++ body).length by omega, List.drop_left]
    · omega

/-- **C115.** The other way round there is no condition on the bit orders: a struct whose fields share bytes may come behind any checked
definition that fills whole bytes. -/
theorem C115_a_body_and_a_trailer_come_back (m : Machine) (env : Env) (ss : List HeadSlot) (h : ∀ s ∈ ss, s.Fits m.native)
    (o : Order) (d : Def) (v : Val) (hd : d.valid m.native = true) (hc : d.check m.native o (some 0) = some (some 0)) (hv : d.has v = true)
    (hg : d.good m { ctx := [] } v = true) (hr : d.refusal m.native { ctx := [] } v = none) :
    ∃ body tail,
      toBytes ((bodyTail m.native (d.toTy m) (headKinds ss)).write m env (.ofList [v, intValue (headValues ss)])) = .ok (body ++ tail) ∧
      bytesBits tail = ss.flatMap (bits m.native) ∧ 8 * body.length = d.bits m.native { ctx := [] } v ∧
      ∀ more, fromBytes ((bodyTail m.native (d.toTy m) (headKinds ss)).read m env) (body ++ tail ++ more) 0 =
        .ok ((more, 0), .ofList [v, intValue (headValues ss)]) := by
  obtain ⟨w1, body, e1, a1, l1, d1, r1, n1⟩ := body_bytes m o d { ctx := [] } v hd hc hv hg hr Decides.new_appending rfl (.inr rfl)
  obtain ⟨w2, tail, e2, a2, l2, _, d2, b2⟩ := head_follows m.native ss h a1 l1
  refine ⟨body, tail, ?_, b2, n1, fun more => ?_⟩
  · obtain ⟨w3, e3, d3⟩ := finalize_empty a2 l2
    have hw : (bodyTail m.native (d.toTy m) (headKinds ss)).write m env (.ofList [v, intValue (headValues ss)]) (Writer.new {}) = (.ok (), w2) := by
      rw [bodyTail, twoFields_write, headKinds, headValues, intStruct_write m _ (fun f hf => by
        obtain ⟨s, hs, hf⟩ := List.mem_flatMap.1 hf
        exact (h s hs).small f hf), M.bind_ok e1]
      exact e2
    simp only [toBytes]
    rw [M.bind_ok hw, e3]
    simp only [d3, d2, d1]
    rfl
  · have hh : ReadsBytes ((intStruct m.native (headKinds ss)).read m (({ ctx := [] } : Env).push v)) tail (intValue (headValues ss)) := by
      rw [headKinds, intStruct_read]
      have := (head_reads m.native ss h b2).bind (g := fun vs => pure (intValue vs)) (ReadsBytes.pure (intValue (headValues ss)))
      rwa [List.append_nil] at this
    have := r1.bind (g := fun x => do
      let y ← (intStruct m.native (headKinds ss)).read m (({ ctx := [] } : Env).push x)
      pure (Val.ofList [x, y])) (hh.bind (ReadsBytes.pure (Val.ofList [v, intValue (headValues ss)])))
    rw [List.append_nil] at this
    obtain ⟨r, e, _, _, hb⟩ := this (Reader.new { data := body ++ tail ++ more }) more (Reader.new_at _) (by simp [Reader.new])
    have hb : r.bitsRead = 8 * (body ++ tail).length := by rw [hb]; simp [Reader.new]
    refine fromBytes_ok_iff.2 ⟨r, ?_, ?_, ?_, ?_⟩
    · rw [readFrom_zero, bodyTail, twoFields_read]; exact e
    · rw [hb, List.length_append (bs := more)]; omega
    · rw [hb, show 8 * (body ++ tail).length / 8 = (body ++ tail).length by omega, List.drop_left]
    · omega

namespace SharedBodyExample

open Example CoreExample

/-- A byte shared by `#[deku(bits = 3, bit_order = "lsb")] a: u8` and `#[deku(bits = 5)] b: u16`. -/
def endsMsb : List HeadSlot := [.pair ⟨1, .bitsOrder 3 .lsb0, 5⟩ ⟨2, .bits 5, 17⟩, .whole 2 (some .big) 700]

/-- The same with the two fields exchanged. -/
def endsLsb : List HeadSlot := [.whole 2 (some .big) 700, .pair ⟨2, .bits 5, 17⟩ ⟨1, .bitsOrder 3 .lsb0, 5⟩]

/-- Behind a header that ends in Msb0 any checked definition may come. -/
example : ∃ head body, toBytes ((headBody mach.native (headKinds endsMsb) (record.toTy mach)).write mach {}
      (.ofList [intValue [5, 17, 700], recordValue])) = .ok (head ++ body) ∧
    ∀ more, fromBytes ((headBody mach.native (headKinds endsMsb) (record.toTy mach)).read mach {}) (head ++ body ++ more) 0 =
      .ok ((more, 0), .ofList [intValue [5, 17, 700], recordValue]) := by
  obtain ⟨head, body, h1, _, _, h2⟩ := C115_a_header_and_a_body_come_back mach {} endsMsb
    (by simp [endsMsb, Fits, IntField.size, IntCtx.shape, IntCtx.isBits, Order.opposite]) .msb0 (.inr rfl) record recordValue
    (by decide +kernel) (by decide +kernel) (by decide +kernel) (by decide +kernel) (by decide +kernel)
  exact ⟨head, body, h1, h2⟩

/-- `#[deku(endian = "big", bit_order = "lsb")] struct { n: u8, #[deku(count = "n")] items: Vec<u16>, #[deku(bits = 4)] a: u8, #[deku(bits = 4)] b: u8 }`:
in Lsb0 it may come behind any header. -/
def lsbBody : Def :=
  .struct [] [] (.cons {} (.leaf (some 8) (.uint 1 (.endianOrder .big .lsb0))) (.cons {} (.vec false (.count (.field 0)) (.leaf (some 16) (.uint 2 (.endianOrder .big .lsb0))))
    (.cons {} (.leaf (some 4) (.uint 1 (.endianBitsOrder .big 4 .lsb0))) (.cons {} (.leaf (some 4) (.uint 1 (.endianBitsOrder .big 4 .lsb0))) .nil))))

def lsbBodyValue : Val := .ofList [.num 2, .ofList [.num 513, .num 4], .num 9, .num 3]

example : ∃ head body, toBytes ((headBody mach.native (headKinds endsLsb) (lsbBody.toTy mach)).write mach {}
      (.ofList [intValue [700, 17, 5], lsbBodyValue])) = .ok (head ++ body) ∧
    ∀ more, fromBytes ((headBody mach.native (headKinds endsLsb) (lsbBody.toTy mach)).read mach {}) (head ++ body ++ more) 0 =
      .ok ((more, 0), .ofList [intValue [700, 17, 5], lsbBodyValue]) := by
  obtain ⟨head, body, h1, _, _, h2⟩ := C115_a_header_and_a_body_come_back mach {} endsLsb
    (by simp [endsLsb, Fits, IntField.size, IntCtx.shape, IntCtx.isBits, Order.opposite]) .lsb0 (.inl rfl) lsbBody lsbBodyValue
    (by decide +kernel) (by decide +kernel) (by decide +kernel) (by decide +kernel) (by decide +kernel)
  exact ⟨head, body, h1, h2⟩

/-- Both headers may come behind the body in Lsb0, and behind the record. -/
example : (∃ body tail, toBytes ((bodyTail mach.native (lsbBody.toTy mach) (headKinds endsMsb)).write mach {}
      (.ofList [lsbBodyValue, intValue [5, 17, 700]])) = .ok (body ++ tail)) ∧
    ∃ body tail, toBytes ((bodyTail mach.native (record.toTy mach) (headKinds endsLsb)).write mach {}
      (.ofList [recordValue, intValue [700, 17, 5]])) = .ok (body ++ tail) := by
  obtain ⟨b1, t1, h1, _⟩ := C115_a_body_and_a_trailer_come_back mach {} endsMsb
    (by simp [endsMsb, Fits, IntField.size, IntCtx.shape, IntCtx.isBits, Order.opposite]) .lsb0 lsbBody lsbBodyValue
    (by decide +kernel) (by decide +kernel) (by decide +kernel) (by decide +kernel) (by decide +kernel)
  obtain ⟨b2, t2, h2, _⟩ := C115_a_body_and_a_trailer_come_back mach {} endsLsb
    (by simp [endsLsb, Fits, IntField.size, IntCtx.shape, IntCtx.isBits, Order.opposite]) .msb0 record recordValue
    (by decide +kernel) (by decide +kernel) (by decide +kernel) (by decide +kernel) (by decide +kernel)
  exact ⟨⟨b1, t1, h1⟩, b2, t2, h2⟩

/-- `#[deku(endian = "big")] struct { #[deku(bits = 12)] x: u16, #[deku(bits = 4)] y: u8 }` with the default order. -/
def msbBody : Def :=
  .struct [] [] (.cons {} (.leaf (some 12) (.uint 2 (.endianBits .big 12))) (.cons {} (.leaf (some 4) (.uint 1 (.endianBits .big 4))) .nil))

end SharedBodyExample

open Example SharedBodyExample in
/-- **C115.** The condition on the bit orders is needed: behind a header that ends in Lsb0 the same body, though it begins at a byte
boundary and comes back on its own, is written with the low byte of its first field first and comes back as another value. -/
theorem C115_a_body_behind_an_lsb_field_changes :
    (∀ s ∈ endsLsb, s.Fits mach.native) ∧ headTag mach.native .msb0 endsLsb = .lsb0 ∧
    msbBody.valid mach.native = true ∧ msbBody.check mach.native .msb0 (some 0) = some (some 0) ∧
    toBytes ((msbBody.toTy mach).write mach {} (.ofList [.num 0x123, .num 4])) = .ok [0x12, 0x34] ∧
    toBytes ((headBody mach.native (headKinds endsMsb) (msbBody.toTy mach)).write mach {} (.ofList [intValue [5, 17, 700], .ofList [.num 0x123, .num 4]])) =
      .ok [0x8d, 0x02, 0xbc, 0x12, 0x34] ∧
    toBytes ((headBody mach.native (headKinds endsLsb) (msbBody.toTy mach)).write mach {} (.ofList [intValue [700, 17, 5], .ofList [.num 0x123, .num 4]])) =
      .ok [0x02, 0xbc, 0x8d, 0x23, 0x14] ∧
    fromBytes ((headBody mach.native (headKinds endsLsb) (msbBody.toTy mach)).read mach {}) [0x02, 0xbc, 0x8d, 0x23, 0x14] 0 =
      .ok (([], 0), .ofList [intValue [700, 17, 5], .ofList [.num 0x231, .num 4]]) := by
  refine ⟨by simp [endsLsb, Fits, IntField.size, IntCtx.shape, IntCtx.isBits, Order.opposite], ?_⟩
  decide +kernel

end Deku
