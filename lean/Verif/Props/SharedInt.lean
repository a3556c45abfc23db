import Verif.Spec.SharedInt
import Verif.Spec.SharedBody
import Verif.Lemmas.MixedInt
import Verif.Props.Shared
import Verif.Lemmas.Vec

/-!
# Properties of integers that share bytes: C113
-/

namespace Deku

open Mixed

namespace HeadSlot

/-- The sizes and bit orders of the writes. -/
def shape (native : Endian) : HeadSlot → List (Nat × Option Order)
  | .whole W _ _ => [(8 * W, none)]
  | .pair f g => [(f.size native, some (f.ctx.shape native f.W).2.2), (g.size native, some (g.ctx.shape native g.W).2.2)]

/-- The bits in the order in which they are written. -/
def sent (native : Endian) : HeadSlot → List Bool
  | .whole W e v => fieldBits (e.getD native) .msb0 (8 * W) v
  | .pair f g => bitsBE (f.size native) f.v ++ bitsBE (g.size native) g.v

theorem length_sent (native : Endian) (s : HeadSlot) : (s.sent native).length = ((s.shape native).map Prod.fst).sum := by
  cases s <;> simp [sent, shape, Prim.length_fieldBits]

theorem field_shifts (native : Endian) (f : IntField) (hW : 1 ≤ f.W) (hb : f.ctx.isBits = true) (h1 : 1 ≤ f.size native) (h8 : f.size native < 8)
    (hv : f.v < 2 ^ f.size native) :
    Shifts [(f.size native, some (f.ctx.shape native f.W).2.2)] (bitsBE (f.size native) f.v) (Prim.writeUnsigned native f.W f.ctx f.v) := by
  obtain ⟨sh, _, e, h⟩ := Prim.writeUnsigned_moves native hW f.ctx h1 (by simp only [IntField.size] at h8; omega)
    fun _ _ _ => .inl (by simp only [IntField.size] at h8; omega)
  have := h f.v hv
  rw [e hb h8, Prim.fieldBits_small .msb0 (by simp only [IntField.size] at h8; omega)] at this
  exact this

theorem writes_shift (native : Endian) : ∀ ss : List HeadSlot, (∀ s ∈ ss, s.Fits native) →
    Shifts (ss.flatMap (shape native)) (ss.flatMap (sent native)) (writeFields native (ss.flatMap fields))
  | [], _ => Shifts.nil
  | s :: ss, h => by
    have ih := writes_shift native ss fun t ht => h t (List.mem_cons_of_mem _ ht)
    have hs := h s List.mem_cons_self
    rw [List.flatMap_cons, List.flatMap_cons, List.flatMap_cons]
    cases s with
    | whole W e v =>
      have hb : Shifts [(8 * W, none)] (fieldBits (e.getD native) .msb0 (8 * W) v) (Writer.writeBytes (endianBytes W (e.getD native) v)) := by
        have := Shifts.bytes (endianBytes W (e.getD native) v)
        rw [show (endianBytes W (e.getD native) v).length = W by cases e.getD native <;> simp [endianBytes]] at this
        rw [← Prim.orderBits_endianBytes]
        exact this
      have := hb.bind ih (by simp [Prim.length_fieldBits])
      cases e <;> exact this
    | pair f g =>
      obtain ⟨w1, w2, b1, b2, l1, l2, l8, _, v1, v2⟩ := hs
      have h1 := field_shifts native f w1 b1 l1 (by omega) v1
      have h2 := field_shifts native g w2 b2 l2 (by omega) v2
      have := h1.bind (h2.bind ih (by simp)) (by simp)
      simp only [sent, List.append_assoc]
      exact this

/-- The two groups of a shared byte. -/
def groups (native : Endian) (f g : IntField) : TwoGroups :=
  ⟨(f.ctx.shape native f.W).2.2, bitsBE (f.size native) f.v, bitsBE (g.size native) g.v⟩

theorem Fits.fills {native : Endian} {f g : IntField} (h : (HeadSlot.pair f g).Fits native) : (groups native f g).FillsByte := by
  obtain ⟨_, _, _, _, l1, l2, l8, _⟩ := h
  exact ⟨List.length_pos_iff.1 (by simp [groups]; omega), List.length_pos_iff.1 (by simp [groups]; omega), by simpa [groups] using l8⟩

theorem Fits.length {native : Endian} {s : HeadSlot} (h : s.Fits native) : (s.bits native).length % 8 = 0 := by
  cases s with
  | whole W e v => simp [bits, Prim.length_fieldBits]
  | pair f g => exact (congrArg (· % 8) h.fills.length).trans rfl

theorem length_bits (native : Endian) (ss : List HeadSlot) (h : ∀ s ∈ ss, s.Fits native) : (ss.flatMap (bits native)).length % 8 = 0 := by
  induction ss with
  | nil => simp
  | cons s ss ih =>
    have := ih fun t ht => h t (List.mem_cons_of_mem _ ht)
    have hs := (h s List.mem_cons_self).length
    rw [List.flatMap_cons, List.length_append]
    omega

theorem steps_slots (native : Endian) : ∀ (ss : List HeadSlot), (∀ s ∈ ss, s.Fits native) → ∀ (l : List Bool) (t : Order), l.length % 8 = 0 →
    steps (l, t) (ss.flatMap (shape native)) (ss.flatMap (sent native)) = (l ++ ss.flatMap (bits native), headTag native t ss)
  | [], _, l, t, _ => by simp [steps, headTag]
  | s :: ss, h, l, t, hl => by
    have hs := h s List.mem_cons_self
    have hb := hs.length
    have ih := steps_slots native ss fun t ht => h t (List.mem_cons_of_mem _ ht)
    have key : ∃ t', steps (l, t) (s.shape native) (s.sent native) = (l ++ s.bits native, t') ∧ headTag native t (s :: ss) = headTag native t' ss := by
      cases s with
      | whole W e v =>
        refine ⟨t, ?_, rfl⟩
        simp only [shape, sent, bits, steps, step]
        rw [if_pos hl, List.take_of_length_le (by simp [Prim.length_fieldBits])]
      | pair f g =>
        refine ⟨(g.ctx.shape native g.W).2.2, ?_, rfl⟩
        have hg := hs.fills
        obtain ⟨l1, l2, l3⟩ := hg.lens
        obtain ⟨_, _, _, _, _, _, _, ho, _⟩ := hs
        simp only [groups, length_bitsBE] at l1 l2 l3
        simp only [shape, sent, steps, step]
        rw [List.take_left' (by simp), List.drop_left' (by simp), List.take_of_length_le (by simp),
          lay_behind t _ l _ hl (by simp; omega), ho]
        simp only [Prod.mk.injEq, and_true, bits, TwoGroups.byte]
        cases (f.ctx.shape native f.W).2.2
        · exact lay_msb_lsb l _ _ hl (by simpa using l3) (by simp; omega) (by simp; omega)
        · exact lay_lsb_msb l _ _ hl (by simp; omega) (by simp; omega)
    obtain ⟨t', e, ht⟩ := key
    rw [List.flatMap_cons, List.flatMap_cons, List.flatMap_cons, steps_append _ _ _ _ _ (length_sent native s), e,
      ih _ _ (by rw [List.length_append]; omega), List.append_assoc, ht]

end HeadSlot

open Writer in
/-- What is written ends with a byte: then it is all there is. -/
theorem Shifts.toBytes {sh : List (Nat × Option Order)} {c : List Bool} {f : M Writer Unit} (h : Shifts sh c f)
    (h8 : (steps ([], .msb0) sh c).1.length % 8 = 0) :
    ∃ out, Deku.toBytes f = .ok out ∧ bytesBits out = (steps ([], .msb0) sh c).1 := by
  obtain ⟨w, h1, h2, h3⟩ := h (Writer.new {}) new_writer_wf new_writer_healthy
  have h3 : (w.laid, w.tag) = steps ([], .msb0) sh c := h3
  have hlaid := congrArg Prod.fst h3
  simp only at hlaid
  rw [← hlaid] at h8 ⊢
  have hr : w.leftover = [] := by
    have := h2.wf.2
    rw [laid, List.length_append, length_bytesBits, Writer.rest] at h8
    exact List.length_eq_zero_iff.1 (by omega)
  have hh := h2.healthy new_writer_healthy
  obtain ⟨w', e, c', t', wf, _⟩ := C109_where_the_bits_go w h2.wf hh w.tag (List.replicate ((8 - w.leftover.length) % 8) false)
  have hf : finalize w = (.ok (), w') := by
    simp only [finalize, M.get_bind_run, h2.wf.2, decide_true, M.assert_true_bind_run]; exact e
  have hg : Grew ((8 - w.leftover.length) % 8) w w' := by
    obtain ⟨w'', e', g', _⟩ := (writeBitsOrder_lays h2.wf w.tag (List.replicate ((8 - w.leftover.length) % 8) false)).ok
      (writeBitsOrder_took h2.wf w.tag _) hh
    rw [e] at e'
    simp only [Prod.mk.injEq, true_and] at e'
    subst e'
    simpa using g'
  have hg := h2.trans hg
  have hp : w'.inner.pos = w'.inner.data.length := by
    have ha := hg.wf.1.1
    have hb := congrArg List.length hg.tail
    simp [Writer.new] at hb
    omega
  have hc : w'.laid = w.laid := by
    rw [c', hr]
    simp only [List.length_nil, Nat.sub_zero, Nat.mod_self, List.replicate_zero]
    rw [lay_behind _ _ _ _ h8 (by simp), List.append_nil]
  have hr' : w'.leftover = [] := by
    have := wf.2
    rw [← hc, laid, List.length_append, length_bytesBits, Writer.rest] at h8
    exact List.length_eq_zero_iff.1 (by omega)
  refine ⟨w'.inner.data, ?_, ?_⟩
  · rw [Deku.toBytes, show (do f; Writer.finalize : M Writer Unit) = (f >>= fun _ => Writer.finalize) from rfl, M.bind_ok h1, hf]
  · rw [← hc, laid, Writer.rest, hr', List.append_nil, Sink.written, hp, List.take_length]

namespace HeadSlot

open Reader

/-- A field with `bits` of less than a byte is read from the bits that C111 says. -/
theorem field_read (native : Endian) (f : IntField) (hW : 1 ≤ f.W) (h1 : 1 ≤ f.size native) (h8 : f.size native < 8)
    (hv : f.v < 2 ^ f.size native) {r : Reader} (hf : r.Healthy) (hw : r.WF) (hn : f.size native ≤ r.unreadMsb.length)
    (hp : picked (f.ctx.shape native f.W).2.2 (f.size native) r.unreadMsb = bitsBE (f.size native) f.v) :
    ∃ r', Prim.readUnsigned native f.W f.ctx r = (.ok f.v, r') ∧
      r'.unreadMsb = remains (f.ctx.shape native f.W).2.2 (f.size native) r.unreadMsb ∧
      Reader.Step (f.ctx.shape native f.W).2.2 (f.size native) r r' := by
  have hlen : ∀ o, (r.unread o).length = r.unreadMsb.length := by
    rintro (_ | _)
    · rfl
    · show r.unreadLsb.length = _
      rw [(unread_turned hw).1, length_turned]
  have hd := Prim.readUnsigned_delivers native f.ctx hW
  simp only [IntField.size] at *
  obtain ⟨r', e, s⟩ := (hd h1 (show (f.ctx.shape native f.W).2.1 ≤ 8 * f.W by omega) r hf hw).1 (by rw [hlen]; exact hn)
  have ht : (r.unread (f.ctx.shape native f.W).2.2).take (f.ctx.shape native f.W).2.1 =
      fieldBits (f.ctx.shape native f.W).1 (f.ctx.shape native f.W).2.2 (f.ctx.shape native f.W).2.1 f.v := by
    rw [Prim.fieldBits_small _ (by omega), ← hp]
    cases (f.ctx.shape native f.W).2.2
    · rfl
    · show r.unreadLsb.take _ = _
      rw [(unread_turned hw).1]
      simp [picked, present]
  rw [ht, Prim.fieldValue_fieldBits (fun _ _ => .inl (by omega)), Nat.mod_eq_of_lt hv] at e
  exact ⟨r', e, s.remains hw, s⟩

theorem reads_slots (native : Endian) (more : List Bool) (hm : more.length % 8 = 0) : ∀ (ss : List HeadSlot), (∀ s ∈ ss, s.Fits native) →
    ∀ {r : Reader}, r.Live 0 → r.unreadMsb = ss.flatMap (bits native) ++ more →
    ∃ r', readFields native (ss.flatMap fields) r = (.ok ((ss.flatMap fields).map IntField.v), r') ∧
      r'.unreadMsb = more ∧ r'.bitsRead = r.bitsRead + ((ss.flatMap fields).map (IntField.size native)).sum ∧ r'.Live 0 ∧
      (r.NoPeek → r'.NoPeek)
  | [], _, r, ha, hu => ⟨r, rfl, by simpa using hu, rfl, ha, id⟩
  | s :: ss, h, r, ha, hu => by
    have hf := ha.healthy
    have hw := ha.wf
    have hs := h s List.mem_cons_self
    have ht : (ss.flatMap (bits native) ++ more).length % 8 = 0 := by
      have := length_bits native ss fun t ht => h t (List.mem_cons_of_mem _ ht)
      rw [List.length_append]; omega
    have ih := @reads_slots native more hm ss fun t ht => h t (List.mem_cons_of_mem _ ht)
    rw [List.flatMap_cons, List.append_assoc] at hu
    generalize ss.flatMap (bits native) ++ more = tl at *
    cases s with
    | whole W e v =>
      have hd := Prim.readWhole_delivers (e.getD native) hs.1
      obtain ⟨r1, e1, s1⟩ := (hd r hf hw).1 (by
        show 8 * W ≤ r.unreadMsb.length
        rw [hu]; simp [bits, Prim.length_fieldBits])
      have hb : (r.unread .msb0).take (8 * W) = fieldBits (e.getD native) .msb0 (8 * W) v := by
        show r.unreadMsb.take _ = _
        rw [hu, bits, List.take_left' (by simp [Prim.length_fieldBits])]
      have hu1 : r1.unreadMsb = tl := by
        have := s1.unread
        simp only [Reader.unread] at this
        rw [this, hu, bits, List.drop_left' (by simp [Prim.length_fieldBits])]
      rw [hb, Prim.fieldValue_fieldBits (Prim.dense_msb _ _), Nat.mod_eq_of_lt hs.2] at e1
      have at1 := ((ha.step s1 (.inr (by have := hs.1; omega))).congr (by omega) : r1.At 0)
      obtain ⟨r2, e2, u2, b2, a2, n2⟩ := ih at1.live hu1
      have hc := s1.bitsRead
      refine ⟨r2, ?_, u2, ?_, a2, fun _ => n2 at1.noPeek⟩
      · cases e <;> (rw [List.flatMap_cons]; simp only [fields, List.cons_append, List.nil_append, readFields, Prim.readUnsigned]
                     simp only [Option.getD] at e1
                     rw [M.bind_ok e1, M.bind_ok e2]; rfl)
      · cases e <;> simp only [List.flatMap_cons, fields, List.map_append, List.map_cons, List.map_nil, List.sum_append, List.sum_cons, List.sum_nil,
          IntField.size, IntCtx.shape] <;> omega
    | pair f g =>
      have hg := hs.fills
      obtain ⟨l1, l2, l3⟩ := hg.lens
      obtain ⟨w1, w2, _, _, m1, m2, m8, ho, v1, v2⟩ := hs
      have hlb : (bits native (.pair f g)).length = 8 := hg.length
      have key : picked (f.ctx.shape native f.W).2.2 (f.size native) r.unreadMsb = bitsBE (f.size native) f.v ∧
          remains (f.ctx.shape native f.W).2.2 (f.size native) r.unreadMsb = bitsBE (g.size native) g.v ++ tl ∧
          picked (g.ctx.shape native g.W).2.2 (g.size native) (bitsBE (g.size native) g.v ++ tl) = bitsBE (g.size native) g.v ∧
          remains (g.ctx.shape native g.W).2.2 (g.size native) (bitsBE (g.size native) g.v ++ tl) = tl := by
        rw [hu, ho, show bits native (.pair f g) = TwoGroups.byte (groups native f g) from rfl, TwoGroups.byte]
        simp only [groups]
        cases (f.ctx.shape native f.W).2.2
        · have := picks_msb_lsb (bitsBE (f.size native) f.v) (bitsBE (g.size native) g.v) _ ht (by simpa using m8) (by simp; omega)
          simp only [length_bitsBE] at this
          exact this
        · have := picks_lsb_msb (bitsBE (f.size native) f.v) (bitsBE (g.size native) g.v) _ ht (by simpa using m8) (by simp; omega)
          simp only [length_bitsBE] at this
          exact this
      obtain ⟨k1, k2, k3, k4⟩ := key
      obtain ⟨r1, e1, u1, s1⟩ := field_read native f w1 m1 (by omega) v1 hf hw (by rw [hu, List.length_append]; omega) k1
      rw [k2] at u1
      obtain ⟨r2, e2, u2, s2⟩ := field_read native g w2 m2 (by omega) v2 s1.healthy s1.wf (by rw [u1]; simp) (by rw [u1]; exact k3)
      rw [u1, k4] at u2
      have at2 := (((ha.step s1 (.inr (by omega))).step s2).congr (by omega) : r2.At 0)
      obtain ⟨r3, e3, u3, b3, a3, n3⟩ := ih at2.live u2
      have b1 := s1.bitsRead
      have b2 := s2.bitsRead
      refine ⟨r3, ?_, u3, ?_, a3, fun _ => n3 at2.noPeek⟩
      · rw [List.flatMap_cons]
        simp only [fields, List.cons_append, List.nil_append, readFields]
        rw [M.bind_ok e1, M.bind_def, M.bind_ok e2, M.bind_ok e3]; rfl
      · simp only [List.flatMap_cons, fields, List.map_append, List.map_cons, List.map_nil, List.sum_append, List.sum_cons, List.sum_nil]
        omega

end HeadSlot

open HeadSlot

/-- **C113.** A header of integers of whole bytes and of bytes that an Lsb0 and an Msb0 field share, each of any type, size and
endianness: all values that fit are written, with the Msb0 field in the upper part of a shared byte whichever is first, and come
back. -/
theorem C113_integers_share_bytes (native : Endian) (ss : List HeadSlot) (h : ∀ s ∈ ss, s.Fits native) :
    ∃ out r, toBytes (writeFields native (ss.flatMap fields)) = .ok out ∧ bytesBits out = ss.flatMap (bits native) ∧
      readFields native (ss.flatMap fields) (Reader.new { data := out }) = (.ok ((ss.flatMap fields).map IntField.v), r) ∧
      r.bitsRead = ((ss.flatMap fields).map (IntField.size native)).sum := by
  have hs := congrArg Prod.fst (steps_slots native ss h [] .msb0 rfl)
  simp only at hs
  rw [List.nil_append] at hs
  obtain ⟨out, h1, h2⟩ := (writes_shift native ss h).toBytes (by rw [hs]; exact length_bits native ss h)
  rw [hs] at h2
  obtain ⟨r, e, _, b, _⟩ := reads_slots native [] rfl ss h (Reader.new_at out).live ((unread_new .msb0 out).trans (h2.trans (List.append_nil _).symm))
  exact ⟨out, r, h1, h2, e, by rw [b]; simp [Reader.new]⟩

/-- A byte shared by a `u8` of three bits Lsb0 and a `u16` of five bits Msb0, a big endian `u32`, and a byte shared the other way round. -/
def someHeader (a b c d e : Nat) : List HeadSlot :=
  [.pair ⟨1, .bitsOrder 3 .lsb0, a⟩ ⟨2, .endianBitsOrder .big 5 .msb0, b⟩, .whole 4 (some .big) c,
    .pair ⟨1, .bits 1, d⟩ ⟨4, .endianBitsOrder .little 7 .lsb0, e⟩]

example (a b c d e : Nat) (ha : a < 8) (hb : b < 32) (hc : c < 2 ^ 32) (hd : d < 2) (he : e < 128) :
    ∀ s ∈ someHeader a b c d e, s.Fits .little := by
  simp [someHeader, Fits, IntField.size, IntCtx.shape, IntCtx.isBits, Order.opposite]
  omega

end Deku
