import Verif.Lemmas.Play
import Verif.Lemmas.Examples
import Verif.Lemmas.IoOut

/-! # What a sink gets, also if it fails: C106 -/

namespace Deku

theorem Def.plays (m : Machine) (d : Def) (env : Env) (v : Val) :
    Plays (do (d.toTy m).write m env v; Writer.finalize) := by
  have h1 := Ty.write_plays m _ (d.toTy_plays m) env v
  plays [h1, Writer.finalize_plays]

theorem toBytes_blocks {f : M Writer Unit} {t : WriteTalk Unit} {bs : List (List Byte)} {x : Res Unit}
    (ht : t.Is (do f; Writer.finalize)) (h : ∀ s : Sink, t.writeTo Sink.impl s =
      (Sending.result (sendAll Sink.impl bs s).1 x, (sendAll Sink.impl bs s).2)) :
    toBytes f = Sending.bytes bs x := by
  obtain ⟨e1, e2⟩ := sendAll_vec bs {} rfl rfl rfl
  rw [toBytes_writeTo, ht.writeTo, h, e1]
  simp only [Sending.result]
  cases x with
  | ok u => simp only [e2]; rfl
  | err e => rfl
  | panic => rfl

/-- **C106.** Writing a value, with `finalize`, is to send certain blocks of bytes to the sink, which are the same for
all sinks, one after the other with `write_all`, until one of them fails: then its error is the result and nothing more
is sent. If none fails, the result is the one of `to_bytes`, and the blocks are its bytes. -/
theorem C106_writing_is_sending_blocks (m : Machine) (d : Def) (env : Env) (v : Val) :
    ∃ (t : WriteTalk Unit) (bs : List (List Byte)) (x : Res Unit),
      t.Is (do (d.toTy m).write m env v; Writer.finalize) ∧
      toBytes ((d.toTy m).write m env v) = Sending.bytes bs x ∧
      ∀ (S : Type) (impl : Impl WriteCall WriteAnswer S) (s : S),
        t.writeTo impl s = (Sending.result (sendAll impl bs s).1 x, (sendAll impl bs s).2) := by
  obtain ⟨t, bs, x, h1, h2⟩ := (d.plays m env v).blocks
  exact ⟨t, bs, x, h1, toBytes_blocks h1 fun s => h2 Sink Sink.impl s, h2⟩

/-- **C106.** A sink that fails has a part of the message, from its start, behind what it had before, and its error is
the result; sending the rest of the message completes it. A sink that does not fail has the message. -/
theorem C106_a_failing_sink_has_the_start_of_the_message (m : Machine) (d : Def) (env : Env) (v : Val) (out : List Byte)
    (hout : toBytes ((d.toTy m).write m env v) = .ok out) :
    ∃ t : WriteTalk Unit, t.Is (do (d.toTy m).write m env v; Writer.finalize) ∧
      ∀ (S : Type) (impl : Impl WriteCall WriteAnswer S) (has : S → List Byte → Prop) (s : S) (before : List Byte),
        HonestSink impl has → has s before → ∃ s',
          (t.writeTo impl s = (.ok (), s') ∧ has s' (before ++ out)) ∨
          (∃ e k, t.writeTo impl s = (.err (.io e), s') ∧ k ≤ out.length ∧ has s' (before ++ out.take k) ∧
            ∀ s'', impl s' (out.drop k) = (.ok (), s'') → has s'' (before ++ out)) := by
  obtain ⟨t, bs, x, h1, h2, h3⟩ := C106_writing_is_sending_blocks m d env v
  rw [hout] at h2
  refine ⟨t, h1, fun S impl has s before hi hs => ⟨(sendAll impl bs s).2, ?_⟩⟩
  cases x with
  | err e => cases h2
  | panic => cases h2
  | ok u =>
    cases h2
    rw [h3]
    rcases sendAll_honest hi bs s before hs with ⟨i1, i2⟩ | ⟨e, k, i1, i2, i3⟩
    · exact .inl ⟨by rw [i1]; rfl, i2⟩
    · refine .inr ⟨e, k, by rw [i1]; rfl, i2, i3, fun s'' h => ?_⟩
      have := (hi _ _ _ i3).1 () s'' h
      rwa [List.append_assoc, List.take_append_drop] at this

/-- **C106.** A value that is refused is refused on every sink with the same error, unless the sink fails first. -/
theorem C106_what_is_refused_is_refused_everywhere (m : Machine) (d : Def) (env : Env) (v : Val) (e : DekuError)
    (h : toBytes ((d.toTy m).write m env v) = .err e) :
    ∃ t : WriteTalk Unit, t.Is (do (d.toTy m).write m env v; Writer.finalize) ∧
      ∀ (S : Type) (impl : Impl WriteCall WriteAnswer S) (s : S), (t.writeTo impl s).1 = .err e ∨
        ∃ bs b k s', (sendAll impl bs s).1 = none ∧ impl (sendAll impl bs s).2 b = (.error k, s') ∧
          t.writeTo impl s = (.err (.io k), s') := by
  obtain ⟨t, bs, x, h1, h2, h3⟩ := C106_writing_is_sending_blocks m d env v
  rw [h] at h2
  refine ⟨t, h1, fun S impl s => ?_⟩
  cases x with
  | ok u => cases h2
  | panic => cases h2
  | err e' =>
    cases h2
    rw [h3]
    have key : ∀ (bs : List (List Byte)) (s : S), (sendAll impl bs s).1 = none ∨
        ∃ bs' b k s', (sendAll impl bs' s).1 = none ∧ impl (sendAll impl bs' s).2 b = (.error k, s') ∧
          sendAll impl bs s = (some k, s') := by
      intro bs
      induction bs with
      | nil => intro s; exact .inl rfl
      | cons b bs ih =>
        intro s
        simp only [sendAll]
        rcases hb : impl s b with ⟨y, s1⟩
        cases y with
        | error k => exact .inr ⟨[], b, k, s1, rfl, hb, rfl⟩
        | ok u =>
          rcases ih s1 with i | ⟨bs', b', k, s', i1, i2, i3⟩
          · exact .inl i
          · refine .inr ⟨b :: bs', b', k, s', ?_, ?_, i3⟩ <;> simp only [sendAll, hb] <;> assumption
    rcases key bs s with i | ⟨bs', b, k, s', i1, i2, i3⟩
    · exact .inl (by rw [i]; rfl)
    · exact .inr ⟨bs', b, k, s', i1, i2, by rw [i3]; rfl⟩

/-- **C106.** `to_slice` with a buffer that is too short fills it with the start of the message. -/
theorem C106_a_short_buffer_has_the_start_of_the_message (m : Machine) (d : Def) (env : Env) (v : Val) (out buf : List Byte)
    (hout : toBytes ((d.toTy m).write m env v) = .ok out) (hb : buf.length < out.length) :
    toSlice ((d.toTy m).write m env v) buf = (.err (.io .writeZero), out.take buf.length) := by
  obtain ⟨t, bs, x, h1, h2, h3⟩ := C106_writing_is_sending_blocks m d env v
  rw [hout] at h2
  cases x with
  | err e => cases h2
  | panic => cases h2
  | ok u =>
    cases h2
    have e : toSlice ((d.toTy m).write m env v) buf = match writeTo ((d.toTy m).write m env v) { data := buf, cap := some buf.length } with
        | (.ok _, s) => ((toSlice ((d.toTy m).write m env v) buf).1, s.data)
        | (.err e, s) => (.err e, s.data)
        | (.panic, s) => (.panic, s.data) := by
      unfold toSlice writeTo
      rcases (do (d.toTy m).write m env v; Writer.finalize : M Writer Unit) (Writer.new { data := buf, cap := some buf.length }) with ⟨y, w⟩
      cases y <;> rfl
    rw [e, h1.writeTo, h3]
    rcases sendAll_slice buf bs { data := buf, cap := some buf.length } [] rfl rfl rfl (Nat.zero_le _) (by simp) with ⟨_, i2, _⟩ | ⟨i1, _, i3⟩
    · simp only [List.nil_append] at i2; omega
    · rw [i1]
      simp only [Sending.result, i3, List.nil_append]

/-! ### Examples -/

namespace PlayExample

def mach : Machine := { native := .little, mem := 2 ^ 40 }

/-- `struct { #[deku(bits = 4)] a: u8, #[deku(bits = 12)] b: u16, c: u32 }`. -/
def record : Def := .struct [] [] (.cons {} (.leaf (some 4) (.uint 1 (.bits 4)))
  (.cons {} (.leaf (some 12) (.uint 2 (.bits 12))) (.cons {} (.leaf (some 32) (.uint 4 .unit)) .nil)))

def value : Val := .ofList [.num 1, .num 0x234, .num 0x08070605]

theorem out : toBytes ((record.toTy mach).write mach {} value) = .ok [0x13, 0x42, 5, 6, 7, 8] := by decide +kernel

/-- Into a buffer of four bytes. -/
example : toSlice ((record.toTy mach).write mach {} value) [9, 9, 9, 9] = (.err (.io .writeZero), [0x13, 0x42, 5, 6]) :=
  C106_a_short_buffer_has_the_start_of_the_message mach record {} value _ _ out (by decide)

/-- On any device: it has the message, or its start and has failed. -/
example : ∃ t : WriteTalk Unit, t.Is (do (record.toTy mach).write mach {} value; Writer.finalize) ∧
    ∀ p : Device, p.out = [9] → ∃ p' : Device, (t.writeTo Device.impl p = (.ok (), p') ∧ p'.out = [9, 0x13, 0x42, 5, 6, 7, 8]) ∨
      ∃ e k, t.writeTo Device.impl p = (.err (.io e), p') ∧ p'.out = 9 :: [0x13, 0x42, 5, 6, 7, 8].take k := by
  obtain ⟨t, h1, h2⟩ := C106_a_failing_sink_has_the_start_of_the_message mach record {} value _ out
  refine ⟨t, h1, fun p hp => ?_⟩
  obtain ⟨p', ⟨h3, h4⟩ | ⟨e, k, h3, _, h4, _⟩⟩ := h2 Device Device.impl Device.Has p [9] Device.honest hp
  · exact ⟨p', .inl ⟨h3, h4⟩⟩
  · exact ⟨p', .inr ⟨e, k, h3, h4⟩⟩

/-- 0x1234 does not fit into 12 bits. -/
example : toBytes ((record.toTy mach).write mach {} (.ofList [.num 1, .num 0x1234, .num 5])) = .err .invalidParam := by
  decide +kernel

end PlayExample

end Deku
