import Verif.Lemmas.Candid
import Verif.Spec.Layer

/-! # Reading from a stream that unwraps frames -/

namespace Deku

variable {α : Type} {frame : M Reader Val} {payload : Val → List Byte} {data : List Byte} {e : DekuError}

/-- The stream is at `pos` of `data`. -/
def Unwrap.At (frame : M Reader Val) (payload : Val → List Byte) (data : List Byte) (e : DekuError) (u : Unwrap)
    (pos : Nat) : Prop :=
  u.pos = pos ∧ pos ≤ data.length ∧ ∃ tail, Framed frame payload u.input tail e ∧ data.drop pos = u.buf ++ tail

namespace Unwrap

theorem read_law {u : Unwrap} {pos n : Nat} (h : u.At frame payload data e pos) (hn : 0 < n) :
    (∃ bs u', u.read frame payload n = (.got bs, u') ∧ bs ≠ [] ∧ bs.length ≤ n ∧ bs = (data.drop pos).take bs.length ∧
      bs.length ≤ data.length - pos ∧ u'.At frame payload data e (pos + bs.length)) ∨
    u.read frame payload n = (.failed e.toIo, u) ∧ pos = data.length := by
  obtain ⟨rfl, hle, tail, hf, hd⟩ := h
  have hlen := congrArg List.length hd
  simp only [List.length_drop, List.length_append] at hlen
  have key : ∀ (b : List Byte) (input : List Byte) (tail' : List Byte), b ≠ [] → data.drop u.pos = b ++ tail' →
      Framed frame payload input tail' e →
      b.take n ≠ [] ∧ (b.take n).length ≤ n ∧ b.take n = (data.drop u.pos).take (b.take n).length ∧
      (b.take n).length ≤ data.length - u.pos ∧
      At frame payload data e { input := input, buf := b.drop n, pos := u.pos + (b.take n).length }
        (u.pos + (b.take n).length) := by
    intro b input tail' hb hd hf
    have hl := congrArg List.length hd
    simp only [List.length_drop, List.length_append] at hl
    have h0 : 0 < b.length := List.length_pos_iff.2 hb
    have hk : (b.take n).length = min n b.length := List.length_take
    refine ⟨fun h => ?_, by omega, ?_, by omega, rfl, by omega, tail', hf, ?_⟩
    · have := congrArg List.length h
      simp only [hk, List.length_nil] at this
      omega
    · rw [hd, hk, List.take_append_of_le_length (by omega), ← List.take_eq_take_min]
    · rw [← List.drop_drop, hd, hk, List.drop_append_of_le_length (by omega)]
      congr 1
      rcases Nat.le_total n b.length with h | h
      · rw [Nat.min_eq_left h]
      · rw [Nat.min_eq_right h, List.drop_of_length_le h, List.drop_of_length_le (Nat.le_refl _)]
  by_cases hb : u.buf = []
  · rw [hb, List.nil_append] at hd
    cases hf with
    | stop h =>
      refine .inr ⟨?_, ?_⟩
      · unfold read
        simp [hb, h]
      · have := congrArg List.length hd
        simp at this
        omega
    | next h hp hr =>
      refine .inl ⟨_, _, ?_, key _ _ _ hp hd hr⟩
      unfold read
      simp [hb, h]
  · refine .inl ⟨_, _, ?_, key _ _ _ hb hd hf⟩
    unfold read
    simp [hb]

theorem readExact_law : ∀ (fuel : Nat) {u : Unwrap} {pos n : Nat}, u.At frame payload data e pos → n ≤ fuel →
    if n ≤ data.length - pos then
      ∃ u', readExactLoop (read frame payload) fuel u n = (.ok ((data.drop pos).take n), u') ∧
        u'.At frame payload data e (pos + n)
    else ∃ u', readExactLoop (read frame payload) fuel u n = (.error e.toIo, u') ∧
        u'.At frame payload data e data.length
  | fuel, u, pos, 0, h, _ => by
    rw [if_pos (by omega)]
    exact ⟨u, by simp [readExactLoop], h⟩
  | 0, u, pos, n + 1, h, hf => by omega
  | fuel + 1, u, pos, n + 1, h, hf => by
    rcases read_law h (n := n + 1) (by omega) with ⟨bs, u', h1, h2, h3, h4, h5, h6⟩ | ⟨h1, h2⟩
    · cases bs with
      | nil => exact absurd rfl h2
      | cons b bs =>
        simp only [List.length_cons] at h3 h4 h5 h6
        have ih := readExact_law fuel (n := n - bs.length) h6 (by omega)
        simp only [readExactLoop, h1]
        by_cases hn : n + 1 ≤ data.length - pos
        · rw [if_pos (by omega)] at ih
          rw [if_pos hn]
          obtain ⟨u'', h7, h8⟩ := ih
          rw [h7]
          refine ⟨u'', ?_, ?_⟩
          · simp only [Prod.mk.injEq, and_true, Except.ok.injEq]
            rw [h4, take_drop_append]
            congr 1
            omega
          · have : pos + (bs.length + 1) + (n - bs.length) = pos + (n + 1) := by omega
            rw [← this]; exact h8
        · rw [if_neg (by omega)] at ih
          rw [if_neg hn]
          obtain ⟨u'', h7, h8⟩ := ih
          rw [h7]
          exact ⟨u'', rfl, h8⟩
    · rw [if_neg (by omega)]
      simp only [readExactLoop, h1]
      exact ⟨u, rfl, h2 ▸ h⟩

/-- The answer to a call is that of the bytes, but the end of the bytes is reported as `e`. -/
theorem impl_law {u : Unwrap} {src : Src} (hd : src.data = data) (hs : src.faults = unseekable)
    (h : u.At frame payload data e src.pos) (c : ReadCall) :
    (∃ x u' src', impl frame payload u c = (x, u') ∧ Src.impl src c = (x, src') ∧ src'.data = data ∧
      src'.faults = unseekable ∧ u'.At frame payload data e src'.pos ∧ ∀ k, c.failure x = some k → k = .other 0) ∨
    ∃ n u' src', c = .readExact n ∧ u'.At frame payload data e src'.pos ∧ src'.data = data ∧ src'.faults = unseekable ∧
      u.readExact frame payload n = (.error e.toIo, u') ∧ src.readExact n = (.error .unexpectedEof, src') := by
  subst hd
  cases c with
  | readExact n =>
    have hr := readExact_law n h (Nat.le_refl n)
    by_cases hn : n ≤ src.data.length - src.pos
    · rw [if_pos hn] at hr
      obtain ⟨u', h1, h2⟩ := hr
      exact .inl ⟨_, u', { src with calls := src.calls + 1, pos := src.pos + n }, h1,
        by simp [Src.impl, Src.readExact, hs, unseekable, hn], rfl, hs, h2, fun _ h => (nomatch h)⟩
    · rw [if_neg hn] at hr
      obtain ⟨u', h1, h2⟩ := hr
      have hp := h.2.1
      refine .inr ⟨n, u', { src with calls := src.calls + 1, pos := max src.pos src.data.length }, rfl, ?_, rfl, hs, h1,
        by simp [Src.readExact, hs, unseekable, hn]⟩
      show u'.At frame payload src.data e (max src.pos src.data.length)
      rw [Nat.max_eq_right hp]
      exact h2
  | seek p =>
    refine .inl ?_
    have hpos := h.1
    simp only [impl, Src.impl, Src.seek, hs, unseekable, if_true, hpos]
    cases Src.noSeekTarget src.pos p with
    | none => exact ⟨_, _, _, rfl, rfl, rfl, hs, h, fun k hk => by cases hk; rfl⟩
    | some k => exact ⟨_, _, _, rfl, rfl, rfl, hs, h, fun _ hk => (nomatch hk)⟩
  | position =>
    refine .inl ⟨_, _, _, rfl, ?_, rfl, hs, h, fun _ hk => (nomatch hk)⟩
    simp [Src.impl, Src.streamPosition, hs, unseekable, h.1]

/-- If the end of the input below is the end of the stream, the two cannot be told apart. -/
theorem run_eq (he : e.toIo = .unexpectedEof) : ∀ (t : Talk ReadCall ReadCall.Answer α) (u : Unwrap) (src : Src),
    src.data = data → src.faults = unseekable → u.At frame payload data e src.pos →
    (t.run (impl frame payload) u).1 = (t.run Src.impl src).1
  | .done _, _, _, _, _, _ => rfl
  | .call c k, u, src, hd, hs, h => by
    have ih := fun x => run_eq he (k x)
    simp only [Talk.run]
    rcases impl_law hd hs h c with ⟨x, u', src', h1, h2, h3, h4, h5, h6⟩ | ⟨n, u', src', rfl, h3, h4, h5, h1, h2⟩
    · rw [h1, h2]
      exact ih _ u' src' h3 h4 h5
    · simp only [impl, Src.impl, h1, h2, he]
      exact ih _ u' src' h4 h5 h3

theorem impl_toEnd {u : Unwrap} {c : ReadCall} (h : c.toEnd = true) :
    c.failure (impl frame payload u c).1 = some (.other 0) := by
  cases c with
  | seek p => cases p <;> first | rfl | (cases h; done)
  | _ => cases h

/-- In any case a program that gives up as soon as a call fails notices a difference only if the bytes are not enough. -/
theorem run_frank : ∀ (t : Talk ReadCall ReadCall.Answer (Res α × ReadState)), t.Frank true → ∀ (u : Unwrap) (src : Src),
    src.data = data → src.faults = unseekable → u.At frame payload data e src.pos →
    (t.run (impl frame payload) u).1 = (t.run Src.impl src).1 ∧ ¬ Reported .unexpectedEof (t.run Src.impl src).1.1 ∨
    Reported e.toIo (t.run (impl frame payload) u).1.1 ∧ Reported .unexpectedEof (t.run Src.impl src).1.1
  | .done _, hf, _, _, _, _, _ => .inl ⟨rfl, hf.2 rfl⟩
  | .call c k, hf, u, src, hd, hs, h => by
    have ih := fun x => run_frank (k x)
    simp only [Talk.run]
    rcases impl_law hd hs h c with ⟨x, u', src', h1, h2, h3, h4, h5, h6⟩ | ⟨n, u', src', rfl, h3, h4, h5, h1, h2⟩
    · have hc := impl_toEnd (frame := frame) (payload := payload) (u := u) (c := c)
      rw [h1, h2]
      rw [h1] at hc
      have hx := hf x
      split at hx
      · rename_i hn
        refine ih _ ?_ u' src' h3 h4 h5
        cases ht : c.toEnd with
        | false => simpa [ht] using hx
        | true =>
          rw [hc ht] at hn
          cases hn
      · rename_i k' hn
        obtain ⟨y, hy, hr⟩ := hx
        rw [hy]
        refine .inl ⟨rfl, fun hy' => ?_⟩
        simp only [Talk.run] at hy'
        obtain rfl := h6 _ hn
        rcases hr with hr | ⟨hr, _⟩
        · rw [hr] at hy'
          rcases hy' with hy' | ⟨_, _, hy'⟩ <;> cases hy'
        · cases hr
    · simp only [impl, Src.impl, h1, h2]
      obtain ⟨y, hy, g1⟩ := hf (.error e.toIo)
      obtain ⟨z, hz, g2⟩ := hf (.error .unexpectedEof)
      rw [hy, hz]
      exact .inr ⟨g1, g2⟩

end Unwrap

end Deku
