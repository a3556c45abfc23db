import Verif.Spec.Output
import Verif.Lemmas.Reader

/-! # Writer lemmas: what each write call produces, on an arbitrary sink -/

namespace Deku

/-! ### sinks -/

/-- The sink has accepted exactly `bs`. -/
structure Sink.Put (bs : List Byte) (s s' : Sink) : Prop where
  written : s'.written = s.written ++ bs
  pos : s'.pos = s.pos + bs.length
  tail : s'.data.drop s'.pos = s.data.drop s'.pos
  wf : s'.WF
  cap : s'.cap = s.cap
  faults : s'.faults = s.faults
  calls : s.calls ≤ s'.calls
  quiet : ∀ i, s.calls ≤ i → i < s'.calls → s.faults i = none

/-- The sink has failed with `e` while asked to go `n` bytes beyond its position. -/
structure Sink.Bad (n : Nat) (e : IoKind) (s s' : Sink) : Prop where
  reason : (∃ i k, s.calls ≤ i ∧ i < s'.calls ∧ s.faults i = some (k, e)) ∨
    (e = .writeZero ∧ ∃ c, s.cap = some c ∧ c < s.pos + n)
  first : ∀ i k e', s.calls ≤ i → i < s'.calls → s.faults i = some (k, e') → e' = e
  prefix_ : s'.data.take s.pos = s.data.take s.pos
  wf : s'.WF
  cap : s'.cap = s.cap
  faults : s'.faults = s.faults
  calls : s.calls ≤ s'.calls
  pos : s.pos ≤ s'.pos

theorem Sink.Put.refl {s : Sink} (h : s.WF) : Sink.Put [] s s :=
  ⟨by simp, by simp, rfl, h, rfl, rfl, Nat.le_refl _, fun _ _ _ => by omega⟩

theorem Sink.Put.trans {a b : List Byte} {s s' s'' : Sink} (h : Sink.Put a s s')
    (h' : Sink.Put b s' s'') : Sink.Put (a ++ b) s s'' := by
  refine ⟨?_, ?_, ?_, h'.wf, h'.cap.trans h.cap, h'.faults.trans h.faults,
    Nat.le_trans h.calls h'.calls, ?_⟩
  · rw [h'.written, h.written, List.append_assoc]
  · rw [h'.pos, h.pos]; simp; omega
  · rw [h'.tail]
    have := congrArg (List.drop b.length) h.tail
    rw [List.drop_drop, List.drop_drop, ← h'.pos] at this
    exact this
  · intro i h1 h2
    by_cases hi : i < s'.calls
    · exact h.quiet i h1 hi
    · rw [← h.faults]; exact h'.quiet i (by omega) h2

theorem Sink.Put.bad {a : List Byte} {n : Nat} {e : IoKind} {s s' s'' : Sink} (h : Sink.Put a s s')
    (h' : Sink.Bad n e s' s'') : Sink.Bad (a.length + n) e s s'' := by
  refine ⟨?_, ?_, ?_, h'.wf, h'.cap.trans h.cap, h'.faults.trans h.faults,
    Nat.le_trans h.calls h'.calls, ?_⟩
  · rcases h'.reason with ⟨i, k, h1, h2, h3⟩ | ⟨h1, c, h2, h3⟩
    · exact .inl ⟨i, k, Nat.le_trans h.calls h1, h2, by rw [← h.faults]; exact h3⟩
    · refine .inr ⟨h1, c, by rw [← h.cap]; exact h2, ?_⟩
      rw [h.pos] at h3; omega
  · intro i k e' h1 h2 h3
    by_cases hi : i < s'.calls
    · rw [h.quiet i h1 hi] at h3; simp at h3
    · exact h'.first i k e' (by omega) h2 (by rw [h.faults]; exact h3)
  · have h1 := congrArg (List.take s.pos) h'.prefix_
    have h2 := congrArg (List.take s.pos) h.written
    have h3 := h.pos
    rw [List.take_take, List.take_take, Nat.min_eq_left (by omega)] at h1
    rw [h1]
    simp only [Sink.written] at h2
    have h4 : (s.data.take s.pos).length ≤ s.pos := by simp; omega
    by_cases hs : s.pos ≤ s.data.length
    · rw [List.take_take, Nat.min_eq_left (by omega),
        List.take_append_of_le_length (by simp; omega), List.take_take, Nat.min_self] at h2
      exact h2
    · rw [List.take_take, Nat.min_eq_left (by omega), List.take_append] at h2
      exfalso
      have := congrArg List.length h.written
      simp [Sink.written] at this
      have := h.wf.1
      omega
  · have := h.pos; have := h'.pos; omega

theorem Sink.Bad.mono {n m : Nat} {e : IoKind} {s s' : Sink} (h : Sink.Bad n e s s') (hm : n ≤ m) :
    Sink.Bad m e s s' := by
  refine ⟨?_, h.first, h.prefix_, h.wf, h.cap, h.faults, h.calls, h.pos⟩
  rcases h.reason with h | ⟨h1, c, h2, h3⟩
  · exact .inl h
  · exact .inr ⟨h1, c, h2, by omega⟩

theorem Sink.length_splice {d : List Byte} {p : Nat} {bs : List Byte} (h : p ≤ d.length) :
    (Sink.splice d p bs).length = max d.length (p + bs.length) := by
  simp [Sink.splice]; omega

theorem Sink.splice_in {d : List Byte} {p : Nat} {bs : List Byte} (h : p ≤ d.length) :
    Sink.splice d p bs = d.take p ++ bs ++ d.drop (p + bs.length) := by
  simp [Sink.splice, Nat.sub_eq_zero_of_le h]

theorem Sink.put_splice {s : Sink} (hw : s.WF) (bs : List Byte)
    (hc : ∀ c, s.cap = some c → s.pos + bs.length ≤ c) (hq : s.faults s.calls = none) :
    Sink.Put bs s { s with calls := s.calls + 1, data := Sink.splice s.data s.pos bs, pos := s.pos + bs.length } := by
  have hlen : (s.data.take s.pos ++ bs).length = s.pos + bs.length := by
    have := hw.1; simp; omega
  refine ⟨?_, rfl, ?_, ⟨?_, ?_⟩, rfl, rfl, by simp, ?_⟩
  · simp only [Sink.written]
    rw [Sink.splice_in hw.1, ← hlen, List.take_left]
  · simp only
    rw [Sink.splice_in hw.1]
    conv => lhs; rw [← hlen]
    rw [List.drop_left, hlen]
  · simp only; rw [Sink.length_splice hw.1]; omega
  · intro c h
    have h1 := hc c h
    have h2 := hw.2 c h
    simp only; rw [Sink.length_splice hw.1]; omega
  · intro i h1 h2
    have : i = s.calls := by simp at h2; omega
    rw [this, hq]

theorem Sink.bad_splice {s : Sink} (hw : s.WF) (bs bs' : List Byte) (e : IoKind)
    (hc : ∀ c, s.cap = some c → s.pos + bs'.length ≤ c)
    (hr : (∃ k, s.faults s.calls = some (k, e)) ∨ (s.faults s.calls = none ∧ e = .writeZero ∧
      ∃ c, s.cap = some c ∧ c < s.pos + bs.length)) :
    Sink.Bad bs.length e s
      { s with calls := s.calls + 1, data := Sink.splice s.data s.pos bs', pos := s.pos + bs'.length } := by
  refine ⟨?_, ?_, ?_, ⟨?_, ?_⟩, rfl, rfl, by simp, by simp⟩
  · rcases hr with ⟨k, h⟩ | ⟨_, h⟩
    · exact .inl ⟨s.calls, k, Nat.le_refl _, by simp, h⟩
    · exact .inr h
  · intro i k e' h1 h2 h3
    have : i = s.calls := by simp at h2; omega
    subst this
    rcases hr with ⟨k', h⟩ | ⟨h, _⟩
    · rw [h] at h3; simp at h3; exact h3.2.symm
    · rw [h] at h3; simp at h3
  · simp only
    rw [Sink.splice_in hw.1, List.append_assoc, List.take_left' (by have := hw.1; simp; omega)]
  · simp only; rw [Sink.length_splice hw.1]; omega
  · intro c h
    have h1 := hc c h
    have h2 := hw.2 c h
    simp only; rw [Sink.length_splice hw.1]; omega

theorem Sink.writeAll_cases {s : Sink} (hw : s.WF) (bs : List Byte) :
    (∃ s', s.writeAll bs = (.ok (), s') ∧ Sink.Put bs s s') ∨
    (∃ e s', s.writeAll bs = (.error e, s') ∧ Sink.Bad bs.length e s s') := by
  unfold Sink.writeAll
  rcases hf : s.faults s.calls with _ | ⟨k, e⟩
  · rcases hc : s.cap with _ | c
    · have := Sink.put_splice hw bs (by simp [hc]) hf
      rw [hc] at this
      exact .inl ⟨_, rfl, this⟩
    · simp only
      have hlen := hw.2 c hc
      have hpos := hw.1
      by_cases h : bs.length ≤ c - s.pos
      · rw [if_pos h]
        have := Sink.put_splice hw bs (by intro c' h'; simp [hc] at h'; omega) hf
        rw [hc] at this
        exact .inl ⟨_, rfl, this⟩
      · rw [if_neg h]
        have := Sink.bad_splice hw bs (bs.take (c - s.pos)) .writeZero
          (by intro c' h'; simp [hc] at h'; simp; omega) (.inr ⟨hf, rfl, c, hc, by omega⟩)
        rw [hc] at this
        exact .inr ⟨_, _, rfl, this⟩
  · refine .inr ⟨_, _, rfl, Sink.bad_splice hw bs
      (bs.take (min k (match s.cap with | none => bs.length | some c => c - s.pos))) _ ?_
      (.inl ⟨k, hf⟩)⟩
    intro c' h'
    have hlen := hw.2 c' h'
    have hpos := hw.1
    simp [h']; omega

namespace Writer

/-- The write failed with `Io(e)` while asked to produce `n` bits. -/
structure Broke (n : Nat) (e : IoKind) (w w' : Writer) : Prop where
  reason : (∃ i k, w.Called w' i ∧ w.inner.faults i = some (k, e)) ∨
    (e = .writeZero ∧ ∃ c, w.inner.cap = some c ∧
      8 * (c + 1) ≤ 8 * w.inner.pos + w.leftover.length + n)
  first : ∀ i k e', w.Called w' i → w.inner.faults i = some (k, e') → e' = e
  prefix_ : w'.inner.data.take w.inner.pos = w.inner.data.take w.inner.pos
  wf : w'.inner.WF
  cap : w'.inner.cap = w.inner.cap
  faults : w'.inner.faults = w.inner.faults
  calls : w.inner.calls ≤ w'.inner.calls
  pos : w.inner.pos ≤ w'.inner.pos

theorem Wrote.refl (o : Order) {w : Writer} (h : w.WF) : Wrote o [] w w :=
  ⟨by simp, by simp, h, rfl, rfl, rfl, rfl, Nat.le_refl _, fun i hi => by
    have := hi.1; have := hi.2; omega⟩

theorem Wrote.trans {o : Order} {a b : List Bool} {w w' w'' : Writer} (h : Wrote o a w w')
    (h' : Wrote o b w' w'') : Wrote o (a ++ b) w w'' := by
  have hp : w'.inner.pos ≤ w''.inner.pos := by
    have := h'.len; have := h'.wf.2; have := h.wf.2
    omega
  refine ⟨?_, ?_, h'.wf, ?_, ?_, h'.cap.trans h.cap, h'.faults.trans h.faults,
    Nat.le_trans h.calls h'.calls, ?_⟩
  · rw [h'.produced, h.produced, List.append_assoc]
  · have := h.len; have := h'.len; simp; omega
  · have := h.counted; have := h'.counted; omega
  · rw [h'.tail]
    have := congrArg (List.drop (w''.inner.pos - w'.inner.pos)) h.tail
    rw [List.drop_drop, List.drop_drop,
      show w'.inner.pos + (w''.inner.pos - w'.inner.pos) = w''.inner.pos by omega] at this
    exact this
  · intro i hi
    by_cases hc : i < w'.inner.calls
    · exact h.quiet i ⟨hi.1, hc⟩
    · rw [← h.faults]; exact h'.quiet i ⟨by omega, hi.2⟩

theorem Broke.mono {n m : Nat} {e : IoKind} {w w' : Writer} (h : Broke n e w w') (hm : n ≤ m) :
    Broke m e w w' := by
  refine ⟨?_, h.first, h.prefix_, h.wf, h.cap, h.faults, h.calls, h.pos⟩
  rcases h.reason with h | ⟨h1, c, h2, h3⟩
  · exact .inl h
  · exact .inr ⟨h1, c, h2, by omega⟩

theorem take_prefix_of_take {α : Type} {a b : List α} {p q : Nat} (h : a.take q = b.take q)
    (hp : p ≤ q) : a.take p = b.take p := by
  have := congrArg (List.take p) h
  rwa [List.take_take, List.take_take, Nat.min_eq_left hp] at this

theorem orderBits_prefix {o : Order} {a b : List Byte} {l m : List Bool}
    (h : orderBits o a ++ l = orderBits o b ++ m) (k : Nat) (ha : k ≤ a.length)
    (hb : k ≤ b.length) : a.take k = b.take k := by
  have := congrArg (List.take (8 * k)) h
  rw [List.take_append_of_le_length (by simp; omega),
    List.take_append_of_le_length (by simp; omega), Reader.take_orderBits,
    Reader.take_orderBits] at this
  exact Reader.orderBits_inj o this

theorem Wrote.prefix_ {o : Order} {a : List Bool} {w w' : Writer} (h : Wrote o a w w')
    (hw : w.WF) : w'.inner.data.take w.inner.pos = w.inner.data.take w.inner.pos := by
  have hp : w.inner.pos ≤ w'.inner.pos := by
    have := h.len; have := h.wf.2; have := hw.2
    omega
  have h1 := h.produced
  simp only [Writer.produced, List.append_assoc] at h1
  have hwl := hw.1.1
  have hwl' := h.wf.1.1
  have := orderBits_prefix h1 w.inner.pos (by simp [Sink.written]; omega)
    (by simp [Sink.written]; omega)
  simp only [Sink.written, List.take_take] at this
  rwa [Nat.min_eq_left hp, Nat.min_self] at this

theorem Wrote.broke {o : Order} {a : List Bool} {n : Nat} {e : IoKind} {w w' w'' : Writer}
    (hw : w.WF) (h : Wrote o a w w') (h' : Broke n e w' w'') : Broke (a.length + n) e w w'' := by
  have hp : w.inner.pos ≤ w'.inner.pos := by
    have := h.len; have := h.wf.2; have := hw.2
    omega
  refine ⟨?_, ?_, ?_, h'.wf, h'.cap.trans h.cap, h'.faults.trans h.faults,
    Nat.le_trans h.calls h'.calls, Nat.le_trans hp h'.pos⟩
  · rcases h'.reason with ⟨i, k, h1, h2⟩ | ⟨h1, c, h2, h3⟩
    · exact .inl ⟨i, k, ⟨Nat.le_trans h.calls h1.1, h1.2⟩, by rw [← h.faults]; exact h2⟩
    · refine .inr ⟨h1, c, by rw [← h.cap]; exact h2, ?_⟩
      have := h.len; omega
  · intro i k e' hi hf
    by_cases hc : i < w'.inner.calls
    · rw [h.quiet i ⟨hi.1, hc⟩] at hf; simp at hf
    · exact h'.first i k e' ⟨by omega, hi.2⟩ (by rw [h.faults]; exact hf)
  · rw [take_prefix_of_take h'.prefix_ hp, h.prefix_ hw]

/-- The two possible outcomes of producing `bits` in order `o`. -/
def Outcome (o : Order) (bits : List Bool) (w : Writer) (res : Res Unit × Writer) : Prop :=
  (∃ w', res = (.ok (), w') ∧ Wrote o bits w w') ∨
  (∃ e w', res = (.err (.io e), w') ∧ Broke bits.length e w w')

theorem Outcome.bind {o : Order} {a b : List Bool} {w : Writer} {x y : M Writer Unit} (hw : w.WF)
    (h : Outcome o a w (x w)) (h' : ∀ w', x w = (.ok (), w') → Wrote o a w w' → Outcome o b w' (y w')) :
    Outcome o (a ++ b) w ((x >>= fun _ => y) w) := by
  rcases h with ⟨w', hx, h1⟩ | ⟨e, w', hx, h1⟩
  · rw [M.bind_ok hx]
    rcases h' w' hx h1 with ⟨w'', hy, h2⟩ | ⟨e, w'', hy, h2⟩
    · exact .inl ⟨w'', hy, h1.trans h2⟩
    · exact .inr ⟨e, w'', hy, by rw [List.length_append]; exact h1.broke hw h2⟩
  · rw [M.bind_err hx]
    exact .inr ⟨e, w', rfl, h1.mono (by simp)⟩

theorem writeAll_cases {w : Writer} (hw : w.inner.WF) (bs : List Byte) :
    (∃ s, writeAll bs w = (.ok (), { w with inner := s }) ∧ Sink.Put bs w.inner s) ∨
    (∃ e s, writeAll bs w = (.err (.io e), { w with inner := s }) ∧
      Sink.Bad bs.length e w.inner s) := by
  rcases Sink.writeAll_cases hw bs with ⟨s, h, hp⟩ | ⟨e, s, h, hp⟩
  · exact .inl ⟨s, by simp [writeAll, h], hp⟩
  · exact .inr ⟨e, s, by simp [writeAll, h], hp⟩

theorem writeChunks_cases {w : Writer} (hw : w.inner.WF) (cs : List (List Bool)) :
    (∃ s, writeChunks cs w = (.ok (), { w with inner := s }) ∧
      Sink.Put (cs.map byteOf) w.inner s) ∨
    (∃ e s, writeChunks cs w = (.err (.io e), { w with inner := s }) ∧
      Sink.Bad cs.length e w.inner s) := by
  induction cs generalizing w with
  | nil => exact .inl ⟨w.inner, rfl, Sink.Put.refl hw⟩
  | cons c cs ih =>
    rw [writeChunks]
    rcases writeAll_cases hw [byteOf c] with ⟨s, h, hp⟩ | ⟨e, s, h, hp⟩
    · rw [M.bind_ok h]
      rcases ih (w := { w with inner := s }) hp.wf with ⟨s', h', hp'⟩ | ⟨e, s', h', hp'⟩
      · exact .inl ⟨s', h', hp.trans hp'⟩
      · refine .inr ⟨e, s', h', ?_⟩
        have := hp.bad hp'
        simpa [Nat.add_comm] using this
    · rw [M.bind_err h]
      exact .inr ⟨e, s, rfl, hp.mono (by simp)⟩

theorem Wrote.mk' {o : Order} {bits : List Bool} {w : Writer} {s : Sink} {bs : List Byte}
    {l : List Bool} {t : Order} {n : Nat} (hput : Sink.Put bs w.inner s) (hl : l.length < 8)
    (hbits : orderBits o bs ++ present o l = present o w.leftover ++ bits)
    (hn : n = w.bitsWritten + 8 * bs.length) :
    Wrote o bits w { inner := s, leftover := l, tag := t, bitsWritten := n } where
  produced := by
    simp only [Writer.produced, Writer.rest]
    rw [hput.written, Reader.orderBits_append, List.append_assoc, hbits, List.append_assoc]
  len := by
    have := congrArg List.length hbits
    have := hput.pos
    cases o <;> simp [present] at * <;> omega
  wf := ⟨hput.wf, hl⟩
  counted := by have := hput.pos; simp; omega
  tail := hput.tail
  cap := hput.cap
  faults := hput.faults
  calls := hput.calls
  quiet := fun i hi => hput.quiet i hi.1 hi.2

theorem Broke.mk' {m n : Nat} {e : IoKind} {w w' : Writer} (h : Sink.Bad m e w.inner w'.inner)
    (hm : 8 * m ≤ w.leftover.length + n) : Broke n e w w' where
  reason := by
    rcases h.reason with ⟨i, k, h1, h2, h3⟩ | ⟨h1, c, h2, h3⟩
    · exact .inl ⟨i, k, ⟨h1, h2⟩, h3⟩
    · exact .inr ⟨h1, c, h2, by omega⟩
  first := fun i k e' hi hf => h.first i k e' hi.1 hi.2 hf
  prefix_ := h.prefix_
  wf := h.wf
  cap := h.cap
  faults := h.faults
  calls := h.calls
  pos := h.pos

@[simp] theorem extend_run (bits : List Bool) (w : Writer) (h : w.leftover.length + bits.length ≤ 8) :
    extend bits w = (.ok (), { w with leftover := w.leftover ++ bits }) := by
  simp [extend, h]

theorem extend_bind_run {β : Type} (bits : List Bool) (w : Writer) (f : Unit → M Writer β)
    (h : w.leftover.length + bits.length ≤ 8) :
    (extend bits >>= f) w = f () { w with leftover := w.leftover ++ bits } := by
  rw [M.bind_ok (extend_run bits w h)]

theorem takeLeftover_bind_run {β : Type} (w : Writer) (f : List Bool → M Writer β) :
    (takeLeftover >>= f) w = f w.leftover { w with leftover := [], tag := .msb0 } := rfl

theorem flushFull_full {w : Writer} (hw : w.inner.WF) (h : w.leftover.length = 8) :
    (∃ s, flushFull w = (.ok (), { inner := s, leftover := [], tag := .msb0, bitsWritten := w.bitsWritten + 8 }) ∧
      Sink.Put [byteOf w.leftover] w.inner s) ∨
    (∃ e s, flushFull w = (.err (.io e), { w with inner := s }) ∧ Sink.Bad 1 e w.inner s) := by
  simp only [flushFull, M.get_bind_run, if_pos h]
  rcases writeAll_cases hw [byteOf w.leftover] with ⟨s, h1, hp⟩ | ⟨e, s, h1, hp⟩
  · rw [M.bind_ok h1]
    exact .inl ⟨s, by simp [h], hp⟩
  · rw [M.bind_err h1]
    exact .inr ⟨e, s, rfl, hp⟩

theorem flushFull_not {w : Writer} (h : w.leftover.length ≠ 8) : flushFull w = (.ok (), w) := by
  simp [flushFull, h]

theorem writeBulk_cases {w : Writer} (hw : w.inner.WF) (cs : List (List Bool)) (n : Nat) :
    (∃ s, writeBulk cs n w = (.ok (), { w with inner := s, bitsWritten := w.bitsWritten + n }) ∧
      Sink.Put (cs.map byteOf) w.inner s) ∨
    (∃ e s, writeBulk cs n w = (.err (.io e), { w with inner := s }) ∧
      Sink.Bad cs.length e w.inner s) := by
  rcases writeChunks_cases hw cs with ⟨s, h, hp⟩ | ⟨e, s, h, hp⟩
  · exact .inl ⟨s, by rw [writeBulk, M.bind_ok h]; rfl, hp⟩
  · exact .inr ⟨e, s, by rw [writeBulk, M.bind_err h], hp⟩

@[simp] theorem length_fwdRemainder (l : List Bool) : (fwdRemainder l).length = l.length % 8 := by
  simp [fwdRemainder]; omega

@[simp] theorem length_bwdRemainder (l : List Bool) : (bwdRemainder l).length = l.length % 8 := by
  simp [bwdRemainder]; omega

@[simp] theorem length_rchunks8 (k : Nat) (l : List Bool) : (rchunks8 k l).length = k := by
  induction k generalizing l with
  | zero => rfl
  | succ k ih => simp [rchunks8, ih]

theorem fwd_split (l : List Bool) :
    bytesBits ((chunks8 (l.length / 8) l).map byteOf) ++ fwdRemainder l = l := by
  rw [bytesBits_chunks8 _ _ (by omega), fwdRemainder, List.take_append_drop]

theorem bwd_split (l : List Bool) :
    bytesBitsLsb ((rchunks8 (l.length / 8) l).map byteOf) ++ (bwdRemainder l).reverse = l.reverse := by
  rw [bytesBitsLsb_rchunks8 _ _ (by omega), bwdRemainder,
    show l.length - 8 * (l.length / 8) = l.length % 8 by omega, ← List.reverse_append,
    List.take_append_drop]

/-- The common tail of `write_bits_order_msb_msb` and `write_bits_order_lsb_lsb`. -/
theorem tail_cases {w : Writer} (hw : w.inner.WF) (cs : List (List Bool)) (n : Nat)
    (rem : List Bool) (t : Order) (hrem : w.leftover.length + rem.length ≤ 8) :
    (∃ s, (writeBulk cs n >>= fun _ => extend rem >>= fun _ =>
        M.modify (fun w => { w with tag := t })) w =
        (.ok (), { inner := s, leftover := w.leftover ++ rem, tag := t, bitsWritten := w.bitsWritten + n }) ∧
      Sink.Put (cs.map byteOf) w.inner s) ∨
    (∃ e s, (writeBulk cs n >>= fun _ => extend rem >>= fun _ =>
        M.modify (fun w => { w with tag := t })) w = (.err (.io e), { w with inner := s }) ∧
      Sink.Bad cs.length e w.inner s) := by
  rcases writeBulk_cases hw cs n with ⟨s, h, hp⟩ | ⟨e, s, h, hp⟩
  · refine .inl ⟨s, ?_, hp⟩
    rw [M.bind_ok h, extend_bind_run _ _ _ (by simpa using hrem)]; rfl
  · refine .inr ⟨e, s, ?_, hp⟩
    rw [M.bind_err h]

/-- `Outcome`, and the order tag a successful call leaves behind. -/
def Done (o : Order) (bits : List Bool) (t : Order) (w : Writer) (res : Res Unit × Writer) : Prop :=
  (∃ w', res = (.ok (), w') ∧ Wrote o bits w w' ∧ w'.tag = t) ∨
  (∃ e w', res = (.err (.io e), w') ∧ Broke bits.length e w w')

theorem Done.outcome {o : Order} {bits : List Bool} {t : Order} {w : Writer}
    {res : Res Unit × Writer} (h : Done o bits t w res) : Outcome o bits w res := by
  rcases h with ⟨w', h1, h2, _⟩ | h
  · exact .inl ⟨w', h1, h2⟩
  · exact .inr h

theorem msbMsb_done {w : Writer} (hw : w.WF) (bits : List Bool) :
    Done .msb0 bits .msb0 w (msbMsb bits w) := by
  have hlt := hw.2
  have hW := hw.1
  simp only [msbMsb, M.get_bind_run, hlt, decide_true, M.assert_true_bind_run,
    takeLeftover_bind_run]
  by_cases hlo : w.leftover = []
  · simp only [hlo, List.isEmpty_nil, if_true, M.pure_bind_run]
    rcases tail_cases (w := { w with leftover := [], tag := .msb0 }) hW
      (chunks8 (bits.length / 8) bits) (bits.length - (fwdRemainder bits).length)
      (fwdRemainder bits) .msb0 (by simp; omega) with ⟨s, h, hp⟩ | ⟨e, s, h, hp⟩
    · rw [h]
      refine .inl ⟨_, rfl, Wrote.mk' hp (by simp; omega) ?_ (by simp; omega), rfl⟩
      simp only [orderBits, present, hlo, List.nil_append]; exact fwd_split bits
    · rw [h]
      exact .inr ⟨e, _, rfl, Broke.mk' hp (by simp; omega)⟩
  · have hne : w.leftover.isEmpty = false := by simp [hlo]
    have h0 : 0 < w.leftover.length := List.length_pos_iff.2 hlo
    generalize hLO : w.leftover = lo at *
    simp only [hne, Bool.false_eq_true, if_false]
    rw [extend_bind_run _ _ _ (by simp; omega), extend_bind_run _ _ _ (by simp; omega)]
    simp only [List.nil_append, M.get_bind_run]
    by_cases hc : bits.length < 8 - lo.length
    · rw [Nat.min_eq_right (by omega)]
      simp only [List.take_length, List.drop_length, List.isEmpty_nil, Bool.or_true,
        M.assert_true_bind_run]
      rw [M.bind_ok (flushFull_not (by simp; omega)), M.pure_bind_run]
      rcases tail_cases (w := { w with leftover := lo ++ bits, tag := .msb0 }) hW
        (chunks8 (([] : List Bool).length / 8) []) (([] : List Bool).length - (fwdRemainder []).length)
        (fwdRemainder []) .msb0 (by simp; omega) with ⟨s, h, hp⟩ | ⟨e, s, h, hp⟩
      · rw [h]
        refine .inl ⟨_, rfl, Wrote.mk' hp (by simp; omega) ?_ (by simp), rfl⟩
        simp [orderBits, present, hLO, fwdRemainder, chunks8]
      · rw [h]
        exact .inr ⟨e, _, rfl, Broke.mk' hp (by simp)⟩
    · rw [Nat.min_eq_left (by omega)]
      generalize hk : 8 - lo.length = k at *
      have hfull : (lo ++ bits.take k).length = 8 := by simp; omega
      simp only [hfull, decide_true, Bool.true_or, M.assert_true_bind_run]
      rcases flushFull_full (w := { w with leftover := lo ++ bits.take k, tag := .msb0 }) hW hfull with
        ⟨s, h, hp⟩ | ⟨e, s, h, hp⟩
      · rw [M.bind_ok h, M.pure_bind_run]
        generalize hr : bits.drop k = r at *
        have hrl : r.length = bits.length - k := by simp [← hr]
        rcases tail_cases (w := { inner := s, leftover := [], tag := .msb0, bitsWritten := w.bitsWritten + 8 }) hp.wf
          (chunks8 (r.length / 8) r) (r.length - (fwdRemainder r).length)
          (fwdRemainder r) .msb0 (by simp; omega) with ⟨s', h', hp'⟩ | ⟨e, s', h', hp'⟩
        · rw [h']
          refine .inl ⟨_, rfl, Wrote.mk' (hp.trans hp') (by simp; omega) ?_ (by simp; omega), rfl⟩
          simp only [orderBits, present, hLO, List.nil_append, bytesBits_append, bytesBits_cons,
            bytesBits_nil, List.append_nil, byteBits_byteOf _ hfull, List.append_assoc, fwd_split]
          rw [← hr, List.take_append_drop]
        · rw [h']
          exact .inr ⟨e, _, rfl, Broke.mk' (hp.bad hp') (by simp [hLO]; omega)⟩
      · rw [M.bind_err h]
        exact .inr ⟨e, _, rfl, Broke.mk' hp (by simp [hLO]; omega)⟩

theorem lsbLsb_done {w : Writer} (hw : w.WF) (bits : List Bool) :
    Done .lsb0 bits.reverse .lsb0 w (lsbLsb bits w) := by
  have hlt := hw.2
  have hW := hw.1
  simp only [lsbLsb, M.get_bind_run, hlt, decide_true, M.assert_true_bind_run,
    takeLeftover_bind_run]
  by_cases hlo : w.leftover = []
  · simp only [hlo, List.isEmpty_nil, if_true, M.pure_bind_run]
    rcases tail_cases (w := { w with leftover := [], tag := .msb0 }) hW
      (rchunks8 (bits.length / 8) bits) (bits.length - (bwdRemainder bits).length)
      (bwdRemainder bits) .lsb0 (by simp; omega) with ⟨s, h, hp⟩ | ⟨e, s, h, hp⟩
    · rw [h]
      refine .inl ⟨_, rfl, Wrote.mk' hp (by simp; omega) ?_ (by simp; omega), rfl⟩
      simp only [orderBits, present, hlo, List.nil_append, List.reverse_nil]; exact bwd_split bits
    · rw [h]
      exact .inr ⟨e, _, rfl, Broke.mk' hp (by simp; omega)⟩
  · have hne : w.leftover.isEmpty = false := by simp [hlo]
    have h0 : 0 < w.leftover.length := List.length_pos_iff.2 hlo
    generalize hLO : w.leftover = lo at *
    simp only [hne, Bool.false_eq_true, if_false]
    rw [extend_bind_run _ _ _ (by simp; omega), extend_bind_run _ _ _ (by simp; omega)]
    simp only [List.nil_append, M.get_bind_run]
    by_cases hc : bits.length < 8 - lo.length
    · rw [Nat.min_eq_right (by omega), Nat.sub_self]
      simp only [List.take_zero, List.drop_zero, List.isEmpty_nil, Bool.or_true,
        M.assert_true_bind_run]
      rw [M.bind_ok (flushFull_not (by simp; omega)), M.pure_bind_run]
      rcases tail_cases (w := { w with leftover := bits ++ lo, tag := .msb0 }) hW
        (rchunks8 (([] : List Bool).length / 8) []) (([] : List Bool).length - (bwdRemainder []).length)
        (bwdRemainder []) .lsb0 (by simp; omega) with ⟨s, h, hp⟩ | ⟨e, s, h, hp⟩
      · rw [h]
        refine .inl ⟨_, rfl, Wrote.mk' hp (by simp; omega) ?_ (by simp), rfl⟩
        simp [orderBits, present, hLO, bwdRemainder, rchunks8]
      · rw [h]
        exact .inr ⟨e, _, rfl, Broke.mk' hp (by simp)⟩
    · rw [Nat.min_eq_left (by omega)]
      generalize hk : bits.length - (8 - lo.length) = k at *
      have hfull : (bits.drop k ++ lo).length = 8 := by simp; omega
      simp only [hfull, decide_true, Bool.true_or, M.assert_true_bind_run]
      rcases flushFull_full (w := { w with leftover := bits.drop k ++ lo, tag := .msb0 }) hW hfull with
        ⟨s, h, hp⟩ | ⟨e, s, h, hp⟩
      · rw [M.bind_ok h, M.pure_bind_run]
        generalize hr : bits.take k = r at *
        have hrl : r.length = k := by simp [← hr]; omega
        rcases tail_cases (w := { inner := s, leftover := [], tag := .msb0, bitsWritten := w.bitsWritten + 8 }) hp.wf
          (rchunks8 (r.length / 8) r) (r.length - (bwdRemainder r).length)
          (bwdRemainder r) .lsb0 (by simp; omega) with ⟨s', h', hp'⟩ | ⟨e, s', h', hp'⟩
        · rw [h']
          refine .inl ⟨_, rfl, Wrote.mk' (hp.trans hp') (by simp; omega) ?_ (by simp; omega), rfl⟩
          simp only [orderBits, present, hLO, List.nil_append, bytesBitsLsb_append, bytesBitsLsb_cons,
            bytesBitsLsb_nil, List.append_nil, byteBits_byteOf _ hfull, List.append_assoc, bwd_split]
          rw [List.reverse_append, List.append_assoc, ← hr, ← List.reverse_append,
            List.take_append_drop]
        · rw [h']
          exact .inr ⟨e, _, rfl, Broke.mk' (hp.bad hp') (by simp [hLO]; omega)⟩
      · rw [M.bind_err h]
        exact .inr ⟨e, _, rfl, Broke.mk' hp (by simp [hLO]; omega)⟩

theorem msbLsb_done {w : Writer} (hw : w.WF) (hlo : w.leftover = []) (bits : List Bool)
    (hb : bits.length ≤ 8) : Done .lsb0 bits.reverse .lsb0 w (msbLsb bits w) := by
  have hW := hw.1
  simp only [msbLsb, M.get_bind_run, hlo, List.length_nil, Nat.zero_lt_succ, decide_true,
    M.assert_true_bind_run, takeLeftover_bind_run, List.isEmpty_nil, if_true]
  rw [extend_bind_run _ _ _ (by simp), extend_bind_run _ _ _ (by simp)]
  simp only [List.append_nil]
  rw [M.bind_ok (flushFull_not (by simp))]
  rcases writeBulk_cases (w := { w with leftover := [], tag := .msb0 }) hW
      (chunks8 (bits.length / 8) bits) (bits.length - (fwdRemainder bits).length) with
      ⟨s, h, hp⟩ | ⟨e, s, h, hp⟩
  · rw [M.bind_ok h]
    simp only [M.get_bind_run, List.length_nil, length_fwdRemainder]
    rw [show (decide (0 + bits.length % 8 ≤ 8)) = true by simp; omega, M.assert_true_bind_run,
      extend_bind_run _ _ _ (by simp; omega), extend_bind_run _ _ _ (by simp; omega)]
    simp only [M.get_bind_run, List.drop_nil, List.isEmpty_nil, Bool.or_true,
      M.assert_true_bind_run, List.take_nil, List.append_nil, List.nil_append]
    rw [M.bind_ok (flushFull_not (by simp; omega)), extend_bind_run _ _ _ (by simp; omega)]
    refine .inl ⟨_, rfl, Wrote.mk' hp (by simp; omega) ?_ (by simp; omega), rfl⟩
    simp only [orderBits, present, hlo, List.nil_append, List.reverse_nil, List.append_nil]
    by_cases h8 : bits.length = 8
    · simp [chunks8, fwdRemainder, h8, List.take_of_length_le, List.drop_of_length_le]
    · simp [chunks8, fwdRemainder, show bits.length / 8 = 0 by omega]
  · rw [M.bind_err h]
    exact .inr ⟨e, _, rfl, Broke.mk' hp (by simp; omega)⟩

theorem lsbMsb_done {w : Writer} (hw : w.WF) (hlo : w.leftover = []) (bits : List Bool)
    (hb : bits.length ≤ 8) : Done .msb0 bits .msb0 w (lsbMsb bits w) := by
  have hW := hw.1
  simp only [lsbMsb, M.get_bind_run, hlo, List.length_nil, Nat.zero_lt_succ, decide_true,
    M.assert_true_bind_run, takeLeftover_bind_run, List.isEmpty_nil, if_true]
  rcases writeBulk_cases (w := { w with leftover := [], tag := .msb0 }) hW
      (rchunks8 (bits.length / 8) bits) (bits.length - (bwdRemainder bits).length) with
      ⟨s, h, hp⟩ | ⟨e, s, h, hp⟩
  · rw [M.bind_ok h, extend_bind_run _ _ _ (by simp; omega), extend_bind_run _ _ _ (by simp; omega)]
    simp only [M.modify_bind_run, M.get_bind_run, Bool.or_true,
      M.assert_true_bind_run, List.append_nil, List.nil_append]
    rw [M.bind_ok (flushFull_not (by simp; omega)), extend_run _ _ (by simp; omega)]
    refine .inl ⟨_, rfl, Wrote.mk' hp (by simp; omega) ?_ (by simp; omega), rfl⟩
    simp only [orderBits, present, hlo, List.nil_append, List.append_nil]
    by_cases h8 : bits.length = 8
    · simp [rchunks8, bwdRemainder, h8]
    · simp [rchunks8, bwdRemainder, show bits.length / 8 = 0 by omega,
        show bits.length % 8 = bits.length by omega]
  · rw [M.bind_err h]
    exact .inr ⟨e, _, rfl, Broke.mk' hp (by simp; omega)⟩

theorem writeBitsOrder_done {w : Writer} (hw : w.WF) (o : Order) (bits : List Bool)
    (h : w.tag = o ∨ (w.leftover = [] ∧ bits.length ≤ 8)) :
    Done o (present o bits) o w (writeBitsOrder bits o w) := by
  simp only [writeBitsOrder, M.get_bind_run]
  cases o <;> cases ht : w.tag <;> simp [ht] at h <;> simp only [present]
  · exact msbMsb_done hw bits
  · exact lsbMsb_done hw h.1 bits h.2
  · exact msbLsb_done hw h.1 bits h.2
  · exact lsbLsb_done hw bits

/-- Bytes written at a byte boundary are produced as they are, in either bit order. -/
theorem writeBytes_done_aligned {w : Writer} (hw : w.WF) (o : Order) (bs : List Byte)
    (h : w.leftover = []) : Done o (orderBits o bs) w.tag w (writeBytes bs w) := by
  simp only [writeBytes, M.get_bind_run, h, List.isEmpty_nil, if_true]
  rcases writeAll_cases hw.1 bs with ⟨s, h1, hp⟩ | ⟨e, s, h1, hp⟩
  · rw [M.bind_ok h1]
    refine .inl ⟨_, rfl, Wrote.mk' hp (by simp [h]) ?_ (by simp; omega), rfl⟩
    cases o <;> simp [present, h]
  · rw [M.bind_err h1]
    exact .inr ⟨e, _, rfl, Broke.mk' hp (by simp)⟩

theorem writeBytes_done_msb {w : Writer} (hw : w.WF) (bs : List Byte) (h : w.tag = .msb0) :
    Done .msb0 (bytesBits bs) .msb0 w (writeBytes bs w) := by
  by_cases hl : w.leftover = []
  · have := writeBytes_done_aligned hw .msb0 bs hl
    rwa [h] at this
  · simp only [writeBytes, M.get_bind_run]
    rw [if_neg (by simpa using hl)]
    exact writeBitsOrder_done hw .msb0 _ (.inl h)

theorem writeBitsUintMsb0_done {w : Writer} (hw : w.WF) (ht : w.tag = .msb0) (v amt : Nat)
    (h1 : 1 ≤ amt) (h2 : amt ≤ 64) :
    Done .msb0 (bitsBE amt v) .msb0 w (writeBitsUintMsb0 v amt w) := by
  have hlt := hw.2
  have hW := hw.1
  simp only [writeBitsUintMsb0, M.get_bind_run, h1, h2, ht, decide_true, Bool.and_self,
    M.assert_true_bind_run]
  generalize hacc : ofBits w.leftover * 2 ^ amt + v % 2 ^ amt = acc
  have hbits : bitsBE (w.leftover.length + amt) acc = w.leftover ++ bitsBE amt v := by
    rw [← bitsBE_ofBits' (w.leftover ++ bitsBE amt v) (w.leftover.length + amt) (by simp),
      ofBits_append, ofBits_bitsBE, length_bitsBE, hacc]
  generalize hn : w.leftover.length + amt = n at *
  by_cases hz : n / 8 = 0
  · simp only [hz, ne_eq, not_true_eq_false, if_false, M.modify_run]
    have hp := Sink.Put.refl hW
    refine .inl ⟨_, rfl, Wrote.mk' hp (by simp; omega) ?_ (by simp), rfl⟩
    simp only [orderBits, present, bytesBits_nil, List.nil_append]
    rw [← hbits, show n % 8 = n by omega]
  · simp only [ne_eq, hz, not_false_eq_true, if_true]
    rcases writeAll_cases hW (toBE (n / 8) (acc / 2 ^ (n % 8))) with ⟨s, h, hp⟩ | ⟨e, s, h, hp⟩
    · rw [M.bind_ok h]
      refine .inl ⟨_, rfl, Wrote.mk' hp (by simp; omega) ?_ (by simp; omega), rfl⟩
      simp only [orderBits, present, bytesBits_toBE]
      rw [← bitsBE_add, show 8 * (n / 8) + n % 8 = n by omega, hbits]
    · rw [M.bind_err h]
      exact .inr ⟨e, _, rfl, Broke.mk' hp (by simp; omega)⟩

theorem finalize_done {w : Writer} (hw : w.WF) :
    Done w.tag (List.replicate ((8 - w.leftover.length) % 8) false) w.tag w (finalize w) := by
  have hlt := hw.2
  simp only [finalize, M.get_bind_run, hlt, decide_true, M.assert_true_bind_run]
  have := writeBitsOrder_done hw w.tag (List.replicate ((8 - w.leftover.length) % 8) false) (.inl rfl)
  cases ht : w.tag <;> simpa [present, ht] using this

/-! ### sinks that cannot fail -/

theorem Broke.not_healthy {n : Nat} {e : IoKind} {w w' : Writer} (h : Broke n e w w')
    (hh : w.Healthy) : False := by
  rcases h.reason with ⟨i, k, _, h2⟩ | ⟨_, c, h2, _⟩
  · rw [hh.1] at h2; simp [noFaults] at h2
  · rw [hh.2] at h2; simp at h2

theorem Wrote.healthy {o : Order} {bits : List Bool} {w w' : Writer} (h : Wrote o bits w w')
    (hh : w.Healthy) : w'.Healthy := ⟨h.faults.trans hh.1, h.cap.trans hh.2⟩

theorem Done.ok {o : Order} {bits : List Bool} {t : Order} {w : Writer} {res : Res Unit × Writer}
    (h : Done o bits t w res) (hh : w.Healthy) :
    ∃ w', res = (.ok (), w') ∧ Wrote o bits w w' ∧ w'.tag = t := by
  rcases h with h | ⟨e, w', _, h⟩
  · exact h
  · exact (h.not_healthy hh).elim

end Writer
end Deku
