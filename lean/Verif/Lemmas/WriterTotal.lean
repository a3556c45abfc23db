import Verif.Lemmas.Writer

/-!
# No write call panics

In whatever state the writer is (any pending bits of any bit order), every bit write of any length in
any order either accounts for all its bits or reports an error of the sink.
-/

namespace Deku

namespace Writer

/-- The writer has taken in `n` more bits. -/
structure Grew (n : Nat) (w w' : Writer) : Prop where
  len : 8 * w'.inner.pos + w'.leftover.length = 8 * w.inner.pos + w.leftover.length + n
  wf : w'.WF
  counted : w'.bitsWritten + 8 * w.inner.pos = w.bitsWritten + 8 * w'.inner.pos
  prefix_ : w'.inner.data.take w.inner.pos = w.inner.data.take w.inner.pos
  cap : w'.inner.cap = w.inner.cap
  faults : w'.inner.faults = w.inner.faults
  pos : w.inner.pos ≤ w'.inner.pos
  tail : w'.inner.data.drop w'.inner.pos = w.inner.data.drop w'.inner.pos

/-- A call that accounts for `n` bits or reports an error of the sink; no panic. -/
def Took (n : Nat) (w : Writer) (res : Res Unit × Writer) : Prop :=
  (∃ w', res = (.ok (), w') ∧ Grew n w w') ∨
  (∃ e w', res = (.err (.io e), w') ∧ Broke n e w w')

theorem Grew.healthy {n : Nat} {w w' : Writer} (h : Grew n w w') (hh : w.Healthy) : w'.Healthy :=
  ⟨h.faults.trans hh.1, h.cap.trans hh.2⟩

theorem Wrote.grew {o : Order} {bits : List Bool} {w w' : Writer} (hw : w.WF)
    (h : Wrote o bits w w') : Grew bits.length w w' :=
  ⟨h.len, h.wf, h.counted, h.prefix_ hw, h.cap, h.faults, by have := h.len; have := hw.2; have := h.wf.2; omega, h.tail⟩

theorem Done.took {o : Order} {bits : List Bool} {t : Order} {w : Writer} {res : Res Unit × Writer}
    (hw : w.WF) (h : Done o bits t w res) : Took bits.length w res := by
  rcases h with ⟨w', h1, h2, _⟩ | h
  · exact .inl ⟨w', h1, h2.grew hw⟩
  · exact .inr h

theorem Took.ok {n : Nat} {w : Writer} {res : Res Unit × Writer} (h : Took n w res)
    (hh : w.Healthy) : ∃ w', res = (.ok (), w') ∧ Grew n w w' := by
  rcases h with h | ⟨e, w', _, h⟩
  · exact h
  · exact (h.not_healthy hh).elim

theorem Grew.refl {w : Writer} (hw : w.WF) : Grew 0 w w := ⟨rfl, hw, rfl, rfl, rfl, rfl, Nat.le_refl _, rfl⟩

theorem Put_prefix {bs : List Byte} {s s' : Sink} (h : Sink.Put bs s s') (hw : s.WF) :
    s'.data.take s.pos = s.data.take s.pos := by
  have h1 := congrArg (List.take s.pos) h.written
  have h2 := h.pos
  have := hw.1
  simp only [Sink.written] at h1
  rwa [List.take_take, Nat.min_eq_left (by omega), List.take_append_of_le_length (by simp; omega),
    List.take_take, Nat.min_self] at h1

theorem Grew.mk' {n m : Nat} {w : Writer} {s : Sink} {bs : List Byte} {l : List Bool} {t : Order}
    (hw : w.WF) (hput : Sink.Put bs w.inner s) (hl : l.length < 8)
    (hlen : 8 * bs.length + l.length = w.leftover.length + n)
    (hm : m = w.bitsWritten + 8 * bs.length) :
    Grew n w { inner := s, leftover := l, tag := t, bitsWritten := m } :=
  ⟨by have := hput.pos; simp; omega, ⟨hput.wf, hl⟩, by have := hput.pos; simp; omega,
    Put_prefix hput hw.1, hput.cap, hput.faults, by have := hput.pos; simp; omega, hput.tail⟩

theorem msbLsb_took {w : Writer} (hw : w.WF) (bits : List Bool) :
    Took bits.length w (msbLsb bits w) := by
  have hlt := hw.2
  have hW := hw.1
  simp only [msbLsb, M.get_bind_run, hlt, decide_true, M.assert_true_bind_run,
    takeLeftover_bind_run]
  -- the four parts, their lengths, and what the case distinction on the first flush needs
  obtain ⟨first, complement, bulk, last, hparts, hlen, hfc, hfull, hbulk, hlast⟩ :
      ∃ first complement bulk last : List Bool,
        (if w.leftover.isEmpty then (([] : List Bool), ([] : List Bool), bits, ([] : List Bool))
          else
            let c := min (8 - bits.length % 8) w.leftover.length
            let front := min bits.length (8 - c)
            (w.leftover.take c, bits.take front, bits.drop front, w.leftover.drop c)) =
          (first, complement, bulk, last) ∧
        first.length + complement.length + bulk.length + last.length =
          w.leftover.length + bits.length ∧
        first.length + complement.length ≤ 8 ∧
        (first.length + complement.length ≠ 8 → (bulk = [] ∨ first.length + complement.length = 0) ∧ last = []) ∧
        (last ≠ [] → bulk.length % 8 = 0) ∧ last.length < 8 := by
    by_cases he : w.leftover = []
    · refine ⟨[], [], bits, [], by simp [he], by simp [he], by simp, by simp, by simp, by simp⟩
    · have h0 : 0 < w.leftover.length := List.length_pos_iff.2 he
      refine ⟨_, _, _, _, by rw [if_neg (by simpa using he)], ?_, ?_, ?_, ?_, ?_⟩
      · simp; omega
      · simp; omega
      · intro h
        simp only [List.length_take] at h
        constructor
        · left
          apply List.drop_eq_nil_of_le
          omega
        · apply List.drop_eq_nil_of_le
          omega
      · intro h
        simp only [List.length_drop]
        have : ¬ w.leftover.length ≤ min (8 - bits.length % 8) w.leftover.length :=
          fun hc => h (List.drop_eq_nil_of_le hc)
        omega
      · simp; omega
  simp only at hparts
  rw [hparts]
  simp only
  rw [extend_bind_run _ _ _ (by simp; omega), extend_bind_run _ _ _ (by simp; omega)]
  simp only [List.nil_append]
  -- after the first flush: bytes written so far `b0`, pending `l0`
  have hrest : ∀ (s : Sink) (b0 : List Byte) (l0 : List Bool) (n0 : Nat) (t : Order),
      Sink.Put b0 w.inner s → 8 * b0.length + l0.length = first.length + complement.length →
      n0 = w.bitsWritten + 8 * b0.length →
      (l0 = [] ∨ (bulk = [] ∧ last = [] ∧ l0.length < 8)) →
      Took bits.length w ((writeBulk (chunks8 (bulk.length / 8) bulk)
        (bulk.length - (fwdRemainder bulk).length) >>= fun _ => M.get >>= fun w =>
        M.assert (decide (w.leftover.length + (fwdRemainder bulk).length ≤ 8)) >>= fun _ =>
        extend (fwdRemainder bulk) >>= fun _ =>
        extend (last.take (min (8 - (fwdRemainder bulk).length) last.length)) >>= fun _ =>
        M.get >>= fun w => M.assert (decide (w.leftover.length = 8) ||
          (last.drop (min (8 - (fwdRemainder bulk).length) last.length)).isEmpty) >>= fun _ =>
        flushFull >>= fun _ =>
        extend (last.drop (min (8 - (fwdRemainder bulk).length) last.length)) >>= fun _ =>
        M.modify (fun w => { w with tag := .lsb0 }))
        { inner := s, leftover := l0, tag := t, bitsWritten := n0 }) := by
    intro s b0 l0 n0 t hp hl0 hn0 hc
    have hrem : (fwdRemainder bulk).length = bulk.length % 8 := by simp
    have hbl : bulk.length - (fwdRemainder bulk).length = 8 * (bulk.length / 8) := by omega
    have hc' : l0.length + (fwdRemainder bulk).length + last.length < 8 ∧
        min (8 - (fwdRemainder bulk).length) last.length = last.length := by
      rcases hc with hc | ⟨h1, h2, h3⟩
      · subst hc
        by_cases hl : last = []
        · subst hl; simp; omega
        · have := hbulk hl
          simp; omega
      · subst h1 h2; simp; omega
    obtain ⟨hc1, hc2⟩ := hc'
    rw [hc2]
    rcases writeBulk_cases (w := { inner := s, leftover := l0, tag := t, bitsWritten := n0 }) hp.wf
        (chunks8 (bulk.length / 8) bulk) (bulk.length - (fwdRemainder bulk).length) with
        ⟨s', h, hp'⟩ | ⟨e, s', h, hp'⟩
    · rw [M.bind_ok h, M.get_bind_run]
      rw [show (decide (({ inner := s', leftover := l0, tag := t, bitsWritten := n0 + (bulk.length - (fwdRemainder bulk).length) } : Writer).leftover.length + (fwdRemainder bulk).length ≤ 8)) = true by
        simp only [decide_eq_true_eq]; omega, M.assert_true_bind_run,
        extend_bind_run _ _ _ (by simp only; omega),
        extend_bind_run _ _ _ (by simp only [List.length_append, List.length_take]; omega), M.get_bind_run]
      rw [show last.drop last.length = [] from List.drop_length .., List.isEmpty_nil, Bool.or_true, M.assert_true_bind_run,
        M.bind_ok (flushFull_not (by simp only [List.length_append, List.length_take]; omega)),
        extend_bind_run _ _ _ (by simp only [List.length_append, List.length_take, List.length_nil]; omega)]
      refine .inl ⟨_, rfl, Grew.mk' hw (hp.trans hp') ?_ ?_ ?_⟩
      · simp only [List.length_append, List.length_take, List.length_nil]; omega
      · simp only [List.length_append, List.length_take, List.length_nil, List.length_map, length_chunks8]
        omega
      · simp only [List.length_append, List.length_map, length_chunks8]; omega
    · rw [M.bind_err h]
      refine .inr ⟨e, _, rfl, Broke.mk' (hp.bad hp') ?_⟩
      simp only [length_chunks8]; omega
  by_cases h8 : (first ++ complement).length = 8
  · rcases flushFull_full (w := { w with leftover := first ++ complement, tag := .msb0 }) hW h8 with
      ⟨s, h, hp⟩ | ⟨e, s, h, hp⟩
    · rw [M.bind_ok h]
      exact hrest s _ [] _ _ hp (by simp at h8 ⊢; omega) rfl (.inl rfl)
    · rw [M.bind_err h]
      refine .inr ⟨e, _, rfl, Broke.mk' hp ?_⟩
      simp at h8; omega
  · rw [M.bind_ok (flushFull_not h8)]
    have hf := hfull (by simpa using h8)
    refine hrest w.inner [] (first ++ complement) w.bitsWritten .msb0 (Sink.Put.refl hW) (by simp) (by simp) ?_
    rcases hf.1 with h | h
    · exact .inr ⟨h, hf.2, by simp at h8 ⊢; omega⟩
    · left; exact List.eq_nil_of_length_eq_zero (by simpa using h)

theorem lsbMsb_took {w : Writer} (hw : w.WF) (bits : List Bool) :
    Took bits.length w (lsbMsb bits w) := by
  have hlt := hw.2
  have hW := hw.1
  simp only [lsbMsb, M.get_bind_run, hlt, decide_true, M.assert_true_bind_run,
    takeLeftover_bind_run]
  obtain ⟨complement, rest, hparts, hlen, hle, hfull⟩ :
      ∃ complement rest : List Bool,
        (if w.leftover.isEmpty then (([] : List Bool), ([] : List Bool))
          else
            let c := min (8 - bits.length % 8) w.leftover.length
            (w.leftover.take c, w.leftover.drop c)) = (complement, rest) ∧
        complement.length + rest.length = w.leftover.length ∧
        bits.length % 8 + complement.length ≤ 8 ∧
        (bits.length % 8 + complement.length ≠ 8 → rest = []) := by
    by_cases he : w.leftover = []
    · exact ⟨[], [], by simp [he], by simp [he], by simp; omega, by simp⟩
    · refine ⟨_, _, by rw [if_neg (by simpa using he)], ?_, ?_, ?_⟩
      · simp; omega
      · simp; omega
      · intro h
        simp only [List.length_take] at h
        apply List.drop_eq_nil_of_le
        omega
  simp only at hparts
  rw [hparts]
  simp only
  have hbr : (bwdRemainder bits).length = bits.length % 8 := by simp
  rcases writeBulk_cases (w := { w with leftover := [], tag := .msb0 }) hW
      (rchunks8 (bits.length / 8) bits) (bits.length - (bwdRemainder bits).length) with
      ⟨s, h, hp⟩ | ⟨e, s, h, hp⟩
  · rw [M.bind_ok h, extend_bind_run _ _ _ (by simp only [List.length_nil]; omega),
      extend_bind_run _ _ _ (by simp only [List.length_nil, List.length_append]; omega)]
    simp only [M.modify_bind_run, M.get_bind_run, List.nil_append]
    by_cases h8 : (bwdRemainder bits ++ complement).length = 8
    · rw [h8]
      simp only [decide_true, Bool.true_or, M.assert_true_bind_run]
      rw [List.length_append] at h8
      rcases flushFull_full (w := { inner := s, leftover := bwdRemainder bits ++ complement, tag := .msb0, bitsWritten := w.bitsWritten + (bits.length - (bwdRemainder bits).length) }) hp.wf (by simpa using h8) with
        ⟨s', h', hp'⟩ | ⟨e, s', h', hp'⟩
      · rw [M.bind_ok h', extend_run _ _ (by simp; omega)]
        refine .inl ⟨_, rfl, Grew.mk' hw (hp.trans hp') ?_ ?_ ?_⟩
        · simp; omega
        · simp; omega
        · simp; omega
      · rw [M.bind_err h']
        refine .inr ⟨e, _, rfl, Broke.mk' (hp.bad hp') ?_⟩
        simp; omega
    · have hr : rest = [] := hfull (by simpa using h8)
      subst hr
      simp only [List.isEmpty_nil, Bool.or_true, M.assert_true_bind_run]
      rw [M.bind_ok (flushFull_not h8), extend_run _ _ (by simp; omega)]
      rw [List.length_append] at h8
      simp at hlen
      refine .inl ⟨_, rfl, Grew.mk' hw hp ?_ ?_ ?_⟩
      · simp; omega
      · simp; omega
      · simp; omega
  · rw [M.bind_err h]
    exact .inr ⟨e, _, rfl, Broke.mk' hp (by simp; omega)⟩

/-- Every bit write accounts for all its bits or reports an error of the sink. -/
theorem writeBitsOrder_took {w : Writer} (hw : w.WF) (o : Order) (bits : List Bool) :
    Took bits.length w (writeBitsOrder bits o w) := by
  simp only [writeBitsOrder, M.get_bind_run]
  cases o <;> cases ht : w.tag <;> simp only
  · exact (msbMsb_done hw bits).took hw
  · exact lsbMsb_took hw bits
  · exact msbLsb_took hw bits
  · have := (lsbLsb_done hw bits).took hw
    rwa [List.length_reverse] at this

/-- So does every byte write. -/
theorem writeBytes_took {w : Writer} (hw : w.WF) (bs : List Byte) :
    Took (8 * bs.length) w (writeBytes bs w) := by
  by_cases hl : w.leftover = []
  · have := (writeBytes_done_aligned hw .msb0 bs hl).took hw
    rwa [Reader.length_orderBits] at this
  · simp only [writeBytes, M.get_bind_run]
    rw [if_neg (by simpa using hl)]
    have := writeBitsOrder_took hw .msb0 (bytesBits bs)
    rwa [length_bytesBits] at this

theorem Grew.trans {m n : Nat} {w w' w'' : Writer} (h2 : Grew m w w') (h4 : Grew n w' w'') :
    Grew (m + n) w w'' := by
  refine ⟨?_, h4.wf, ?_, ?_, h4.cap.trans h2.cap, h4.faults.trans h2.faults, Nat.le_trans h2.pos h4.pos, ?_⟩
  · have := h2.len; have := h4.len; omega
  · have := h2.counted; have := h4.counted; omega
  · rw [take_prefix_of_take h4.prefix_ h2.pos, h2.prefix_]
  · have h := congrArg (List.drop (w''.inner.pos - w'.inner.pos)) h2.tail
    have hp := h4.pos
    rw [List.drop_drop, List.drop_drop, show w'.inner.pos + (w''.inner.pos - w'.inner.pos) = w''.inner.pos by omega] at h
    rw [h4.tail, h]

theorem Took.bind {m n : Nat} {w : Writer} {x y : M Writer Unit}
    (h : Took m w (x w)) (h' : ∀ w', x w = (.ok (), w') → Grew m w w' → Took n w' (y w'))
    (hh : w.Healthy) : Took (m + n) w ((x >>= fun _ => y) w) := by
  obtain ⟨w', h1, h2⟩ := h.ok hh
  rw [M.bind_ok h1]
  obtain ⟨w'', h3, h4⟩ := (h' w' h1 h2).ok (h2.healthy hh)
  rw [h3]
  exact .inl ⟨w'', rfl, h2.trans h4⟩

end Writer
end Deku
