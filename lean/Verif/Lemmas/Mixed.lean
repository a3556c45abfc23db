import Verif.Lemmas.WriterTotal
import Verif.Spec.Mixed

/-!
# Writes in both bit orders: where the bits go
-/

namespace Deku

namespace Mixed

variable {α β : Type}

theorem whole_pending (s : List α) : whole s ++ pending s = s := List.take_append_drop ..

theorem whole_of (a b : List α) (ha : a.length % 8 = 0) (hb : b.length < 8) : whole (a ++ b) = a := by
  rw [whole, show 8 * ((a ++ b).length / 8) = a.length by simp; omega]; simp

theorem pending_of (a b : List α) (ha : a.length % 8 = 0) (hb : b.length < 8) : pending (a ++ b) = b := by
  rw [pending, show 8 * ((a ++ b).length / 8) = a.length by simp; omega]; simp

/-! ### moving bits around does not depend on what they are -/

theorem whole_map (f : α → β) (s : List α) : whole (s.map f) = (whole s).map f := by simp [whole, List.map_take]

theorem pending_map (f : α → β) (s : List α) : pending (s.map f) = (pending s).map f := by simp [pending, List.map_drop]

theorem flips_map (f : α → β) : ∀ (k : Nat) (s : List α), flips k (s.map f) = (flips k s).map f
  | 0, s => by simp [flips]
  | k + 1, s => by rw [flips, flips, ← List.map_drop, flips_map f k]; simp [List.map_take]

theorem flip_map (f : α → β) (s : List α) : flip (s.map f) = (flip s).map f := by
  rw [flip, flip, flips_map, List.length_map]

theorem backwards_map (f : α → β) : ∀ (k : Nat) (s : List α), backwards k (s.map f) = (backwards k s).map f
  | 0, _ => rfl
  | k + 1, s => by rw [backwards, backwards, ← List.map_take, backwards_map f k]; simp [List.map_drop]

theorem lay_map (f : α → β) (t o : Order) (s l : List α) : lay t o (s.map f) (l.map f) = (lay t o s l).map f := by
  cases t <;> cases o <;>
    simp only [lay, List.map_append, whole_map, pending_map, List.length_map, backwards_map, ← List.map_take, ← List.map_drop,
      ← List.map_reverse, flip_map]
  rw [← List.map_append, flip_map]

/-! ### no bit is lost -/

theorem flips_perm : ∀ (k : Nat) (s : List α), (flips k s).Perm s
  | 0, s => List.reverse_perm s
  | k + 1, s => by
    have h := (List.reverse_perm (s.take 8)).append (flips_perm k (s.drop 8))
    rwa [List.take_append_drop] at h

theorem flip_perm (s : List α) : (flip s).Perm s := flips_perm _ s

theorem backwards_perm : ∀ (k : Nat) (s : List α), 8 * k ≤ s.length → (backwards k s ++ s.take (s.length - 8 * k)).Perm s
  | 0, s, _ => by simp [backwards]
  | k + 1, s, h => by
    have ih := backwards_perm k (s.take (s.length - 8)) (by simp; omega)
    rw [List.length_take, List.take_take, show min (min (s.length - 8) s.length - 8 * k) (s.length - 8) = s.length - 8 * (k + 1) by omega] at ih
    rw [backwards, List.append_assoc]
    refine (ih.append_left _).trans ?_
    refine List.perm_append_comm.trans ?_
    rw [List.take_append_drop]

theorem lay_perm (t o : Order) (s l : List α) : (lay t o s l).Perm (s ++ l) := by
  cases t <;> cases o <;> simp only [lay]
  · exact .refl _
  · have h : ((pending s).take (8 - l.length % 8) ++ l ++ (pending s).drop (8 - l.length % 8)).Perm (pending s ++ l) := by
      rw [List.append_assoc]
      refine (List.perm_append_comm.append_left _).trans ?_
      rw [← List.append_assoc, List.take_append_drop]
    have := h.append_left (whole s)
    rwa [← List.append_assoc (whole s) (pending s), whole_pending] at this
  · have h := backwards_perm (l.length / 8) l (by omega)
    rw [show l.length - 8 * (l.length / 8) = l.length % 8 by omega] at h
    have := ((h.append_right (pending s)).trans List.perm_append_comm).append_left (whole s)
    rwa [← List.append_assoc (whole s) (pending s), whole_pending] at this
  · refine (flip_perm _).trans ?_
    exact (flip_perm s).append (List.reverse_perm l)

theorem length_lay (t o : Order) (s l : List α) : (lay t o s l).length = s.length + l.length := by
  rw [(lay_perm t o s l).length_eq, List.length_append]

/-! ### sequences of writes -/

/-- The string and the bit order after a write, of bytes if it names no bit order. -/
def step (x : List α × Order) (l : List α) : Option Order → List α × Order
  | some o => (lay x.2 o x.1 l, o)
  | none => if x.1.length % 8 = 0 then (x.1 ++ l, x.2) else (lay x.2 .msb0 x.1 l, .msb0)

/-- The string and the bit order after writes with the given numbers of bits, the bits taken from `l`. -/
def steps (x : List α × Order) : List (Nat × Option Order) → List α → List α × Order
  | [], _ => x
  | (n, o) :: ns, l => steps (step x (l.take n) o) ns (l.drop n)

theorem step_map (f : α → β) (x : List α × Order) (l : List α) (o : Option Order) :
    step (x.1.map f, x.2) (l.map f) o = ((step x l o).1.map f, (step x l o).2) := by
  cases o with
  | none => by_cases h : x.1.length % 8 = 0 <;> simp [step, h, lay_map]
  | some o => simp [step, lay_map]

theorem steps_map (f : α → β) : ∀ (ns : List (Nat × Option Order)) (x : List α × Order) (l : List α),
    steps (x.1.map f, x.2) ns (l.map f) = ((steps x ns l).1.map f, (steps x ns l).2)
  | [], x, l => rfl
  | (n, o) :: ns, x, l => by
    rw [steps, steps, ← List.map_take, ← List.map_drop, step_map, steps_map f ns]

theorem step_perm (x : List α × Order) (l : List α) (o : Option Order) : (step x l o).1.Perm (x.1 ++ l) := by
  cases o with
  | none =>
    by_cases h : x.1.length % 8 = 0
    · rw [step, if_pos h]
    · rw [step, if_neg h]; exact lay_perm ..
  | some o => exact lay_perm ..

theorem steps_perm : ∀ (ns : List (Nat × Option Order)) (x : List α × Order) (l : List α), l.length = (ns.map Prod.fst).sum →
    (steps x ns l).1.Perm (x.1 ++ l)
  | [], x, l, h => by
    simp at h; simp [steps, h]
  | (n, o) :: ns, x, l, h => by
    simp at h
    refine (steps_perm ns _ (l.drop n) (by simp; omega)).trans ?_
    refine ((step_perm x (l.take n) o).append_right _).trans ?_
    rw [List.append_assoc, List.take_append_drop]

theorem range_getD (l : List α) (d : α) : (List.range l.length).map (l.getD · d) = l := by
  apply List.ext_getElem
  · simp
  · intro i h1 h2
    simp at h1
    simp [h1]

/-! ### bits of bytes -/

theorem flips_lsb (l : List Bool) : ∀ bs : List Byte, flips bs.length (bytesBitsLsb bs ++ l.reverse) = bytesBits bs ++ l
  | [] => by simp [flips, bytesBitsLsb]
  | b :: bs => by
    have ih := flips_lsb l bs
    rw [List.length_cons, flips]
    rw [show bytesBitsLsb (b :: bs) = (byteBits b).reverse ++ bytesBitsLsb bs by simp [bytesBitsLsb], List.append_assoc,
      List.take_append_of_le_length (by simp), List.take_of_length_le (by simp), List.drop_append_of_le_length (by simp),
      List.drop_of_length_le (by simp), List.nil_append, ih, List.reverse_reverse, bytesBits_cons, List.append_assoc]

theorem flips_msb (l : List Bool) : ∀ bs : List Byte, flips bs.length (bytesBits bs ++ l) = bytesBitsLsb bs ++ l.reverse
  | [] => by simp [flips, bytesBitsLsb]
  | b :: bs => by
    have ih := flips_msb l bs
    rw [List.length_cons, flips]
    rw [show bytesBitsLsb (b :: bs) = (byteBits b).reverse ++ bytesBitsLsb bs by simp [bytesBitsLsb], bytesBits_cons, List.append_assoc,
      List.take_append_of_le_length (by simp), List.take_of_length_le (by simp), List.drop_append_of_le_length (by simp),
      List.drop_of_length_le (by simp), List.nil_append, ih, List.append_assoc]

theorem flip_lsb (bs : List Byte) (l : List Bool) (h : l.length < 8) : flip (bytesBitsLsb bs ++ l.reverse) = bytesBits bs ++ l := by
  rw [flip, show (bytesBitsLsb bs ++ l.reverse).length / 8 = bs.length by simp; omega, flips_lsb]

theorem flip_msb (bs : List Byte) (l : List Bool) (h : l.length < 8) : flip (bytesBits bs ++ l) = bytesBitsLsb bs ++ l.reverse := by
  rw [flip, show (bytesBits bs ++ l).length / 8 = bs.length by simp; omega, flips_msb]

theorem backwards_bits : ∀ (k : Nat) (l : List Bool), 8 * k ≤ l.length → bytesBits ((rchunks8 k l).map byteOf) = backwards k l
  | 0, _, _ => rfl
  | k + 1, l, h => by
    rw [rchunks8, backwards, List.map_cons, bytesBits_cons, backwards_bits k _ (by simp; omega), byteBits_byteOf _ (by simp; omega)]

end Mixed

namespace Writer

open Mixed

/-- A call after which the string is `s`, or that reports an error of the sink. -/
def Lays (s : List Bool) (t : Order) (res : Res Unit × Writer) : Prop :=
  (∃ w', res = (.ok (), w') ∧ w'.laid = s ∧ w'.tag = t) ∨ ∃ e w', res = (.err (.io e), w')

theorem laid_put {w : Writer} {bs : List Byte} {s : Sink} (h : Sink.Put bs w.inner s) (l : List Bool) (t : Order) (n : Nat) :
    ({ inner := s, leftover := l, tag := t, bitsWritten := n } : Writer).laid = bytesBits w.inner.written ++ (bytesBits bs ++ l) := by
  simp [laid, rest, h.written]

theorem whole_laid {w : Writer} (hw : w.WF) : whole w.laid = bytesBits w.inner.written :=
  whole_of _ _ (by simp) hw.2

theorem pending_laid {w : Writer} (hw : w.WF) : pending w.laid = w.leftover :=
  pending_of _ _ (by simp) hw.2

theorem msbLsb_lays {w : Writer} (hw : w.WF) (bits : List Bool) :
    Lays (lay .msb0 .lsb0 w.laid bits) .lsb0 (msbLsb bits w) := by
  have hlt := hw.2
  have hW := hw.1
  simp only [msbLsb, M.get_bind_run, hlt, decide_true, M.assert_true_bind_run,
    takeLeftover_bind_run]
  rw [lay, whole_laid hw, pending_laid hw]
  obtain ⟨first, complement, bulk, last, hparts, hall, hfc, hfull, hbulk, hlast⟩ :
      ∃ first complement bulk last : List Bool,
        (if w.leftover.isEmpty then (([] : List Bool), ([] : List Bool), bits, ([] : List Bool))
          else
            let c := min (8 - bits.length % 8) w.leftover.length
            let front := min bits.length (8 - c)
            (w.leftover.take c, bits.take front, bits.drop front, w.leftover.drop c)) =
          (first, complement, bulk, last) ∧
        w.leftover.take (8 - bits.length % 8) ++ bits ++ w.leftover.drop (8 - bits.length % 8) = first ++ complement ++ bulk ++ last ∧
        first.length + complement.length ≤ 8 ∧
        (first.length + complement.length ≠ 8 → (bulk = [] ∨ first.length + complement.length = 0) ∧ last = []) ∧
        (last ≠ [] → bulk.length % 8 = 0) ∧ last.length < 8 := by
    by_cases he : w.leftover = []
    · refine ⟨[], [], bits, [], by simp [he], by simp [he], by simp, by simp, by simp, by simp⟩
    · have h0 : 0 < w.leftover.length := List.length_pos_iff.2 he
      refine ⟨_, _, _, _, by rw [if_neg (by simpa using he)], ?_, ?_, ?_, ?_, ?_⟩
      · rw [List.append_assoc (List.take _ w.leftover) (List.take _ bits), List.take_append_drop]
        have e1 : w.leftover.take (min (8 - bits.length % 8) w.leftover.length) = w.leftover.take (8 - bits.length % 8) := by
          rw [← List.take_take, List.take_length]
        have e2 : w.leftover.drop (min (8 - bits.length % 8) w.leftover.length) = w.leftover.drop (8 - bits.length % 8) := by
          by_cases h : 8 - bits.length % 8 ≤ w.leftover.length
          · rw [Nat.min_eq_left h]
          · rw [Nat.min_eq_right (by omega), List.drop_length, List.drop_of_length_le (by omega)]
        rw [e1, e2]
      · simp; omega
      · intro h
        simp only [List.length_take] at h
        constructor
        · left
          apply List.drop_eq_nil_of_le
          omega
        · apply List.drop_eq_nil_of_le
          omega
      · intro h
        simp only [List.length_drop]
        have : ¬ w.leftover.length ≤ min (8 - bits.length % 8) w.leftover.length :=
          fun hc => h (List.drop_eq_nil_of_le hc)
        omega
      · simp; omega
  simp only at hparts
  rw [hparts, hall]
  simp only
  rw [extend_bind_run _ _ _ (by simp; omega), extend_bind_run _ _ _ (by simp; omega)]
  simp only [List.nil_append]
  have hrest : ∀ (s : Sink) (b0 : List Byte) (l0 : List Bool) (n0 : Nat) (t : Order),
      Sink.Put b0 w.inner s → bytesBits b0 ++ l0 = first ++ complement →
      (l0 = [] ∨ (bulk = [] ∧ last = [] ∧ l0.length < 8)) →
      Lays (bytesBits w.inner.written ++ (first ++ complement ++ bulk ++ last)) .lsb0 ((writeBulk (chunks8 (bulk.length / 8) bulk)
        (bulk.length - (fwdRemainder bulk).length) >>= fun _ => M.get >>= fun w =>
        M.assert (decide (w.leftover.length + (fwdRemainder bulk).length ≤ 8)) >>= fun _ =>
        extend (fwdRemainder bulk) >>= fun _ =>
        extend (last.take (min (8 - (fwdRemainder bulk).length) last.length)) >>= fun _ =>
        M.get >>= fun w => M.assert (decide (w.leftover.length = 8) ||
          (last.drop (min (8 - (fwdRemainder bulk).length) last.length)).isEmpty) >>= fun _ =>
        flushFull >>= fun _ =>
        extend (last.drop (min (8 - (fwdRemainder bulk).length) last.length)) >>= fun _ =>
        M.modify (fun w => { w with tag := .lsb0 }))
        { inner := s, leftover := l0, tag := t, bitsWritten := n0 }) := by
    intro s b0 l0 n0 t hp hl0 hc
    have hrem : (fwdRemainder bulk).length = bulk.length % 8 := by simp
    have hc' : l0.length + (fwdRemainder bulk).length + last.length < 8 ∧
        min (8 - (fwdRemainder bulk).length) last.length = last.length := by
      rcases hc with hc | ⟨h1, h2, h3⟩
      · subst hc
        by_cases hl : last = []
        · subst hl; simp; omega
        · have := hbulk hl
          simp; omega
      · subst h1 h2; simp; omega
    obtain ⟨hc1, hc2⟩ := hc'
    rw [hc2]
    rcases writeBulk_cases (w := { inner := s, leftover := l0, tag := t, bitsWritten := n0 }) hp.wf
        (chunks8 (bulk.length / 8) bulk) (bulk.length - (fwdRemainder bulk).length) with
        ⟨s', h, hp'⟩ | ⟨e, s', h, hp'⟩
    · rw [M.bind_ok h, M.get_bind_run]
      rw [show (decide (({ inner := s', leftover := l0, tag := t, bitsWritten := n0 + (bulk.length - (fwdRemainder bulk).length) } : Writer).leftover.length + (fwdRemainder bulk).length ≤ 8)) = true by
        simp only [decide_eq_true_eq]; omega, M.assert_true_bind_run,
        extend_bind_run _ _ _ (by simp only; omega),
        extend_bind_run _ _ _ (by simp only [List.length_append, List.length_take]; omega), M.get_bind_run]
      rw [show last.drop last.length = [] from List.drop_length .., List.isEmpty_nil, Bool.or_true, M.assert_true_bind_run,
        M.bind_ok (flushFull_not (by simp only [List.length_append, List.length_take]; omega)),
        extend_bind_run _ _ _ (by simp only [List.length_append, List.length_take, List.length_nil]; omega)]
      refine .inl ⟨_, rfl, ?_, rfl⟩
      refine (laid_put (hp.trans hp') _ _ _).trans ?_
      congr 1
      have hb := fwd_split bulk
      rcases hc with hc | ⟨h1, h2, h3⟩
      · subst hc
        rw [List.append_nil] at hl0
        rw [bytesBits_append, hl0]
        simp only [List.nil_append, List.append_nil, List.take_length]
        rw [← List.append_assoc, List.append_assoc (first ++ complement), hb]
      · subst h1 h2
        rw [← hl0]
        simp [fwdRemainder, chunks8]
    · rw [M.bind_err h]
      exact .inr ⟨e, _, rfl⟩
  by_cases h8 : (first ++ complement).length = 8
  · rcases flushFull_full (w := { w with leftover := first ++ complement, tag := .msb0 }) hW h8 with
      ⟨s, h, hp⟩ | ⟨e, s, h, hp⟩
    · rw [M.bind_ok h]
      exact hrest s _ [] _ _ hp (by simp [bytesBits_cons, byteBits_byteOf _ h8]) (.inl rfl)
    · rw [M.bind_err h]
      exact .inr ⟨e, _, rfl⟩
  · rw [M.bind_ok (flushFull_not h8)]
    have hf := hfull (by simpa using h8)
    refine hrest w.inner [] (first ++ complement) w.bitsWritten .msb0 (Sink.Put.refl hW) (by simp) ?_
    rcases hf.1 with h | h
    · exact .inr ⟨h, hf.2, by simp at h8 ⊢; omega⟩
    · left; exact List.eq_nil_of_length_eq_zero (by simpa using h)

theorem lsbMsb_lays {w : Writer} (hw : w.WF) (bits : List Bool) :
    Lays (lay .lsb0 .msb0 w.laid bits) .msb0 (lsbMsb bits w) := by
  have hlt := hw.2
  have hW := hw.1
  simp only [lsbMsb, M.get_bind_run, hlt, decide_true, M.assert_true_bind_run,
    takeLeftover_bind_run]
  rw [lay, whole_laid hw, pending_laid hw, ← backwards_bits _ _ (by omega : 8 * (bits.length / 8) ≤ bits.length)]
  obtain ⟨complement, rest, hparts, hall, hle, hfull⟩ :
      ∃ complement rest : List Bool,
        (if w.leftover.isEmpty then (([] : List Bool), ([] : List Bool))
          else
            let c := min (8 - bits.length % 8) w.leftover.length
            (w.leftover.take c, w.leftover.drop c)) = (complement, rest) ∧
        w.leftover = complement ++ rest ∧
        bits.length % 8 + complement.length ≤ 8 ∧
        (bits.length % 8 + complement.length ≠ 8 → rest = []) := by
    by_cases he : w.leftover = []
    · exact ⟨[], [], by simp [he], by simp [he], by simp; omega, by simp⟩
    · refine ⟨_, _, by rw [if_neg (by simpa using he)], ?_, ?_, ?_⟩
      · exact (List.take_append_drop _ _).symm
      · simp; omega
      · intro h
        simp only [List.length_take] at h
        apply List.drop_eq_nil_of_le
        omega
  simp only at hparts
  rw [hparts]
  simp only
  rw [hall] at hlt ⊢
  rw [List.length_append] at hlt
  have hbr : (bwdRemainder bits).length = bits.length % 8 := by simp
  rcases writeBulk_cases (w := { w with leftover := [], tag := .msb0 }) hW
      (rchunks8 (bits.length / 8) bits) (bits.length - (bwdRemainder bits).length) with
      ⟨s, h, hp⟩ | ⟨e, s, h, hp⟩
  · rw [M.bind_ok h, extend_bind_run _ _ _ (by simp only [List.length_nil]; omega),
      extend_bind_run _ _ _ (by simp only [List.length_nil, List.length_append]; omega)]
    simp only [M.modify_bind_run, M.get_bind_run, List.nil_append]
    by_cases h8 : (bwdRemainder bits ++ complement).length = 8
    · rw [h8]
      simp only [decide_true, Bool.true_or, M.assert_true_bind_run]
      rw [List.length_append] at h8
      rcases flushFull_full (w := { inner := s, leftover := bwdRemainder bits ++ complement, tag := .msb0, bitsWritten := w.bitsWritten + (bits.length - (bwdRemainder bits).length) }) hp.wf (by simpa using h8) with
        ⟨s', h', hp'⟩ | ⟨e, s', h', hp'⟩
      · rw [M.bind_ok h', extend_run _ _ (by simp; omega)]
        refine .inl ⟨_, rfl, ?_, rfl⟩
        refine (laid_put (hp.trans hp') _ _ _).trans ?_
        rw [bytesBits_append, bytesBits_cons, byteBits_byteOf _ (by simpa using h8)]
        simp [bwdRemainder]
      · rw [M.bind_err h']
        exact .inr ⟨e, _, rfl⟩
    · have hr : rest = [] := hfull (by simpa using h8)
      subst hr
      simp only [List.isEmpty_nil, Bool.or_true, M.assert_true_bind_run]
      rw [M.bind_ok (flushFull_not h8), extend_run _ _ (by simp; omega)]
      refine .inl ⟨_, rfl, ?_, rfl⟩
      refine (laid_put hp _ _ _).trans ?_
      simp [bwdRemainder]
  · rw [M.bind_err h]
    exact .inr ⟨e, _, rfl⟩

theorem writeBitsOrder_lays {w : Writer} (hw : w.WF) (o : Order) (bits : List Bool) :
    Lays (lay w.tag o w.laid bits) o (writeBitsOrder bits o w) := by
  simp only [writeBitsOrder, M.get_bind_run]
  cases o <;> cases ht : w.tag <;> simp only
  · rcases msbMsb_done hw bits with ⟨w', h1, h2, h3⟩ | ⟨e, w', h1, _⟩
    · exact .inl ⟨w', h1, h2.produced, h3⟩
    · exact .inr ⟨e, w', h1⟩
  · exact lsbMsb_lays hw bits
  · exact msbLsb_lays hw bits
  · rcases lsbLsb_done hw bits with ⟨w', h1, h2, h3⟩ | ⟨e, w', h1, _⟩
    · refine .inl ⟨w', h1, ?_, h3⟩
      have hp := h2.produced
      simp only [produced, orderBits, present, Writer.rest] at hp
      rw [lay, laid, laid, Writer.rest, Writer.rest, flip_msb _ _ hw.2, ← hp, flip_lsb _ _ h2.wf.2]
    · exact .inr ⟨e, w', h1⟩

theorem Lays.ok {s : List Bool} {t : Order} {n : Nat} {w : Writer} {res : Res Unit × Writer} (h : Lays s t res)
    (hk : Took n w res) (hh : w.Healthy) : ∃ w', res = (.ok (), w') ∧ Grew n w w' ∧ w'.laid = s ∧ w'.tag = t := by
  obtain ⟨w', h1, h2⟩ := hk.ok hh
  rcases h with ⟨w'', h3, h4, h5⟩ | ⟨e, w'', h3⟩
  · obtain ⟨rfl⟩ : w' = w'' := by have := h1.symm.trans h3; simpa using this
    exact ⟨w', h1, h2, h4, h5⟩
  · rw [h1] at h3; simp at h3

theorem writeBytes_lays {w : Writer} (hw : w.WF) (bs : List Byte) :
    Lays (if w.leftover = [] then w.laid ++ bytesBits bs else lay w.tag .msb0 w.laid (bytesBits bs))
      (if w.leftover = [] then w.tag else .msb0) (writeBytes bs w) := by
  simp only [writeBytes, M.get_bind_run]
  by_cases hl : w.leftover = []
  · rw [if_pos hl, if_pos hl, if_pos (by simp [hl])]
    rcases writeAll_cases hw.1 bs with ⟨s, h1, hp⟩ | ⟨e, s, h1, _⟩
    · rw [M.bind_ok h1]
      refine .inl ⟨_, rfl, (laid_put hp _ _ _).trans ?_, rfl⟩
      simp [laid, Writer.rest, hl]
    · rw [M.bind_err h1]
      exact .inr ⟨e, _, rfl⟩
  · rw [if_neg hl, if_neg hl, if_neg (by simpa using hl)]
    exact writeBitsOrder_lays hw .msb0 (bytesBits bs)

end Writer

end Deku
