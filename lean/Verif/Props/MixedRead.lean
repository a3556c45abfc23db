import Verif.Lemmas.MixedRead

/-!
# Properties of reads in both bit orders: C111
-/

namespace Deku

open Reader Mixed

/-- **C111.** Where the bits of a read come from, whatever was read before in whichever order: from what is left, those that
`picks` says, and the others stay. -/
theorem C111_where_the_bits_come_from (op : ReadOp) (hz : op.nonZero) (r : Reader) (hf : r.Healthy) (hw : r.WF)
    (hn : op.size ≤ r.unreadMsb.length) :
    ∃ x r', op.call r = (.ok x, r') ∧ x.content = op.picks r.unreadMsb ∧ r'.unreadMsb = op.leaves r.unreadMsb ∧
      r'.bitsRead = r.bitsRead + op.size := by
  obtain ⟨x, r', h1, h2, h3, h4, _⟩ := op.call_picks hz hf hw hn
  exact ⟨x, r', h1, h2, h3, h4⟩

/-- **C111.** Every bit is read once: for every sequence of reads of any sizes in both orders, with `end` calls in between, and every length
of the input there is a permutation, and whatever the input is, the answers and what is left are the bits of the input,
permuted. -/
theorem C111_every_bit_is_read_once (ops : List ReadOp) (hz : ∀ op ∈ ops, op.nonZero) (n : Nat) (hn : (ops.map ReadOp.size).sum ≤ 8 * n) :
    ∃ p : List Nat, p.Perm (List.range (8 * n)) ∧ ∀ data : List Byte, data.length = n →
      ∃ xs r', runReads ops (Reader.new { data := data }) = (.ok xs, r') ∧
        (xs.map ReadOut.content).flatten ++ (r'.rest ++ bytesBits (r'.inner.data.drop r'.inner.pos)) =
          p.map (fun i => (bytesBits data).getD i false) ∧
        r'.bitsRead = (ops.map ReadOp.size).sum ∧ (xs.map ReadOut.content).flatten.length = (ops.map ReadOp.size).sum := by
  refine ⟨drawn ops (List.range (8 * n)), drawn_perm ops _, fun data hd => ?_⟩
  have hu : (Reader.new { data := data }).unreadMsb = bytesBits data := unread_new .msb0 data
  obtain ⟨xs, r', h1, h2, h3, h4⟩ := runReads_drawn ops hz (new_healthy data) (new_wf data) (by rw [hu]; simp; omega)
  rw [hu] at h2 h4
  have hl := (drawn_perm ops (bytesBits data)).length_eq
  rw [← h2, List.length_append] at hl
  refine ⟨xs, r', h1, ?_, by rw [h3]; simp [Reader.new], by omega⟩
  have := drawn_map (fun i => (bytesBits data).getD i false) ops (List.range (bytesBits data).length)
  rw [range_getD, length_bytesBits, hd] at this
  rw [← this, ← h2]; rfl

/-- **C111.** So the answers tell the input: two inputs as long as the reads ask for that get the same answers are the same. -/
theorem C111_different_inputs_give_different_answers (ops : List ReadOp) (hz : ∀ op ∈ ops, op.nonZero) (data data' : List Byte)
    (hd : 8 * data.length = (ops.map ReadOp.size).sum) (hd' : 8 * data'.length = (ops.map ReadOp.size).sum)
    (he : (runReads ops (Reader.new { data := data })).1 = (runReads ops (Reader.new { data := data' })).1) : data = data' := by
  obtain ⟨p, hp, h⟩ := C111_every_bit_is_read_once ops hz data.length (by omega)
  obtain ⟨xs, r, e, c, b, l⟩ := h data rfl
  obtain ⟨xs', r', e', c', b', l'⟩ := h data' (by omega)
  rw [e, e'] at he
  simp only [Res.ok.injEq] at he
  subst he
  have n1 := congrArg List.length c
  have n2 := congrArg List.length c'
  have hpl := hp.length_eq
  simp only [List.length_append, List.length_map, List.length_range, hpl] at n1 n2
  rw [List.length_eq_zero_iff.1 (show (r.rest ++ bytesBits (r.inner.data.drop r.inner.pos)).length = 0 by rw [List.length_append]; omega)] at c
  rw [List.length_eq_zero_iff.1 (show (r'.rest ++ bytesBits (r'.inner.data.drop r'.inner.pos)).length = 0 by rw [List.length_append]; omega)] at c'
  rw [c] at c'
  have hall := List.map_inj_left.1 c'
  apply bytesBits_inj
  apply List.ext_getElem (by simp; omega)
  intro i hi hi'
  have := hall i (hp.mem_iff.2 (by simp at hi ⊢; omega))
  rw [List.getD_eq_getElem?_getD, List.getD_eq_getElem?_getD, List.getElem?_eq_getElem hi, List.getElem?_eq_getElem hi'] at this
  exact this

/-! ### a case that meets the hypotheses -/

/-- Five bits Lsb0, eleven Msb0, `end`, a byte, three bits Lsb0, a byte across a boundary, five bits Msb0. -/
def someMixedReads : List ReadOp := [.bits 5 .lsb0, .bits 11 .msb0, .atEnd, .bytes 1 .lsb0, .bits 3 .lsb0, .bytes 1 .msb0, .bits 5 .msb0]

example : (∀ op ∈ someMixedReads, op.nonZero) ∧ (someMixedReads.map ReadOp.size).sum = 8 * 5 := by
  simp [someMixedReads, ReadOp.nonZero, ReadOp.size]

end Deku
