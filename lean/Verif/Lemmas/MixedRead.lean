import Verif.Spec.MixedRead
import Verif.Lemmas.Mixed
import Verif.Props.Reader

/-!
# Lemmas about reads in both bit orders
-/

namespace Deku

namespace Mixed

variable {α β : Type}

theorem turned_map (f : α → β) (s : List α) : turned (s.map f) = (turned s).map f := by
  simp only [turned, List.length_map, ← List.map_take, ← List.map_drop, flip_map, List.map_append, List.map_reverse]

theorem turned_perm (s : List α) : (turned s).Perm s := by
  have := ((s.take (s.length % 8)).reverse_perm).append (flip_perm (s.drop (s.length % 8)))
  rwa [List.take_append_drop] at this

theorem length_turned (s : List α) : (turned s).length = s.length := (turned_perm s).length_eq

theorem turned_msb (l : List Bool) (bs : List Byte) (h : l.length < 8) : turned (l ++ bytesBits bs) = l.reverse ++ bytesBitsLsb bs := by
  have hm : (l ++ bytesBits bs).length % 8 = l.length := by simp; omega
  rw [turned, hm, List.take_left, List.drop_left]
  have := flip_msb bs [] (by simp)
  simp only [List.append_nil, List.reverse_nil] at this
  rw [this]

theorem turned_lsb (l : List Bool) (bs : List Byte) (h : l.length < 8) : turned (l.reverse ++ bytesBitsLsb bs) = l ++ bytesBits bs := by
  have hm : (l.reverse ++ bytesBitsLsb bs).length % 8 = l.length := by simp; omega
  rw [turned, hm, List.take_left' (by simp), List.drop_left' (by simp), List.reverse_reverse]
  have := flip_lsb bs [] (by simp)
  simp only [List.append_nil, List.reverse_nil] at this
  rw [this]

end Mixed

open Mixed

theorem ReadOp.picks_map {α β : Type} (f : α → β) (op : ReadOp) (s : List α) : op.picks (s.map f) = (op.picks s).map f := by
  rcases op with ⟨n, _ | _⟩ | ⟨n, _ | _⟩ | _ <;>
    simp [ReadOp.picks, picked, pickedBytes, turned_map, ← List.map_take, flip_map]

theorem ReadOp.leaves_map {α β : Type} (f : α → β) (op : ReadOp) (s : List α) : op.leaves (s.map f) = (op.leaves s).map f := by
  rcases op with ⟨n, _ | _⟩ | ⟨n, _ | _⟩ | _ <;>
    simp [ReadOp.leaves, remains, turned_map, ← List.map_drop]

theorem ReadOp.picks_perm {α : Type} (op : ReadOp) (s : List α) : (op.picks s ++ op.leaves s).Perm s := by
  have key : ∀ n : Nat, (((turned s).take n) ++ ((turned s).drop n)).Perm s := fun n => by
    rw [List.take_append_drop]; exact turned_perm s
  rcases op with ⟨n, _ | _⟩ | ⟨n, _ | _⟩ | _
  · simp [ReadOp.picks, ReadOp.leaves, picked, remains]
  · exact (((List.reverse_perm _).append (turned_perm _))).trans (key n)
  · simp [ReadOp.picks, ReadOp.leaves, pickedBytes, remains]
  · exact (((flip_perm _).append (turned_perm _))).trans (key (8 * n))
  · simp [ReadOp.picks, ReadOp.leaves]

theorem ReadOp.length_leaves {α : Type} (op : ReadOp) (s : List α) : (op.leaves s).length = s.length - op.size := by
  rcases op with ⟨n, _ | _⟩ | ⟨n, _ | _⟩ | _ <;> simp [ReadOp.leaves, remains, length_turned, ReadOp.size]

/-- All that the calls take, one after the other, and what is left at the end. -/
def drawn {α : Type} : List ReadOp → List α → List α
  | [], s => s
  | op :: ops, s => op.picks s ++ drawn ops (op.leaves s)

theorem drawn_map {α β : Type} (f : α → β) : ∀ (ops : List ReadOp) (s : List α), drawn ops (s.map f) = (drawn ops s).map f
  | [], _ => rfl
  | op :: ops, s => by simp only [drawn, ReadOp.picks_map, ReadOp.leaves_map, drawn_map f ops, List.map_append]

theorem drawn_perm {α : Type} : ∀ (ops : List ReadOp) (s : List α), (drawn ops s).Perm s
  | [], _ => List.Perm.refl _
  | op :: ops, s => ((List.Perm.refl _).append (drawn_perm ops _)).trans (op.picks_perm s)

namespace Reader

theorem unread_turned {r : Reader} (hw : r.WF) : r.unreadLsb = turned r.unreadMsb ∧ r.unreadMsb = turned r.unreadLsb := by
  rcases hl : r.leftover with _ | (b | l)
  · have := turned_msb [] (avail r) (by simp)
    have h' := turned_lsb [] (avail r) (by simp)
    rw [unreadMsb_eq, unreadLsb_eq, hl]
    exact ⟨this.symm, h'.symm⟩
  · have h1 : r.unreadMsb = bytesBits (b :: avail r) := unread_byte .msb0 r b hl
    have h2 : r.unreadLsb = bytesBitsLsb (b :: avail r) := unread_byte .lsb0 r b hl
    have := turned_msb [] (b :: avail r) (by simp)
    have h' := turned_lsb [] (b :: avail r) (by simp)
    rw [h1, h2]
    exact ⟨this.symm, h'.symm⟩
  · have hb := hw l hl
    rw [unreadMsb_eq, unreadLsb_eq, hl]
    exact ⟨(turned_msb l _ (by omega)).symm, (turned_lsb l _ (by omega)).symm⟩

theorem Step.remains {o : Order} {n : Nat} {r r' : Reader} (h : Step o n r r') (hw : r.WF) :
    r'.unreadMsb = Mixed.remains o n r.unreadMsb := by
  cases o with
  | msb0 => exact h.unread
  | lsb0 =>
    have := h.unread
    simp only [Reader.unread] at this
    rw [(unread_turned h.wf).2, this, (unread_turned hw).1]; rfl

end Reader

open Reader

/-- A call that finds its bits takes those that `picks` says and leaves the others. -/
theorem ReadOp.call_picks (op : ReadOp) (hz : op.nonZero) {r : Reader} (hf : r.Healthy) (hw : r.WF) (hn : op.size ≤ r.unreadMsb.length) :
    ∃ x r', op.call r = (.ok x, r') ∧ x.content = op.picks r.unreadMsb ∧ r'.unreadMsb = op.leaves r.unreadMsb ∧
      r'.bitsRead = r.bitsRead + op.size ∧ r'.Healthy ∧ r'.WF ∧ r'.inner.data = r.inner.data := by
  have hlen : ∀ o, (r.unread o).length = r.unreadMsb.length := by
    rintro (_ | _)
    · rfl
    · show r.unreadLsb.length = _
      rw [(unread_turned hw).1, length_turned]
  cases op with
  | bits n o =>
    obtain ⟨r', h1, h2⟩ := readBitsInto_ok o hf hw (n := n) (by rw [hlen]; exact hn)
    refine ⟨.bits _, r', M.bind_ok h1 _, ?_, h2.remains hw, h2.bitsRead, h2.healthy, h2.wf, h2.data⟩
    cases o
    · rfl
    · show ((r.unreadLsb).take n).reverse = _
      rw [(unread_turned hw).1]; rfl
  | bytes n o =>
    obtain ⟨bs, r', h1, h3, h2⟩ := readBytes_ok o hf hw (n := n) (.inr hz) (by rw [hlen]; exact hn)
    refine ⟨.bytes bs, r', M.bind_ok h1 _, ?_, h2.remains hw, h2.bitsRead, h2.healthy, h2.wf, h2.data⟩
    cases o
    · exact h3
    · have h4 := flip_lsb bs [] (by simp)
      simp only [List.append_nil, List.reverse_nil] at h4
      simp only [orderBits, Reader.unread] at h3
      show bytesBits bs = flip ((turned r.unreadMsb).take (8 * n))
      rw [← (unread_turned hw).1, ← h3, h4]
  | atEnd =>
    obtain ⟨r', h1, h2, h3, h4, h5, h6, _⟩ := end_spec hf
    exact ⟨.flag _, r', M.bind_ok h1 _, rfl, h5 .msb0, h4, h2, h6 hw, h3⟩

theorem runReads_drawn : ∀ (ops : List ReadOp), (∀ op ∈ ops, op.nonZero) → ∀ {r : Reader}, r.Healthy → r.WF →
    (ops.map ReadOp.size).sum ≤ r.unreadMsb.length →
    ∃ xs r', runReads ops r = (.ok xs, r') ∧ (xs.map ReadOut.content).flatten ++ r'.unreadMsb = drawn ops r.unreadMsb ∧
      r'.bitsRead = r.bitsRead + (ops.map ReadOp.size).sum ∧ r'.unreadMsb.length + (ops.map ReadOp.size).sum = r.unreadMsb.length
  | [], _, r, _, _, _ => ⟨[], r, rfl, rfl, rfl, rfl⟩
  | op :: ops, hz, r, hf, hw, hn => by
    simp only [List.map_cons, List.sum_cons] at hn
    obtain ⟨x, r1, e1, c1, l1, b1, f1, w1, _⟩ := op.call_picks (hz op List.mem_cons_self) hf hw (by omega)
    have hl := op.length_leaves r.unreadMsb
    rw [← l1] at hl
    obtain ⟨xs, r2, e2, c2, b2, n2⟩ := runReads_drawn ops (fun o ho => hz o (List.mem_cons_of_mem _ ho)) f1 w1 (by omega)
    refine ⟨x :: xs, r2, ?_, ?_, ?_, ?_⟩
    · rw [runReads, M.bind_ok e1, M.bind_ok e2]; rfl
    · rw [List.map_cons, List.flatten_cons, List.append_assoc, c2, drawn, c1, l1]
    · simp only [List.map_cons, List.sum_cons]; omega
    · simp only [List.map_cons, List.sum_cons]; omega

end Deku
