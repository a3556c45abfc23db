import Verif.Lemmas.Shared
import Verif.Spec.Shared

/-!
# Properties of two bit orders on one byte: C112
-/

namespace Deku

open Reader Mixed

namespace TwoGroups

/-- The sizes and bit orders of the writes. -/
def shape (g : TwoGroups) : List (Nat × Option Order) := [(g.fst.length, some g.order), (g.snd.length, some g.order.opposite)]

theorem FillsByte.lens {g : TwoGroups} (h : g.FillsByte) : 0 < g.fst.length ∧ 0 < g.snd.length ∧ g.fst.length + g.snd.length = 8 :=
  ⟨List.length_pos_iff.2 h.1, List.length_pos_iff.2 h.2.1, h.2.2⟩

theorem FillsByte.length {g : TwoGroups} (h : g.FillsByte) : g.byte.length = 8 := by
  have := h.2.2
  rw [byte]
  cases g.order <;> simp <;> omega

theorem length_bytes (gs : List TwoGroups) (h : ∀ g ∈ gs, g.FillsByte) : (gs.flatMap byte).length % 8 = 0 := by
  induction gs with
  | nil => simp
  | cons g gs ih =>
    have := ih fun g' hg' => h g' (List.mem_cons_of_mem _ hg')
    have h8 := (h g List.mem_cons_self).length
    rw [List.flatMap_cons, List.length_append]
    omega

theorem writes_form (gs : List TwoGroups) : (gs.flatMap writes).map WriteOp.form = (gs.flatMap shape).map some := by
  induction gs with
  | nil => rfl
  | cons g gs ih => simp only [List.flatMap_cons, List.map_append, ih]; rfl

theorem writes_content (gs : List TwoGroups) :
    ((gs.flatMap writes).map WriteOp.content).flatten = gs.flatMap fun g => g.fst ++ g.snd := by
  induction gs with
  | nil => rfl
  | cons g gs ih => simp [List.flatMap_cons, List.flatten_append, ih, writes, WriteOp.content]

theorem steps_fill : ∀ (gs : List TwoGroups), (∀ g ∈ gs, g.FillsByte) → ∀ (s : List Bool) (t : Order), s.length % 8 = 0 →
    (steps (s, t) (gs.flatMap shape) (gs.flatMap fun g => g.fst ++ g.snd)).1 = s ++ gs.flatMap byte
  | [], _, s, t, _ => by simp [steps]
  | g :: gs, h, s, t, hs => by
    have hg := h g List.mem_cons_self
    obtain ⟨l1, l2, l3⟩ := hg.lens
    have e1 : (g.fst ++ g.snd ++ gs.flatMap fun g => g.fst ++ g.snd).take g.fst.length = g.fst := by rw [List.append_assoc, List.take_left]
    have e2 : (g.fst ++ g.snd ++ gs.flatMap fun g => g.fst ++ g.snd).drop g.fst.length = g.snd ++ gs.flatMap fun g => g.fst ++ g.snd := by
      rw [List.append_assoc, List.drop_left]
    have e3 : lay g.order g.order.opposite (s ++ g.fst) g.snd = s ++ g.byte := by
      rw [byte]
      cases g.order
      · exact lay_msb_lsb s _ _ hs l3 (by omega) (by omega)
      · exact lay_lsb_msb s _ _ hs (by omega) (by omega)
    rw [List.flatMap_cons, List.flatMap_cons, show g.shape ++ gs.flatMap shape =
      (g.fst.length, some g.order) :: (g.snd.length, some g.order.opposite) :: gs.flatMap shape from rfl, steps, steps, e1, e2, List.take_left,
      List.drop_left]
    simp only [step]
    rw [lay_behind t g.order s g.fst hs (by omega), e3, steps_fill gs (fun g' hg' => h g' (List.mem_cons_of_mem _ hg')) _ _ (by
      rw [List.length_append, hg.length]; omega), List.flatMap_cons, List.append_assoc]

end TwoGroups

theorem readBits_picks (n : Nat) (o : Order) {r : Reader} (hf : r.Healthy) (hw : r.WF) (hn : n ≤ r.unreadMsb.length) :
    ∃ r', (ReadOp.bits n o).call r = (.ok (.bits (picked o n r.unreadMsb)), r') ∧ r'.unreadMsb = remains o n r.unreadMsb ∧
      r'.bitsRead = r.bitsRead + n ∧ r'.Healthy ∧ r'.WF := by
  obtain ⟨x, r', h1, h2, h3, h4, h5, h6, _⟩ := (ReadOp.bits n o).call_picks trivial hf hw hn
  obtain ⟨l, r'', e1, e2⟩ := M.bind_eq_ok h1
  simp only [M.pure_run, Prod.mk.injEq, Res.ok.injEq] at e2
  rw [← e2.1] at h1 h2
  simp only [ReadOut.content, ReadOp.picks] at h2
  rw [h2] at h1
  exact ⟨r', h1, h3, h4, h5, h6⟩

namespace TwoGroups

theorem reads_fill : ∀ (gs : List TwoGroups), (∀ g ∈ gs, g.FillsByte) → ∀ {r : Reader}, r.Healthy → r.WF →
    r.unreadMsb = gs.flatMap byte → ∃ r', runReads (gs.flatMap reads) r = (.ok (gs.flatMap answers), r') ∧ r'.unreadMsb = [] ∧
      r'.bitsRead = r.bitsRead + 8 * gs.length
  | [], _, r, _, _, hu => ⟨r, rfl, by simpa using hu, rfl⟩
  | g :: gs, h, r, hf, hw, hu => by
    have hg := h g List.mem_cons_self
    obtain ⟨l1, l2, l3⟩ := hg.lens
    rw [List.flatMap_cons] at hu
    have ht := length_bytes gs fun g' hg' => h g' (List.mem_cons_of_mem _ hg')
    have key : picked g.order g.fst.length (g.byte ++ gs.flatMap byte) = g.fst ∧
        remains g.order g.fst.length (g.byte ++ gs.flatMap byte) = g.snd ++ gs.flatMap byte ∧
        picked g.order.opposite g.snd.length (g.snd ++ gs.flatMap byte) = g.snd ∧
        remains g.order.opposite g.snd.length (g.snd ++ gs.flatMap byte) = gs.flatMap byte := by
      rw [byte]
      cases g.order
      · exact picks_msb_lsb _ _ _ ht l3 l1
      · exact picks_lsb_msb _ _ _ ht l3 l1
    obtain ⟨k1, k2, k3, k4⟩ := key
    obtain ⟨r1, e1, u1, b1, f1, w1⟩ := readBits_picks g.fst.length g.order hf hw (by rw [hu, List.length_append, hg.length]; omega)
    rw [hu, k2] at u1
    rw [hu, k1] at e1
    obtain ⟨r2, e2, u2, b2, f2, w2⟩ := readBits_picks g.snd.length g.order.opposite f1 w1 (by rw [u1, List.length_append]; omega)
    rw [u1, k4] at u2
    rw [u1, k3] at e2
    obtain ⟨r3, e3, u3, b3⟩ := reads_fill gs (fun g' hg' => h g' (List.mem_cons_of_mem _ hg')) f2 w2 u2
    refine ⟨r3, ?_, u3, by rw [b3, b2, b1, List.length_cons]; omega⟩
    rw [List.flatMap_cons, show g.reads ++ gs.flatMap reads =
      .bits g.fst.length g.order :: .bits g.snd.length g.order.opposite :: gs.flatMap reads from rfl, runReads, M.bind_ok e1, runReads, M.bind_def,
      M.bind_ok e2, M.bind_ok e3]
    rfl

end TwoGroups

open TwoGroups

/-- **C112.** A byte can be shared: any number of bytes, each divided between an Lsb0 and an Msb0 group in either order, are written
with the Msb0 bits above the Lsb0 bits, and come back. -/
theorem C112_a_byte_can_be_shared (gs : List TwoGroups) (h : ∀ g ∈ gs, g.FillsByte) :
    ∃ out r, toBytes (runWrites (gs.flatMap writes)) = .ok out ∧ bytesBits out = gs.flatMap byte ∧
      runReads (gs.flatMap TwoGroups.reads) (Reader.new { data := out }) = (.ok (gs.flatMap answers), r) ∧ r.bitsRead = 8 * gs.length := by
  obtain ⟨out, h1, h2⟩ := toBytes_laid _ _ (writes_form gs)
  rw [writes_content] at h2
  have hs := steps_fill gs h [] .msb0 rfl
  rw [List.nil_append] at hs
  simp only [hs] at h2
  have h8 := length_bytes gs h
  rw [h8] at h2
  rw [lay_behind _ _ _ _ h8 (by simp)] at h2
  simp only [Nat.sub_zero, Nat.mod_self, List.replicate_zero, List.append_nil] at h2
  obtain ⟨r, e, _, b⟩ := reads_fill gs h (new_healthy out) (new_wf out) ((unread_new .msb0 out).trans h2)
  exact ⟨out, r, h1, h2, e, by rw [b]; simp [Reader.new]⟩

/-! ### and nothing else comes back -/

/-- The bits of the bytes that two groups give, if the first is less than a byte. -/
def TwoGroups.string (g : TwoGroups) : List Bool :=
  lay g.order.opposite g.order.opposite (lay g.order g.order.opposite g.fst g.snd)
    (List.replicate ((8 - (g.fst.length + g.snd.length) % 8) % 8) false)

theorem TwoGroups.ComesBack.string {g : TwoGroups} (h : g.ComesBack) (hl : g.fst.length < 8) :
    picked g.order g.fst.length g.string = g.fst ∧
      picked g.order.opposite g.snd.length (remains g.order g.fst.length g.string) = g.snd ∧ g.string.length % 8 = 0 := by
  obtain ⟨out, h1, h2⟩ := h
  obtain ⟨out', h1', h3⟩ := toBytes_laid _ _ (writes_form [g])
  rw [writes_content] at h3
  simp only [List.flatMap_cons, List.flatMap_nil, List.append_nil] at h1' h3
  rw [h1] at h1'
  simp only [Res.ok.injEq] at h1'
  subst h1'
  have e : steps ([], .msb0) g.shape (g.fst ++ g.snd) = (lay g.order g.order.opposite g.fst g.snd, g.order.opposite) := by
    simp only [TwoGroups.shape, steps, step, List.take_left, List.drop_left, List.take_length]
    rw [lay_behind .msb0 g.order [] g.fst rfl hl]; rfl
  rw [e] at h3
  simp only [length_lay] at h3
  have h3 : bytesBits out = g.string := h3
  have hu : (Reader.new { data := out }).unreadMsb = g.string := (unread_new .msb0 out).trans h3
  have hlen : g.fst.length + g.snd.length ≤ g.string.length := by rw [TwoGroups.string, length_lay, length_lay]; omega
  obtain ⟨r1, e1, u1, _, f1, w1⟩ := readBits_picks g.fst.length g.order (new_healthy out) (new_wf out) (by rw [hu]; omega)
  have hl1 := (ReadOp.bits g.fst.length g.order).length_leaves g.string
  simp only [ReadOp.leaves, ReadOp.size] at hl1
  rw [hu] at u1 e1
  obtain ⟨r2, e2, _⟩ := readBits_picks g.snd.length g.order.opposite f1 w1 (by rw [u1, hl1]; omega)
  rw [TwoGroups.reads, runReads, M.bind_ok e1, runReads, M.bind_def, M.bind_ok e2] at h2
  simp only [runReads, M.pure_run, M.bind_def, TwoGroups.answers, Res.ok.injEq, List.cons.injEq, ReadOut.bits.injEq, and_true] at h2
  rw [u1] at h2
  refine ⟨h2.1, h2.2, ?_⟩
  rw [← h3, length_bytesBits]; omega

theorem lay_after (n m : Nat) (hn : n < 8) :
    lay .lsb0 .msb0 (List.replicate n true) (List.replicate m false) = List.replicate m false ++ List.replicate n true := by
  have h1 : whole (List.replicate n true) = [] := whole_of [] _ rfl (by simpa using hn)
  have h2 : pending (List.replicate n true) = List.replicate n true := pending_of [] _ rfl (by simpa using hn)
  have h3 := backwards_perm (m / 8) (List.replicate m false) (by simp; omega)
  rw [List.length_replicate, show m - 8 * (m / 8) = m % 8 by omega, List.perm_replicate] at h3
  rw [lay, h1, h2, List.nil_append, List.length_replicate, h3]

theorem TwoGroups.lsb_only (n m : Nat) (h1 : 1 ≤ n) (h7 : n ≤ 7)
    (h : ComesBack ⟨.lsb0, List.replicate n true, List.replicate m false⟩) : n + m = 8 := by
  obtain ⟨e, _, hl⟩ := h.string (by simp; omega)
  simp only [TwoGroups.string, Order.opposite, lay_after n m (by omega), List.length_replicate] at e hl
  generalize (8 - (n + m) % 8) % 8 = k at e hl
  rw [lay] at e hl
  generalize hs : List.replicate m false ++ List.replicate n true ++ List.replicate k false = s at e hl
  have hlen : 8 ≤ s.length := by
    have : n ≤ s.length := by rw [← hs]; simp; omega
    omega
  have ht : turned s = flip s := by rw [turned, hl]; simp
  rw [picked, ht] at e
  have e2 : ((s.take 8).reverse).take n = List.replicate n true := by
    rw [← flip_take s hlen, List.take_take, show min n 8 = n by omega, ← List.reverse_reverse ((flip s).take n), e]; simp
  have at_ : ∀ j, j < n → s[7 - j]? = some true := by
    intro j hj
    have := congrArg (fun l => l[j]?) e2
    simp only [List.getElem?_take, hj, if_true, List.getElem?_replicate] at this
    rw [List.getElem?_reverse (by simp; omega)] at this
    rw [List.length_take, show min 8 s.length - 1 - j = 7 - j by omega, List.getElem?_take, if_pos (by omega)] at this
    exact this
  have val : ∀ i, s[i]? = some true → m ≤ i ∧ i < m + n := by
    intro i hi
    rw [← hs] at hi
    simp only [List.getElem?_append, List.length_append, List.length_replicate, List.getElem?_replicate] at hi
    split at hi
    · split at hi
      · simp at hi
      · omega
    · split at hi <;> simp at hi
  have a := val _ (at_ 0 (by omega))
  have b := val _ (at_ (n - 1) (by omega))
  omega

theorem TwoGroups.msb_only (n m : Nat) (h1 : 1 ≤ n) (h7 : n ≤ 7) (hm : 1 ≤ m)
    (h : ComesBack ⟨.msb0, List.replicate n true, List.replicate m false⟩)
    (h' : ComesBack ⟨.msb0, List.replicate n true, true :: List.replicate (m - 1) false⟩) : n + m = 8 := by
  have string : ∀ b : List Bool, b.length = m → 8 ≤ n + m →
      (TwoGroups.string ⟨.msb0, List.replicate n true, b⟩).take 8 = (lay .msb0 .lsb0 (List.replicate n true) b).take 8 := by
    intro b hb h8
    simp only [TwoGroups.string, Order.opposite, lay]
    have hl := length_lay .msb0 .lsb0 (List.replicate n true) b
    simp only [lay] at hl
    generalize whole (List.replicate n true) ++ _ = L at hl ⊢
    have hL : 8 ≤ L.length := by rw [hl]; simp; omega
    rw [flip_take _ (by simp [length_flip]; omega), List.take_append_of_le_length (by rw [length_flip]; exact hL), flip_take _ hL,
      List.reverse_reverse]
  have w1 : whole (List.replicate n true) = [] := whole_of [] _ rfl (by simp; omega)
  have w2 : pending (List.replicate n true) = List.replicate n true := pending_of [] _ rfl (by simp; omega)
  obtain ⟨e, _, hl⟩ := h.string (by simp; omega)
  simp only [picked, List.length_replicate] at e
  have hn8 : 8 ≤ n + m := by
    apply Nat.le_of_not_lt
    intro hlt
    have e0 := congrArg (fun l => l[0]?) e
    simp only [List.getElem?_take, show 0 < n by omega, if_true, List.getElem?_replicate] at e0
    simp only [TwoGroups.string, Order.opposite, List.length_replicate] at e0
    have hl := length_lay .msb0 .lsb0 (List.replicate n true) (List.replicate m false)
    generalize lay .msb0 .lsb0 (List.replicate n true) (List.replicate m false) = L at hl e0
    simp only [List.length_replicate] at hl
    rw [lay, flip_short L (by omega), flip_eight _ (by simp; omega), show (8 - (n + m) % 8) % 8 = (7 - (n + m)) + 1 by omega] at e0
    simp [List.replicate_succ] at e0
  have e1 := string (List.replicate m false) (by simp) hn8
  have hc : n ≤ 8 - m % 8 := by
    apply Nat.le_of_not_lt
    intro hlt
    have e0 := congrArg (fun l => l[8 - m % 8]?) e
    have e2 := congrArg (fun l => l[8 - m % 8]?) e1
    simp only [List.getElem?_take, hlt, if_true, List.getElem?_replicate] at e0
    simp only [List.getElem?_take, show 8 - m % 8 < 8 by omega, if_true] at e2
    rw [e0, lay, w1, w2, List.length_replicate, List.nil_append, List.getElem?_append_left (by simp; omega),
      List.getElem?_append_right (by simp; omega), List.getElem?_replicate] at e2
    simp at e2
  apply Nat.le_antisymm _ hn8
  apply Nat.le_of_not_lt
  intro hgt
  have hm8 : 8 ≤ m := by
    apply Nat.le_of_not_lt
    intro hlt
    omega
  obtain ⟨_, e', hl'⟩ := h'.string (by simp; omega)
  have e3 := string (true :: List.replicate (m - 1) false) (by simp; omega) hn8
  generalize TwoGroups.string ⟨.msb0, List.replicate n true, true :: List.replicate (m - 1) false⟩ = s at e' hl' e3
  simp only [picked, remains, Order.opposite, List.length_replicate, List.length_cons, show m - 1 + 1 = m by omega] at e'
  have hs8 : 8 ≤ s.length := by
    have := congrArg List.length e3
    rw [List.length_take, List.length_take, length_lay] at this
    simp at this
    omega
  have hsn : s[n]? = some true := by
    have := congrArg (fun l => l[n]?) e3
    simp only [List.getElem?_take, show n < 8 by omega, if_true] at this
    rw [this, lay, w1, w2, List.length_cons, List.length_replicate, show m - 1 + 1 = m by omega, List.take_of_length_le (by simp; omega)]
    simp
  have ht : turned (s.drop n) = ((s.drop n).take (8 - n)).reverse ++ flip ((s.drop n).drop (8 - n)) := by
    rw [turned, show (s.drop n).length % 8 = 8 - n by simp; omega]
  have e4 := congrArg (fun l => l.reverse[7 - n]?) e'
  simp only [List.reverse_reverse] at e4
  rw [List.getElem?_take, if_pos (by omega), ht, List.getElem?_append_left (by simp; omega), List.getElem?_reverse (by simp; omega),
    List.length_take, List.length_drop, show min (8 - n) (s.length - n) - 1 - (7 - n) = 0 by omega, List.getElem?_take, if_pos (by omega),
    List.getElem?_drop, Nat.add_zero, hsn, List.getElem?_reverse (by simp; omega)] at e4
  simp only [List.length_cons, List.length_replicate] at e4
  rw [show m - 1 + 1 - 1 - (7 - n) = (m - 8 + n - 1) + 1 by omega, List.getElem?_cons_succ, List.getElem?_replicate] at e4
  split at e4 <;> simp at e4

/-- **C112.** And that is the only way: a first group of less than a byte and a second one in the other order come back, for all bits,
exactly if together they are a byte. -/
theorem C112_nothing_else_comes_back (o : Order) (n m : Nat) (h1 : 1 ≤ n) (h7 : n ≤ 7) (hm : 1 ≤ m) :
    (∀ g : TwoGroups, g.order = o → g.fst.length = n → g.snd.length = m → g.ComesBack) ↔ n + m = 8 := by
  constructor
  · intro h
    cases o
    · exact msb_only n m h1 h7 hm (h _ rfl (by simp) (by simp)) (h _ rfl (by simp) (by simp; omega))
    · exact lsb_only n m h1 h7 (h _ rfl (by simp) (by simp))
  · rintro h8 g rfl rfl rfl
    obtain ⟨out, r, e1, _, e2, _⟩ := C112_a_byte_can_be_shared [g] (by
      intro g' hg'
      rw [List.mem_singleton] at hg'
      subst hg'
      exact ⟨List.length_pos_iff.1 (by omega), List.length_pos_iff.1 (by omega), h8⟩)
    simp only [List.flatMap_cons, List.flatMap_nil, List.append_nil] at e1 e2
    exact ⟨out, e1, by rw [e2]⟩

/-! ### a case that meets the hypotheses -/

/-- A byte begun with three bits Lsb0 and one begun with two bits Msb0. -/
def someShared (a b c d e f g h i j k l m n p q : Bool) : List TwoGroups :=
  [⟨.lsb0, [a, b, c], [d, e, f, g, h]⟩, ⟨.msb0, [i, j], [k, l, m, n, p, q]⟩]

example (a b c d e f g h i j k l m n p q : Bool) : ∀ x ∈ someShared a b c d e f g h i j k l m n p q, x.FillsByte := by
  simp [someShared, FillsByte]

end Deku
