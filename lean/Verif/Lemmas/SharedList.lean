import Verif.Spec.SharedList
import Verif.Lemmas.SharedBody

/-!
# Lists of structs whose fields share bytes
-/

namespace Deku

open HeadSlot Writer

/-- The loop of a list with a count over elements that are read by their bytes. -/
theorem vecLoop_reads {α : Type} {f : M Reader α} (start : Nat) : ∀ (xs : List (List Byte × α)), (∀ x ∈ xs, ReadsBytes f x.1 x.2) → xs ≠ [] →
    ∀ mem, xs.length ≤ mem → ∀ r rest, r.At 0 → start ≤ r.bitsRead → r.inner.data.drop r.inner.pos = (xs.map Prod.fst).flatten ++ rest →
    ∃ r', Coll.vecLoop f Coll.countPred start mem xs.length r = (.ok (xs.map Prod.snd), r') ∧
      r'.bitsRead = r.bitsRead + 8 * (xs.map Prod.fst).flatten.length
  | [], _, hne, _, _, _, _, _, _, _ => (hne rfl).elim
  | x :: xs, h, _, mem, hm, r, rest, ha, hs, hu => by
    obtain ⟨mem, rfl⟩ : ∃ k, mem = k + 1 := ⟨mem - 1, by simp only [List.length_cons] at hm; omega⟩
    rw [List.map_cons, List.flatten_cons, List.append_assoc] at hu
    obtain ⟨r1, e1, a1, u1, b1⟩ := h x List.mem_cons_self r _ ha hu
    have hs1 : start ≤ r1.bitsRead := by omega
    simp only [Coll.vecLoop, List.length_cons]
    rw [M.bind_ok e1, M.get_bind_run]
    simp only [hs1, decide_true, M.assert_true_bind_run, Coll.countPred, Nat.add_sub_cancel, beq_iff_eq]
    by_cases hx : xs = []
    · subst hx
      exact ⟨r1, rfl, by simpa using b1⟩
    · rw [if_neg (fun h0 => hx (List.length_eq_zero_iff.1 h0))]
      obtain ⟨r2, e2, b2⟩ := vecLoop_reads start xs (fun y hy => h y (List.mem_cons_of_mem _ hy)) hx mem
        (by simp only [List.length_cons] at hm; omega) r1 rest a1 hs1 u1
      refine ⟨r2, ?_, ?_⟩
      · rw [M.bind_ok e2]; rfl
      · rw [b2, b1, List.map_cons, List.flatten_cons, List.length_append]; omega

/-- A list with a count of elements that are read by their bytes. -/
theorem vecRead_reads {α τ : Type} {f : M Reader α} (xs : List (List Byte × α)) (h : ∀ x ∈ xs, ReadsBytes f x.1 x.2) {mem size : Nat}
    (hz : size ≠ 0) (hm : xs.length ≤ mem) {r : Reader} {rest : List Byte} (ha : r.At 0)
    (hu : r.inner.data.drop r.inner.pos = (xs.map Prod.fst).flatten ++ rest) :
    ∃ r', Coll.vecRead (σ := τ) mem size f (.count xs.length) r = (.ok (xs.map Prod.snd), r') ∧
      r'.bitsRead = r.bitsRead + 8 * (xs.map Prod.fst).flatten.length := by
  simp only [Coll.vecRead]
  by_cases hx : xs = []
  · subst hx; exact ⟨r, rfl, by simp⟩
  · rw [if_neg (fun h0 => hx (List.length_eq_zero_iff.1 h0))]
    simp only [Coll.vecWithPredicate, if_neg hz, Coll.withCapacity, hm, decide_true]
    rw [M.assert_true_bind_run, M.get_bind_run]
    exact vecLoop_reads _ xs h hx mem hm r rest ha (Nat.le_refl _) hu

theorem headList_write (m : Machine) (ts : List (Nat × IntCtx)) (env : Env) : ∀ (hs : List (List HeadSlot)),
    (∀ ss ∈ hs, headKinds ss = ts ∧ ∀ s ∈ ss, s.Fits m.native) →
    Coll.writeAll ((intStruct m.native ts).write m env) (hs.map fun ss => intValue (headValues ss)) = writeFields m.native (hs.flatten.flatMap fields)
  | [], _ => rfl
  | ss :: hs, h => by
    have ih := headList_write m ts env hs fun t ht => h t (List.mem_cons_of_mem _ ht)
    obtain ⟨hk, hf⟩ := h ss List.mem_cons_self
    rw [List.map_cons, List.flatten_cons, List.flatMap_append, writeFields_append, ← ih]
    simp only [Coll.writeAll]
    rw [← hk, headKinds, headValues, intStruct_write m _ (fun f hf' => by
      obtain ⟨s, hs', hf'⟩ := List.mem_flatMap.1 hf'
      exact (hf s hs').small f hf')]

/-- The bytes of a header. -/
theorem head_bytes (native : Endian) (ss : List HeadSlot) (h : ∀ s ∈ ss, s.Fits native) :
    bytesBits (Prim.bytesOf .msb0 (ss.flatMap (bits native))) = ss.flatMap (bits native) :=
  Prim.orderBits_bytesOf .msb0 _ (length_bits native ss h)

theorem bytesBits_heads (native : Endian) : ∀ (hs : List (List HeadSlot)), (∀ ss ∈ hs, ∀ s ∈ ss, s.Fits native) →
    bytesBits (hs.map fun ss => Prim.bytesOf .msb0 (ss.flatMap (bits native))).flatten = hs.flatten.flatMap (bits native)
  | [], _ => rfl
  | ss :: hs, h => by
    have ih := bytesBits_heads native hs fun t ht => h t (List.mem_cons_of_mem _ ht)
    rw [List.map_cons, List.flatten_cons, bytesBits_append, ih, head_bytes native ss (h ss List.mem_cons_self), List.flatten_cons, List.flatMap_append]

theorem length_flatten8 {α : Type} : ∀ xs : List (List Bool × α), (∀ x ∈ xs, x.1.length % 8 = 0) → (xs.map Prod.fst).flatten.length % 8 = 0
  | [], _ => rfl
  | x :: xs, h => by
    have h1 := h x List.mem_cons_self
    have h2 := length_flatten8 xs fun y hy => h y (List.mem_cons_of_mem _ hy)
    rw [List.map_cons, List.flatten_cons, List.length_append]
    omega

/-- The loop of `read_all` over elements that are read by their bits, also right after a byte was peeked. -/
theorem vecEndLoop_reads {α : Type} {f : M Reader α} : ∀ (xs : List (List Bool × α)),
    (∀ x ∈ xs, x.1 ≠ [] ∧ ∀ (r : Reader) (more : List Bool), more.length % 8 = 0 → r.Live 0 → r.unreadMsb = x.1 ++ more →
      ∃ r', f r = (.ok x.2, r') ∧ r'.unreadMsb = more ∧ r'.bitsRead = r.bitsRead + x.1.length ∧ r'.Live 0) →
    (∀ x ∈ xs, x.1.length % 8 = 0) →
    ∀ mem, xs.length ≤ mem → ∀ r : Reader, r.Live 0 → r.unreadMsb = (xs.map Prod.fst).flatten →
    ∃ r', Coll.vecEndLoop f mem r = (.ok (xs.map Prod.snd), r') ∧ r'.bitsRead = r.bitsRead + (xs.map Prod.fst).flatten.length
  | [], _, _, mem, _, r, hr, hu => by
    obtain ⟨r1, e, _, _, hb, _⟩ := end_live hr .msb0
    have h0 : r.unread .msb0 = [] := hu
    refine ⟨r1, ?_, by simpa using hb⟩
    cases mem <;>
    · simp only [Coll.vecEndLoop]
      rw [M.bind_ok e]
      simp [h0]
  | x :: xs, h, h8, mem, hm, r, hr, hu => by
    obtain ⟨mem, rfl⟩ : ∃ k, mem = k + 1 := ⟨mem - 1, by simp only [List.length_cons] at hm; omega⟩
    obtain ⟨r1, e, l1, u1, b1, _⟩ := end_live hr .msb0
    obtain ⟨hne, hx⟩ := h x List.mem_cons_self
    have hu : r.unread .msb0 = x.1 ++ (xs.map Prod.fst).flatten := hu
    have h0 : r.unread .msb0 ≠ [] := by rw [hu]; simp [hne]
    have hmore : (xs.map Prod.fst).flatten.length % 8 = 0 := length_flatten8 xs fun y hy => h8 y (List.mem_cons_of_mem _ hy)
    obtain ⟨r2, e2, u2, b2, l2⟩ := hx r1 _ hmore l1 ((u1 .msb0).trans hu)
    obtain ⟨r3, e3, b3⟩ := vecEndLoop_reads xs (fun y hy => h y (List.mem_cons_of_mem _ hy)) (fun y hy => h8 y (List.mem_cons_of_mem _ hy)) mem
      (by simp only [List.length_cons] at hm; omega) r2 l2 u2
    refine ⟨r3, ?_, ?_⟩
    · simp only [Coll.vecEndLoop]
      rw [M.bind_ok e]
      simp only [h0, decide_false, Bool.false_eq_true, if_false]
      rw [M.bind_ok e2, M.bind_ok e3]; rfl
    · rw [b3, b2, b1, List.map_cons, List.flatten_cons, List.length_append]; omega

theorem HeadSlot.Fits.bits_ne {native : Endian} {s : HeadSlot} (h : s.Fits native) : s.bits native ≠ [] := by
  refine List.length_pos_iff.1 ?_
  cases s with
  | whole W e v => simp only [HeadSlot.bits, Prim.length_fieldBits]; have := h.1; omega
  | pair f g => exact Nat.lt_of_lt_of_eq (by omega) h.fills.length.symm

theorem head_ne {native : Endian} {ss : List HeadSlot} (h : ∀ s ∈ ss, s.Fits native) (hk : headKinds ss ≠ []) : ss.flatMap (bits native) ≠ [] := by
  cases ss with
  | nil => exact (hk rfl).elim
  | cons s ss => rw [List.flatMap_cons]; simp [(h s List.mem_cons_self).bits_ne]

end Deku
