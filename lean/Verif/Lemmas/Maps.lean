import Verif.Lemmas.Vec

/-! # Lemmas about hash maps and sets -/

namespace Deku

open Reader Writer Coll

variable {α β σ : Type} [DecidableEq α]

/-- All entries, inserted one after the other. -/
def insertAll (res : List (α × β)) (vs : List (α × β)) : List (α × β) :=
  vs.foldl (fun m v => Coll.insert v.1 v.2 m) res

def setInsertAll (res : List α) (vs : List α) : List α := vs.foldl (fun m v => setInsert v m) res

theorem mapLoop_eq (f : M Reader (α × β)) (pred : Nat → α × β → σ → Bool × σ) (start : Nat)
    (mem : Nat) (s : σ) (res : List (α × β)) (r : Reader) :
    mapLoop f pred start mem s res r =
      (vecLoop f pred start mem s >>= fun vs => pure (insertAll res vs)) r := by
  induction mem generalizing s res r with
  | zero =>
    simp only [mapLoop, vecLoop, M.bind_def]
    cases h : f r with
    | mk x r1 => cases x <;> rfl
  | succ mem ih =>
    simp only [mapLoop, vecLoop]
    rw [M.bind_assoc_run]
    simp only [M.bind_def (x := f)]
    cases h : f r with
    | mk x r1 =>
      cases x with
      | err e => rfl
      | panic => rfl
      | ok v =>
        simp only [M.get_bind_run, M.bind_assoc_run]
        by_cases hs : start ≤ r1.bitsRead
        · simp only [hs, decide_true, M.assert_true_bind_run]
          split
          · rfl
          · rw [ih, M.bind_assoc_run]
            rfl
        · simp only [hs, decide_false, M.assert_false_bind_run]

theorem mapEndLoop_eq (f : M Reader (α × β)) (mem : Nat) (res : List (α × β)) (r : Reader) :
    mapEndLoop f mem res r = (vecEndLoop f mem >>= fun vs => pure (insertAll res vs)) r := by
  induction mem generalizing res r with
  | zero =>
    simp only [mapEndLoop, vecEndLoop]
    rw [M.bind_assoc_run]
    simp only [M.bind_def (x := Reader.end)]
    cases h : Reader.end r with
    | mk x r1 =>
      cases x with
      | err e => rfl
      | panic => rfl
      | ok b =>
        cases b with
        | true => rfl
        | false =>
          simp only [Bool.false_eq_true, if_false, M.bind_def]
          cases h : f r1 with
          | mk x r1 => cases x <;> rfl
  | succ mem ih =>
    simp only [mapEndLoop, vecEndLoop]
    rw [M.bind_assoc_run]
    simp only [M.bind_def (x := Reader.end)]
    cases h : Reader.end r with
    | mk x r1 =>
      cases x with
      | err e => rfl
      | panic => rfl
      | ok b =>
        cases b with
        | true => rfl
        | false =>
          simp only [Bool.false_eq_true, if_false]
          rw [M.bind_assoc_run]
          simp only [M.bind_def (x := f)]
          cases h : f r1 with
          | mk x r2 =>
            cases x with
            | err e => rfl
            | panic => rfl
            | ok v =>
              simp only
              rw [ih, M.bind_assoc_run]
              rfl

theorem mapWithPredicate_eq (f : M Reader (α × β)) (pred : Nat → α × β → σ → Bool × σ) (s : σ)
    (mem size : Nat) (hz : size ≠ 0) (cap : Option Nat) (r : Reader) :
    mapWithPredicate mem cap f pred s r =
      (vecWithPredicate mem size cap f pred s >>= fun vs => pure (insertAll [] vs)) r := by
  simp only [mapWithPredicate, vecWithPredicate, if_neg hz]
  rw [M.bind_assoc_run]
  simp only [M.bind_def (x := withCapacity mem cap)]
  cases h : withCapacity mem cap r with
  | mk x r1 =>
    cases x with
    | err e => rfl
    | panic => rfl
    | ok u =>
      simp only [M.bind_assoc_run, M.get_bind_run]
      exact mapLoop_eq ..

theorem mapRead_eq (f : M Reader (α × β)) (mem size : Nat) (hz : size ≠ 0) (l : Limit (α × β) σ)
    (r : Reader) :
    mapRead mem f l r = (vecRead mem size f l >>= fun vs => pure (insertAll [] vs)) r := by
  cases l with
  | count n =>
    simp only [mapRead, vecRead]
    split
    · rfl
    · exact mapWithPredicate_eq f _ _ mem size hz _ r
  | «until» pred s => exact mapWithPredicate_eq f _ _ mem size hz _ r
  | bits n =>
    simp only [mapRead, vecRead]
    split
    · rfl
    · exact mapWithPredicate_eq f _ _ mem size hz _ r
  | bytes n =>
    simp only [mapRead, vecRead, M.bind_assoc_run]
    simp only [M.bind_def (x := usize (n * 8))]
    cases h : usize (n * 8) r with
    | mk x r1 =>
      cases x with
      | err e => rfl
      | panic => rfl
      | ok k =>
        simp only
        split
        · rfl
        · exact mapWithPredicate_eq f _ _ mem size hz _ r1
  | «end» =>
    simp only [mapRead, vecRead, vecToEnd, if_neg hz]
    exact mapEndLoop_eq ..

theorem setLoop_eq (f : M Reader α) (pred : Nat → α → σ → Bool × σ) (start : Nat)
    (mem : Nat) (s : σ) (res : List α) (r : Reader) :
    setLoop f pred start mem s res r =
      (vecLoop f pred start mem s >>= fun vs => pure (setInsertAll res vs)) r := by
  induction mem generalizing s res r with
  | zero =>
    simp only [setLoop, vecLoop, M.bind_def]
    cases h : f r with
    | mk x r1 => cases x <;> rfl
  | succ mem ih =>
    simp only [setLoop, vecLoop]
    rw [M.bind_assoc_run]
    simp only [M.bind_def (x := f)]
    cases h : f r with
    | mk x r1 =>
      cases x with
      | err e => rfl
      | panic => rfl
      | ok v =>
        simp only [M.get_bind_run, M.bind_assoc_run]
        by_cases hs : start ≤ r1.bitsRead
        · simp only [hs, decide_true, M.assert_true_bind_run]
          split
          · rfl
          · rw [ih, M.bind_assoc_run]
            rfl
        · simp only [hs, decide_false, M.assert_false_bind_run]

theorem setEndLoop_eq (f : M Reader α) (mem : Nat) (res : List α) (r : Reader) :
    setEndLoop f mem res r = (vecEndLoop f mem >>= fun vs => pure (setInsertAll res vs)) r := by
  induction mem generalizing res r with
  | zero =>
    simp only [setEndLoop, vecEndLoop]
    rw [M.bind_assoc_run]
    simp only [M.bind_def (x := Reader.end)]
    cases h : Reader.end r with
    | mk x r1 =>
      cases x with
      | err e => rfl
      | panic => rfl
      | ok b =>
        cases b with
        | true => rfl
        | false =>
          simp only [Bool.false_eq_true, if_false, M.bind_def]
          cases h : f r1 with
          | mk x r1 => cases x <;> rfl
  | succ mem ih =>
    simp only [setEndLoop, vecEndLoop]
    rw [M.bind_assoc_run]
    simp only [M.bind_def (x := Reader.end)]
    cases h : Reader.end r with
    | mk x r1 =>
      cases x with
      | err e => rfl
      | panic => rfl
      | ok b =>
        cases b with
        | true => rfl
        | false =>
          simp only [Bool.false_eq_true, if_false]
          rw [M.bind_assoc_run]
          simp only [M.bind_def (x := f)]
          cases h : f r1 with
          | mk x r2 =>
            cases x with
            | err e => rfl
            | panic => rfl
            | ok v =>
              simp only
              rw [ih, M.bind_assoc_run]
              rfl

theorem setWithPredicate_eq (f : M Reader α) (pred : Nat → α → σ → Bool × σ) (s : σ)
    (mem size : Nat) (hz : size ≠ 0) (cap : Option Nat) (r : Reader) :
    setWithPredicate mem cap f pred s r =
      (vecWithPredicate mem size cap f pred s >>= fun vs => pure (setInsertAll [] vs)) r := by
  simp only [setWithPredicate, vecWithPredicate, if_neg hz]
  rw [M.bind_assoc_run]
  simp only [M.bind_def (x := withCapacity mem cap)]
  cases h : withCapacity mem cap r with
  | mk x r1 =>
    cases x with
    | err e => rfl
    | panic => rfl
    | ok u =>
      simp only [M.bind_assoc_run, M.get_bind_run]
      exact setLoop_eq ..

theorem setRead_eq (f : M Reader α) (mem size : Nat) (hz : size ≠ 0) (l : Limit α σ) (r : Reader) :
    setRead mem f l r = (vecRead mem size f l >>= fun vs => pure (setInsertAll [] vs)) r := by
  cases l with
  | count n =>
    simp only [setRead, vecRead]
    split
    · rfl
    · exact setWithPredicate_eq f _ _ mem size hz _ r
  | «until» pred s => exact setWithPredicate_eq f _ _ mem size hz _ r
  | bits n =>
    simp only [setRead, vecRead]
    split
    · rfl
    · exact setWithPredicate_eq f _ _ mem size hz _ r
  | bytes n =>
    simp only [setRead, vecRead, M.bind_assoc_run]
    simp only [M.bind_def (x := usize (n * 8))]
    cases h : usize (n * 8) r with
    | mk x r1 =>
      cases x with
      | err e => rfl
      | panic => rfl
      | ok k =>
        simp only
        split
        · rfl
        · exact setWithPredicate_eq f _ _ mem size hz _ r1
  | «end» =>
    simp only [setRead, vecRead, vecToEnd, if_neg hz]
    exact setEndLoop_eq ..

/-! ## Maps as data -/

omit [DecidableEq α] in
/-- The value of a key in a list of entries: the last one wins. -/
def lastValue [DecidableEq α] (k : α) (vs : List (α × β)) : Option β :=
  (vs.reverse.find? (fun v => decide (v.1 = k))).map (·.2)

theorem lookup_insert (k k' : α) (v : β) (m : List (α × β)) :
    (Coll.insert k v m).lookup k' = if k' = k then some v else m.lookup k' := by
  induction m with
  | nil =>
    by_cases h : k' = k
    · subst h; simp [Coll.insert]
    · have : (k' == k) = false := by simpa using h
      simp [Coll.insert, List.lookup_cons, h, this]
  | cons e m ih =>
    obtain ⟨k1, v1⟩ := e
    simp only [Coll.insert]
    by_cases h1 : k1 = k
    · subst h1
      by_cases h : k' = k1
      · subst h; simp
      · have : (k' == k1) = false := by simpa using h
        simp [List.lookup_cons, h, this]
    · rw [if_neg h1]
      by_cases h2 : k' = k1
      · subst h2; simp [h1]
      · have : (k' == k1) = false := by simpa using h2
        rw [List.lookup_cons, List.lookup_cons, this]
        exact ih

theorem keys_insert (k : α) (v : β) (m : List (α × β)) (k' : α) :
    k' ∈ (Coll.insert k v m).map (·.1) ↔ k' = k ∨ k' ∈ m.map (·.1) := by
  induction m with
  | nil => simp [Coll.insert]
  | cons e m ih =>
    obtain ⟨k1, v1⟩ := e
    simp only [Coll.insert]
    by_cases h1 : k1 = k
    · subst h1; simp
    · rw [if_neg h1, List.map_cons, List.mem_cons, ih, List.map_cons, List.mem_cons]
      exact or_left_comm

theorem nodup_insert (k : α) (v : β) (m : List (α × β)) (h : (m.map (·.1)).Nodup) :
    ((Coll.insert k v m).map (·.1)).Nodup := by
  induction m with
  | nil => simp [Coll.insert]
  | cons e m ih =>
    obtain ⟨k1, v1⟩ := e
    simp only [Coll.insert]
    rw [List.map_cons, List.nodup_cons] at h
    by_cases h1 : k1 = k
    · subst h1
      rw [if_pos rfl, List.map_cons, List.nodup_cons]
      exact h
    · rw [if_neg h1, List.map_cons, List.nodup_cons, keys_insert]
      exact ⟨fun hc => hc.elim h1 h.1, ih h.2⟩

theorem length_insert (k : α) (v : β) (m : List (α × β)) :
    (Coll.insert k v m).length ≤ m.length + 1 := by
  induction m with
  | nil => simp [Coll.insert]
  | cons e m ih =>
    simp only [Coll.insert]
    split <;> simp_all

theorem insert_new (k : α) (v : β) (m : List (α × β)) (h : k ∉ m.map (·.1)) :
    Coll.insert k v m = m ++ [(k, v)] := by
  induction m with
  | nil => rfl
  | cons e m ih =>
    rw [List.map_cons, List.mem_cons, not_or] at h
    simp only [Coll.insert]
    rw [if_neg (fun hc => h.1 hc.symm), ih h.2]
    rfl

theorem lookup_insertAll (k : α) (vs res : List (α × β)) :
    (insertAll res vs).lookup k = (lastValue k vs).or (res.lookup k) := by
  induction vs generalizing res with
  | nil => simp [insertAll, lastValue]
  | cons v vs ih =>
    have h1 : insertAll res (v :: vs) = insertAll (Coll.insert v.1 v.2 res) vs := rfl
    rw [h1, ih, lookup_insert]
    simp only [lastValue, List.reverse_cons, List.find?_append]
    cases hf : vs.reverse.find? (fun v => decide (v.1 = k)) with
    | some x => simp
    | none =>
      by_cases hk : v.1 = k
      · simp [hk]
      · have hk' : ¬ k = v.1 := fun h => hk h.symm
        simp [hk, hk']

theorem nodup_insertAll (vs res : List (α × β)) (h : (res.map (·.1)).Nodup) :
    ((insertAll res vs).map (·.1)).Nodup := by
  induction vs generalizing res with
  | nil => exact h
  | cons v vs ih => exact ih _ (nodup_insert _ _ _ h)

theorem length_insertAll (vs res : List (α × β)) :
    (insertAll res vs).length ≤ res.length + vs.length := by
  induction vs generalizing res with
  | nil => exact Nat.le_refl _
  | cons v vs ih =>
    have h1 : insertAll res (v :: vs) = insertAll (Coll.insert v.1 v.2 res) vs := rfl
    have := ih (Coll.insert v.1 v.2 res)
    have := length_insert v.1 v.2 res
    rw [h1, List.length_cons]
    omega

theorem insertAll_nodup (vs res : List (α × β)) (h : ((res ++ vs).map (·.1)).Nodup) :
    insertAll res vs = res ++ vs := by
  induction vs generalizing res with
  | nil => simp [insertAll]
  | cons v vs ih =>
    have h1 : insertAll res (v :: vs) = insertAll (Coll.insert v.1 v.2 res) vs := rfl
    have h2 : v.1 ∉ res.map (·.1) := by
      rw [List.map_append, List.map_cons, List.nodup_append] at h
      intro hc
      exact h.2.2 _ hc _ List.mem_cons_self rfl
    rw [h1, insert_new _ _ _ h2, ih]
    · simp
    · simpa using h

theorem mem_setInsertAll (x : α) (vs res : List α) :
    x ∈ setInsertAll res vs ↔ x ∈ res ∨ x ∈ vs := by
  induction vs generalizing res with
  | nil => simp [setInsertAll]
  | cons v vs ih =>
    have h1 : setInsertAll res (v :: vs) = setInsertAll (setInsert v res) vs := rfl
    rw [h1, ih, setInsert]
    by_cases h : v ∈ res
    · rw [if_pos h, List.mem_cons]
      constructor
      · rintro (h | h)
        · exact .inl h
        · exact .inr (.inr h)
      · rintro (h | rfl | h)
        · exact .inl h
        · exact .inl ‹_›
        · exact .inr h
    · rw [if_neg h]
      rw [List.mem_append, List.mem_singleton, List.mem_cons]
      exact or_assoc

theorem nodup_setInsertAll (vs res : List α) (h : res.Nodup) : (setInsertAll res vs).Nodup := by
  induction vs generalizing res with
  | nil => exact h
  | cons v vs ih =>
    refine ih (setInsert v res) ?_
    rw [setInsert]
    split
    · exact h
    · rename_i hv
      rw [List.nodup_append]
      refine ⟨h, by simp, ?_⟩
      intro a ha b hb hab
      simp at hb
      subst hb; subst hab
      exact hv ha

theorem length_setInsertAll (vs res : List α) :
    (setInsertAll res vs).length ≤ res.length + vs.length := by
  induction vs generalizing res with
  | nil => exact Nat.le_refl _
  | cons v vs ih =>
    have h1 : setInsertAll res (v :: vs) = setInsertAll (setInsert v res) vs := rfl
    have h2 := ih (setInsert v res)
    have : (setInsert v res).length ≤ res.length + 1 := by
      rw [setInsert]; split <;> simp
    rw [h1, List.length_cons]
    omega

end Deku
