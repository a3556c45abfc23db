import Verif.Model.Hash
import Verif.Lemmas.Maps
import Verif.Lemmas.Text
import Verif.Lemmas.Regroup
import Verif.Lemmas.Chain
import Verif.Lemmas.FitsSound
import Verif.Lemmas.Leaves

/-!
# Maps and sets in fields
-/

namespace Deku

open Coll

/-! ### The order of values -/

theorem Val.code_inj : ∀ (a b : Val) (x y : List Nat), a.code ++ x = b.code ++ y → a = b ∧ x = y
  | .num n, b, x, y, h => by
    cases b <;> simp only [Val.code, List.cons_append, List.nil_append, List.cons.injEq] at h <;> try omega
    obtain ⟨_, h1, h2, h3⟩ := h
    refine ⟨?_, h3⟩
    congr 1
    split at h1 <;> split at h1 <;> omega
  | .none, b, x, y, h => by
    cases b <;> simp only [Val.code, List.cons_append, List.nil_append, List.cons.injEq] at h <;> try omega
    exact ⟨rfl, h.2⟩
  | .some v, b, x, y, h => by
    cases b <;> simp only [Val.code, List.cons_append, List.nil_append, List.cons.injEq] at h <;> try omega
    obtain ⟨h1, h2⟩ := Val.code_inj v _ x y h.2
    exact ⟨by rw [h1], h2⟩
  | .nil, b, x, y, h => by
    cases b <;> simp only [Val.code, List.cons_append, List.nil_append, List.cons.injEq] at h <;> try omega
    exact ⟨rfl, h.2⟩
  | .cons v vs, b, x, y, h => by
    cases b <;> simp only [Val.code, List.cons_append, List.nil_append, List.cons.injEq] at h <;> try omega
    rename_i w ws
    obtain ⟨_, h⟩ := h
    rw [List.append_assoc, List.append_assoc] at h
    obtain ⟨h1, h2⟩ := Val.code_inj v _ _ _ h
    obtain ⟨h3, h4⟩ := Val.code_inj vs _ _ _ h2
    exact ⟨by rw [h1, h3], h4⟩
  | .variant i fs, b, x, y, h => by
    cases b <;> simp only [Val.code, List.cons_append, List.nil_append, List.cons.injEq] at h <;> try omega
    obtain ⟨h1, h2⟩ := Val.code_inj fs _ x y h.2.2
    exact ⟨by rw [h1, h.2.1], h2⟩

theorem codeLe_total : ∀ a b : List Nat, codeLe a b = true ∨ codeLe b a = true
  | [], _ => .inl (by simp [codeLe])
  | _ :: _, [] => .inr (by simp [codeLe])
  | a :: as, b :: bs => by
    simp only [codeLe]
    have := codeLe_total as bs
    by_cases h : a = b
    · subst h; simpa using this
    · rcases Nat.lt_or_gt_of_ne h with h | h <;> simp [h]

theorem codeLe_antisymm : ∀ a b : List Nat, codeLe a b = true → codeLe b a = true → a = b
  | [], [], _, _ => rfl
  | [], _ :: _, _, h => by simp [codeLe] at h
  | _ :: _, [], h, _ => by simp [codeLe] at h
  | a :: as, b :: bs, h1, h2 => by
    simp only [codeLe, Bool.or_eq_true, decide_eq_true_eq, Bool.and_eq_true, beq_iff_eq] at h1 h2
    rcases h1 with h1 | ⟨e, h1⟩
    · rcases h2 with h2 | ⟨e, _⟩ <;> omega
    · rcases h2 with h2 | ⟨_, h2⟩
      · omega
      · rw [e, codeLe_antisymm as bs h1 h2]

theorem codeLe_trans : ∀ a b c : List Nat, codeLe a b = true → codeLe b c = true → codeLe a c = true
  | [], _, _, _, _ => by simp [codeLe]
  | _ :: _, [], _, h, _ => by simp [codeLe] at h
  | _ :: _, _ :: _, [], _, h => by simp [codeLe] at h
  | a :: as, b :: bs, c :: cs, h1, h2 => by
    simp only [codeLe, Bool.or_eq_true, decide_eq_true_eq, Bool.and_eq_true, beq_iff_eq] at h1 h2 ⊢
    rcases h1 with h1 | ⟨e1, h1⟩ <;> rcases h2 with h2 | ⟨e2, h2⟩
    · exact .inl (by omega)
    · exact .inl (by omega)
    · exact .inl (by omega)
    · exact .inr ⟨by omega, codeLe_trans _ _ _ h1 h2⟩

theorem Val.le_antisymm (a b : Val) (h1 : a.le b = true) (h2 : b.le a = true) : a = b := by
  have := codeLe_antisymm _ _ h1 h2
  exact (Val.code_inj a b [] [] (by rw [this])).1

/-! ### Sorting -/

theorem sortIn_perm (x : Val) : ∀ l : List Val, (sortIn x l).Perm (x :: l)
  | [] => .refl _
  | y :: l => by
    rw [sortIn]
    split
    · exact .refl _
    · exact ((sortIn_perm x l).cons y).trans (.swap x y l)

theorem sortVals_perm : ∀ l : List Val, (sortVals l).Perm l
  | [] => .refl _
  | x :: l => (sortIn_perm x _).trans ((sortVals_perm l).cons x)

theorem sortIn_sorted (x : Val) : ∀ l : List Val, l.Pairwise (fun a b => a.le b = true) →
    (sortIn x l).Pairwise (fun a b => a.le b = true)
  | [], _ => by simp [sortIn]
  | y :: l, h => by
    rw [List.pairwise_cons] at h
    rw [sortIn]
    split
    next hx =>
      refine List.pairwise_cons.mpr ⟨fun z hz => ?_, List.pairwise_cons.mpr h⟩
      rcases List.mem_cons.mp hz with rfl | hz
      · exact hx
      · exact codeLe_trans _ _ _ hx (h.1 z hz)
    next hx =>
      refine List.pairwise_cons.mpr ⟨fun z hz => ?_, sortIn_sorted x l h.2⟩
      rcases List.mem_cons.mp ((sortIn_perm x l).mem_iff.mp hz) with rfl | hz
      · exact (codeLe_total y.code z.code).resolve_right hx
      · exact h.1 z hz

theorem sortVals_sorted : ∀ l : List Val, (sortVals l).Pairwise (fun a b => a.le b = true)
  | [] => .nil
  | x :: l => sortIn_sorted x _ (sortVals_sorted l)

theorem sortVals_eq_iff (l l' : List Val) : sortVals l = sortVals l' ↔ l.Perm l' := by
  constructor
  · intro h
    exact (sortVals_perm l).symm.trans (h ▸ sortVals_perm l')
  · intro h
    exact List.Perm.eq_of_pairwise (fun a b _ _ => Val.le_antisymm a b) (sortVals_sorted l) (sortVals_sorted l')
      ((sortVals_perm l).trans (h.trans (sortVals_perm l').symm))

/-! ### Values of maps and sets -/

theorem asPair_pairVal (e : Val × Val) : (pairVal e).asPair = e := rfl

theorem map_asPair (es : List (Val × Val)) : (es.map pairVal).map Val.asPair = es := by
  rw [List.map_map]
  exact List.map_id es

theorem ofList_inj {a b : List Val} (h : Val.ofList a = Val.ofList b) : a = b := by
  rw [← elems_ofList a, h, elems_ofList]

theorem mapVal_eq_iff (es es' : List (Val × Val)) : mapVal es = mapVal es' ↔ es.Perm es' := by
  rw [mapVal, mapVal]
  constructor
  · intro h
    have h1 := (sortVals_eq_iff _ _).mp (ofList_inj h)
    have h2 := h1.map Val.asPair
    rwa [map_asPair, map_asPair] at h2
  · intro h
    rw [(sortVals_eq_iff _ _).mpr (h.map pairVal)]

theorem setVal_eq_iff (s s' : List Val) : setVal s = setVal s' ↔ s.Perm s' := by
  rw [setVal, setVal]
  constructor
  · intro h
    exact (sortVals_eq_iff _ _).mp (ofList_inj h)
  · intro h
    rw [(sortVals_eq_iff _ _).mpr h]

theorem entries_mapVal (es : List (Val × Val)) : (mapVal es).entries.Perm es := by
  rw [mapVal, Val.entries, elems_ofList]
  have := (sortVals_perm (es.map pairVal)).map Val.asPair
  rwa [map_asPair] at this

theorem elems_setVal (s : List Val) : (setVal s).elems.Perm s := by
  rw [setVal, elems_ofList]
  exact sortVals_perm s

theorem Val.isMap_iff (v : Val) : v.isMap = true ↔ mapVal v.entries = v ∧ (v.entries.map (·.1)).Nodup := by
  rw [Val.isMap, Bool.and_eq_true, decide_eq_true_eq, decide_eq_true_eq]

theorem Val.isSet_iff (v : Val) : v.isSet = true ↔ setVal v.elems = v ∧ v.elems.Nodup := by
  rw [Val.isSet, Bool.and_eq_true, decide_eq_true_eq, decide_eq_true_eq]

theorem isMap_mapVal {es : List (Val × Val)} (h : (es.map (·.1)).Nodup) : (mapVal es).isMap = true := by
  rw [Val.isMap_iff]
  have hp := entries_mapVal es
  exact ⟨(mapVal_eq_iff _ _).mpr hp, (hp.map _).nodup_iff.mpr h⟩

theorem isSet_setVal {s : List Val} (h : s.Nodup) : (setVal s).isSet = true := by
  rw [Val.isSet_iff]
  have hp := elems_setVal s
  exact ⟨(setVal_eq_iff _ _).mpr hp, hp.nodup_iff.mpr h⟩

theorem lookup_iff_mem {α β : Type} [DecidableEq α] : ∀ {es : List (α × β)}, (es.map (·.1)).Nodup → ∀ (k : α) (v : β),
    es.lookup k = some v ↔ (k, v) ∈ es
  | [], _, k, v => by simp
  | (k1, v1) :: es, h, k, v => by
    rw [List.map_cons, List.nodup_cons] at h
    rw [List.lookup_cons, List.mem_cons]
    by_cases e : k = k1
    · subst e
      simp only [beq_self_eq_true, if_true, Option.some.injEq, Prod.mk.injEq, true_and]
      constructor
      · intro e; exact .inl e.symm
      · rintro (e | e)
        · exact e.symm
        · exact absurd (List.mem_map.mpr ⟨_, e, rfl⟩) h.1
    · have : (k == k1) = false := by simpa using e
      simp only [this, Prod.mk.injEq, e, false_and, false_or]
      exact lookup_iff_mem h.2 k v

theorem perm_iff_lookup {α β : Type} [DecidableEq α] {es es' : List (α × β)} (h : (es.map (·.1)).Nodup)
    (h' : (es'.map (·.1)).Nodup) : es.Perm es' ↔ ∀ k, es.lookup k = es'.lookup k := by
  have nd : ∀ {es : List (α × β)}, (es.map (·.1)).Nodup → es.Nodup := fun h => List.Pairwise.of_map _ (fun a b e e' => e (by rw [e'])) h
  rw [List.perm_ext_iff_of_nodup (nd h) (nd h')]
  constructor
  · intro hm k
    rcases e : es'.lookup k with _ | v
    · rcases e1 : es.lookup k with _ | v
      · rfl
      · rw [lookup_iff_mem h, hm, ← lookup_iff_mem h', e] at e1
        cases e1
    · rw [lookup_iff_mem h', ← hm, ← lookup_iff_mem h] at e
      exact e
  · rintro hl ⟨k, v⟩
    rw [← lookup_iff_mem h, ← lookup_iff_mem h', hl]

/-! ### Reading -/

theorem vecRead_comap {α β σ : Type} (h : α → β) (mem size : Nat) (rd : M Reader α) (l : Limit β σ) :
    vecRead mem size (do let v ← rd; pure (h v)) l =
      (do let vs ← vecRead mem size rd (l.comap h); pure (vs.map h)) := by
  cases l with
  | count n =>
    simp only [Limit.comap, vecRead]
    split
    · rfl
    · exact vecWithPredicate_map h rd (rel := Eq) (fun _ _ _ _ e => by cases e; exact ⟨rfl, rfl⟩) _ _ _ _ _ rfl
  | «until» p i =>
    simp only [Limit.comap, vecRead]
    exact vecWithPredicate_map h rd (rel := Eq) (fun _ v s t e => by cases e; exact ⟨rfl, rfl⟩) _ _ _ _ _ rfl
  | bytes n =>
    simp only [Limit.comap, vecRead, bind_assoc]
    refine bind_congr fun k => ?_
    split
    · rfl
    · exact vecWithPredicate_map h rd (rel := Eq) (fun _ _ _ _ e => by cases e; exact ⟨rfl, rfl⟩) _ _ _ _ _ rfl
  | bits n =>
    simp only [Limit.comap, vecRead]
    split
    · rfl
    · exact vecWithPredicate_map h rd (rel := Eq) (fun _ _ _ _ e => by cases e; exact ⟨rfl, rfl⟩) _ _ _ _ _ rfl
  | «end» =>
    simp only [Limit.comap, vecRead, vecToEnd]
    split
    · rfl
    · exact vecEndLoop_map h rd mem

/-- The map with the entries of a list of pairs. -/
def mapOf (v : Val) : Val := mapVal (insertAll [] v.entries)

/-- The set with the elements of a list. -/
def setOf (v : Val) : Val := setVal (setInsertAll [] v.elems)

section
variable (m : Machine) (l : LimitE) (k t : Ty) (env : Env)

theorem mapCodec_read (iter : List (Val × Val) → List (Val × Val)) (size : Nat) (hz : size ≠ 0) :
    (mapCodec m l k t iter env).read = (do let v ← (Ty.vec size l (.pair k t)).read m env; pure (mapOf v)) := by
  have hp : (Ty.pair k t).read m env = (do let e ← pairRead (k.read m env) (t.read m env); pure (pairVal e)) := by
    rw [Ty.read, pairRead]
    simp only [bind_assoc, pure_bind]
    rfl
  rw [Ty.read, hp]
  simp only [mapCodec, vecRead_comap, bind_assoc, pure_bind]
  refine bind_congr fun lim => ?_
  rw [show mapRead m.mem (pairRead (k.read m env) (t.read m env)) (lim.comap pairVal) = _ from
    funext (mapRead_eq _ m.mem size hz _)]
  simp only [bind_assoc, pure_bind, mapOf, Val.entries, elems_ofList, map_asPair]

theorem setCodec_read (iter : List Val → List Val) (size : Nat) (hz : size ≠ 0) :
    (setCodec m l t iter env).read = (do let v ← (Ty.vec size l t).read m env; pure (setOf v)) := by
  rw [Ty.read]
  simp only [setCodec, bind_assoc, pure_bind]
  refine bind_congr fun lim => ?_
  rw [show setRead m.mem (t.read m env) lim = _ from funext (setRead_eq _ m.mem size hz _)]
  simp only [bind_assoc, pure_bind, setOf, elems_ofList]

/-! ### Writing -/

theorem writeAll_pairs (es : List (Val × Val)) : mapWrite (k.write m env) (t.write m env) es =
    writeAll ((Ty.pair k t).write m env) (es.map pairVal) := by
  rw [mapWrite]
  induction es with
  | nil => rfl
  | cons e es ih =>
    rw [List.map_cons, writeAll, writeAll, ih, pairVal, Ty.write]
    rfl

theorem mapCodec_write (iter : List (Val × Val) → List (Val × Val)) (size : Nat) {v : Val} (hv : v.isMap = true) :
    (mapCodec m l k t iter env).write v =
      (Ty.vec size l (.pair k t)).write m env (.ofList ((iter v.entries).map pairVal)) := by
  rw [Ty.write, isList_ofList, if_pos rfl, elems_ofList, ← writeAll_pairs]
  simp only [mapCodec, hv, if_true]

theorem setCodec_write (iter : List Val → List Val) (size : Nat) {v : Val} (hv : v.isSet = true) :
    (setCodec m l t iter env).write v = (Ty.vec size l t).write m env (.ofList (iter v.elems)) := by
  rw [Ty.write, isList_ofList, if_pos rfl, elems_ofList]
  simp only [setCodec, hv, if_true]

end

theorem mapOf_iter {v : Val} (hv : v.isMap = true) {es : List (Val × Val)} (h : es.Perm v.entries) :
    mapOf (.ofList (es.map pairVal)) = v := by
  rw [Val.isMap_iff] at hv
  rw [mapOf, Val.entries, elems_ofList, map_asPair, insertAll_nodup es [] (by
    rw [List.nil_append]; exact (h.map _).nodup_iff.mpr hv.2), List.nil_append, (mapVal_eq_iff _ _).mpr h, hv.1]

theorem setInsertAll_nodup {α : Type} [DecidableEq α] {vs : List α} (h : vs.Nodup) : (setInsertAll [] vs).Perm vs := by
  rw [List.perm_ext_iff_of_nodup (nodup_setInsertAll _ _ List.nodup_nil) h]
  intro a
  rw [mem_setInsertAll]
  simp

theorem setOf_iter {v : Val} (hv : v.isSet = true) {es : List Val} (h : es.Perm v.elems) : setOf (.ofList es) = v := by
  rw [Val.isSet_iff] at hv
  rw [setOf, elems_ofList, (setVal_eq_iff _ _).mpr ((setInsertAll_nodup (h.nodup_iff.mpr hv.2)).trans h), hv.1]

/-- The elements of a list of pairs are pairs. -/
theorem vec_pairs_read {m : Machine} {size : Nat} {l : LimitE} {k t : Ty} {env : Env} {r r' : Reader} {v : Val}
    (h : (Ty.vec size l (.pair k t)).read m env r = (.ok v, r')) : ∃ es : List (Val × Val), v = .ofList (es.map pairVal) := by
  have hp : (Ty.pair k t).read m env = (do let e ← pairRead (k.read m env) (t.read m env); pure (pairVal e)) := by
    rw [Ty.read, pairRead]
    simp only [bind_assoc, pure_bind]
    rfl
  rw [Ty.read, hp] at h
  simp only [vecRead_comap, bind_assoc, pure_bind] at h
  obtain ⟨lim, r1, _, h⟩ := M.bind_eq_ok h
  obtain ⟨es, r2, _, h⟩ := M.bind_eq_ok h
  cases h
  exact ⟨es, rfl⟩

theorem writeAll_run_length {m : Machine} {o : Order} {u : Ty} {env : Env} {R : Nat → Prop} {w : Val × Val → Nat} :
    ∀ {es : List (Val × Val)} {p : Nat} {a a' : Writer},
    (∀ e ∈ es, SoundOn o R (u.read m env) (u.write m env (pairVal e)) (pairVal e) R) →
    (∀ e ∈ es, ∀ p bits, R p → Writes o p (u.write m env (pairVal e)) bits → bits.length = w e) →
    R p → a.At o p → writeAll (u.write m env) (es.map pairVal) a = (.ok (), a') →
    ∃ bits, Writes o p (writeAll (u.write m env) (es.map pairVal)) bits ∧ bits.length = (es.map w).sum
  | [], p, a, a', _, _, _, _, _ => ⟨[], Writes.pure o p, rfl⟩
  | e :: es, p, a, a', hs, hw, hp, ha, h => by
    rw [List.map_cons, writeAll] at h
    obtain ⟨⟨⟩, a1, h1, h2⟩ := M.bind_eq_ok h
    obtain ⟨b1, c1, _, c3⟩ := hs e List.mem_cons_self p a a1 hp ha h1
    obtain ⟨a2, d1, d2, d3⟩ := c1 a ha
    rw [h1] at d1
    cases d1
    obtain ⟨b2, f1, f2⟩ := writeAll_run_length (fun x hx => hs x (List.mem_cons_of_mem _ hx))
      (fun x hx => hw x (List.mem_cons_of_mem _ hx)) c3 (ha.wrote d2 d3) h2
    refine ⟨b1 ++ b2, ?_, ?_⟩
    · rw [List.map_cons, writeAll]
      exact c1.bind f1
    · rw [List.length_append, f2, hw e List.mem_cons_self p b1 hp c1, List.map_cons, List.sum_cons]

theorem writeAll_length {m : Machine} {o : Order} {u : Ty} {env : Env} {R : Nat → Prop} {w : Val × Val → Nat}
    {es : List (Val × Val)} {p : Nat} {bits : List Bool}
    (hs : ∀ e ∈ es, SoundOn o R (u.read m env) (u.write m env (pairVal e)) (pairVal e) R)
    (hw : ∀ e ∈ es, ∀ p bits, R p → Writes o p (u.write m env (pairVal e)) bits → bits.length = w e)
    (hp : R p) (hb : Writes o p (writeAll (u.write m env) (es.map pairVal)) bits) : bits.length = (es.map w).sum := by
  obtain ⟨a, ha⟩ := Writer.exists_at o p
  obtain ⟨a', h1, _⟩ := hb a ha
  obtain ⟨b, h2, h3⟩ := writeAll_run_length hs hw hp ha h1
  rw [hb.unique h2, h3]

end Deku
