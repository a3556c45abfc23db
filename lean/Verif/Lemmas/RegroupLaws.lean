import Verif.Lemmas.Regroup
import Verif.Lemmas.Pieces

/-! # Laws for definitions -/

namespace Deku

variable {m : Machine}

theorem Fields.Alike.same {fs gs : Fields} (h : fs.Alike m gs) : fs.Same m gs (Val.IsListOf fs.arity) id where
  read env _ := by rw [h.read]; simp only [id, bind_pure]
  write env v _ hv := h.write env v v hv
  values env r v r' e := Fields.read_isListOf m fs env r r' v e

theorem Fields.Alike.behind {fs gs : Fields} (h : fs.Alike m gs) : ∀ pre : Fields, (pre.append fs).Alike m (pre.append gs)
  | .nil => h
  | .cons a t rest => by
    have ih := Fields.Alike.behind h rest
    refine ⟨fun env => ?_, fun env all v hv => ?_, ?_⟩
    · rw [Fields.append, Fields.append, Fields.read, Fields.read]
      simp only [ih.read]
    · obtain ⟨x, xs, rfl, hv⟩ := hv
      rw [Fields.append, Fields.append, Fields.write, Fields.write, ih.write _ _ _ hv]
    · rw [Fields.append, Fields.append, Fields.arity, Fields.arity, ih.arity]
  | .temp a t f rest => by
    have ih := Fields.Alike.behind h rest
    refine ⟨fun env => ?_, fun env all v hv => ?_, ?_⟩
    · rw [Fields.append, Fields.append, Fields.read, Fields.read]
      simp only [ih.read]
    · rw [Fields.append, Fields.append]
      cases f with
      | some f => rw [Fields.write, Fields.write, ih.write _ _ _ hv]
      | none => rw [Fields.write, Fields.write, ih.write _ _ _ hv]
    · rw [Fields.append, Fields.append, Fields.arity, Fields.arity, ih.arity]

theorem magicRead_append (native : Endian) (x y : List Byte) :
    magicRead native (x ++ y) = (do magicRead native x; magicRead native y) := by
  induction x with
  | nil => rfl
  | cons b x ih =>
    rw [List.cons_append, magicRead, magicRead, ih]
    simp only [bind_assoc]
    refine bind_congr fun v => ?_
    split <;> rfl

theorem magicWrite_append (native : Endian) (x y : List Byte) :
    magicWrite native (x ++ y) = (do magicWrite native x; magicWrite native y) := by
  unfold magicWrite
  induction x with
  | nil => rfl
  | cons b x ih => rw [List.cons_append, Coll.writeAll, Coll.writeAll, ih]; simp only [bind_assoc]

theorem magicFirst_same (m : Machine) (args : Env → List Val) (seek : Option (Env → Option SeekFrom)) (mg : List Byte)
    (a : Attrs) (ha : a.seek = none) (t : Ty) (rest : Fields) :
    Ty.Same m (.struct args seek mg (.cons a t rest)) (.struct args seek [] (.cons { a with magic := mg ++ a.magic } t rest))
      (Val.IsListOf (rest.arity + 1)) id where
  read env := by
    rw [Ty.read, Ty.read, Fields.read, Fields.read]
    unfold Attrs.read
    simp only [ha, seekRead, magicRead_append, bind_assoc, pure_bind, magicRead]
    rfl
  write env v hv := by
    obtain ⟨x, xs, rfl, _⟩ := hv
    rw [id, Ty.write, Ty.write, Fields.write, Fields.write]
    unfold Attrs.write
    simp only [ha, magicWrite_append, bind_assoc]
    rfl
  values env r v r' e := by
    rw [Ty.read] at e
    obtain ⟨_, r1, _, e⟩ := M.bind_eq_ok e
    obtain ⟨_, r2, _, e⟩ := M.bind_eq_ok e
    exact Fields.read_isListOf m _ _ _ _ _ e

theorem padBetween_alike (m : Machine) (a b : Attrs) (t u : Ty) (rest : Fields) (p : Env → Int)
    (hp : ∀ env off, p (env.at off) = p env) (ha : a.padAfter = none) (hb : b.padBefore = none) (hs : b.seek = none)
    (hm : b.magic = []) (ho : a.padOrder = b.padOrder) :
    Fields.Alike m (.cons { a with padAfter := some p } t (.cons b u rest))
      (.cons a t (.cons { b with padBefore := some p } u rest)) where
  read env := by
    rw [Fields.read, Fields.read]
    simp only [Fields.read]
    unfold Attrs.read
    simp only [ha, hb, hs, hm, ho, seekRead, magicRead, padRead, bind_assoc, pure_bind]
    have hp' : ∀ off v, p ((env.at off).push v) = p (env.push v) := fun off v => hp (env.push v) off
    simp only [hp']
    rfl
  write env all v hv := by
    obtain ⟨x, _, rfl, y, ys, rfl, _⟩ := hv
    simp only [Fields.write]
    unfold Attrs.write
    have hp' : ∀ off v, p ((env.at off).push v) = p (env.push v) := fun off v => hp (env.push v) off
    simp only [ha, hb, hs, hm, ho, seekWrite, magicWrite, Coll.writeAll, padWrite, bind_assoc, pure_bind, hp']
    rfl
  arity := rfl

/-! ## Structs without attributes -/

theorem newtype_same (m : Machine) (args : Env → List Val) (t : Ty) :
    Ty.Same m (t.under (passed args)) (.struct args none [] (.cons {} (t.under onlyCtx) .nil)) (fun _ => True)
      (fun v => .cons v .nil) where
  read env := by
    rw [Ty.read, Fields.read, Attrs.read_plain, Ty.under_read, Ty.under_read]
    simp only [seekRead, magicRead, pure_bind, Fields.read]
    rfl
  write env v _ := by
    rw [Ty.write, Fields.write, Attrs.write_plain, Ty.under_write, Ty.under_write]
    simp only [seekWrite, magicWrite, Coll.writeAll, pure_bind, Fields.write, if_true, bind_pure_unit]
    rfl
  values _ _ _ _ _ := trivial

theorem Val.isListOf_ofList (vs : List Val) : Val.IsListOf vs.length (Val.ofList vs) := by
  induction vs with
  | nil => rfl
  | cons v vs ih => exact ⟨_, _, rfl, ih⟩

theorem arrayRead_length {α : Type} {rd : M Reader α} : ∀ (n : Nat) (r r' : Reader) (vs : List α),
    Coll.arrayRead rd n r = (.ok vs, r') → vs.length = n
  | 0, r, r', vs, h => by cases h; rfl
  | n + 1, r, r', vs, h => by
    rw [Coll.arrayRead] at h
    obtain ⟨x, r1, h1, h⟩ := M.bind_eq_ok h
    obtain ⟨xs, r2, h2, h⟩ := M.bind_eq_ok h
    cases h
    rw [List.length_cons, arrayRead_length n _ _ _ h2]

theorem Val.IsListOf.list : ∀ {n : Nat} {v : Val}, Val.IsListOf n v → v.isList = true ∧ v.elems.length = n
  | 0, v, h => by cases h; exact ⟨rfl, rfl⟩
  | n + 1, v, h => by
    obtain ⟨x, xs, rfl, h⟩ := h
    obtain ⟨h1, h2⟩ := h.list
    exact ⟨h1, by rw [Val.elems, List.length_cons, h2]⟩

theorem copies_read (m : Machine) (t : Ty) : ∀ (n : Nat) (env : Env),
    (Fields.copies (t.under onlyCtx) n).read m env = (do let vs ← Coll.arrayRead (t.read m (onlyCtx env)) n; pure (.ofList vs))
  | 0, env => rfl
  | n + 1, env => by
    rw [Fields.copies, Fields.read, Attrs.read_plain, Coll.arrayRead, Ty.under_read]
    simp only [bind_assoc, pure_bind, copies_read m t n]
    rfl

theorem copies_write (m : Machine) (t : Ty) (all : Val) : ∀ (n : Nat) (env : Env) (v : Val), Val.IsListOf n v →
    (Fields.copies (t.under onlyCtx) n).write m env all v = Coll.writeAll (t.write m (onlyCtx env)) v.elems
  | 0, env, v, hv => by cases hv; rfl
  | n + 1, env, v, hv => by
    obtain ⟨x, xs, rfl, hv⟩ := hv
    rw [Fields.copies, Fields.write, Attrs.write_plain, Ty.under_write, Val.elems, Coll.writeAll,
      copies_write m t all n _ xs hv]
    rfl

theorem copies_same (m : Machine) (args : Env → List Val) (n : Nat) (t : Ty) :
    Ty.Same m (.array n (t.under (passed args))) (.struct args none [] (Fields.copies (t.under onlyCtx) n))
      (Val.IsListOf n) id where
  read env := by
    rw [Ty.read, Ty.read, copies_read, Ty.under_read]
    simp only [seekRead, magicRead, pure_bind, bind_assoc, id]
    rfl
  write env v hv := by
    rw [id, Ty.write, Ty.write, copies_write m t v n _ v hv, if_pos hv.list, funext (Ty.under_write m _ t env)]
    simp only [seekWrite, magicWrite, Coll.writeAll, pure_bind]
    rfl
  values env r v r' e := by
    rw [Ty.read] at e
    obtain ⟨vs, r1, e1, e⟩ := M.bind_eq_ok e
    cases e
    rw [← arrayRead_length n _ _ _ e1]
    exact Val.isListOf_ofList vs

theorem pair_same (m : Machine) (args : Env → List Val) (a b : Ty) :
    Ty.Same m (.pair (a.under (passed args)) (b.under (passed args)))
      (.struct args none [] (.cons {} (a.under onlyCtx) (.cons {} (b.under onlyCtx) .nil))) (Val.IsListOf 2) id where
  read env := by
    rw [Ty.read, Ty.read, Fields.read, Attrs.read_plain]
    simp only [Fields.read, Attrs.read_plain, Ty.under_read, seekRead, magicRead, pure_bind, bind_assoc, id]
    rfl
  write env v hv := by
    obtain ⟨x, _, rfl, y, _, rfl, rfl⟩ := hv
    simp only [id, Ty.write, Fields.write, Attrs.write_plain, Ty.under_write, seekWrite, magicWrite, Coll.writeAll,
      pure_bind, if_true, bind_pure_unit]
    rfl
  values env r v r' e := by
    rw [Ty.read] at e
    obtain ⟨x, r1, e1, e⟩ := M.bind_eq_ok e
    obtain ⟨y, r2, e2, e⟩ := M.bind_eq_ok e
    cases e
    exact ⟨_, _, rfl, _, _, rfl, rfl⟩

theorem option_same (m : Machine) (t : Ty) : Ty.Same m t (.option t) (fun _ => True) .some where
  read env := by rw [Ty.read]
  write env v _ := by rw [Ty.write]
  values _ _ _ _ _ := trivial

/-! ## Lists -/

theorem arrayRead_add {α : Type} (rd : M Reader α) (k : Nat) : ∀ n, Coll.arrayRead rd (n + k) =
    (do let xs ← Coll.arrayRead rd n; let ys ← Coll.arrayRead rd k; pure (xs ++ ys))
  | 0 => by
    rw [Nat.zero_add, Coll.arrayRead]
    simp only [pure_bind, List.nil_append, bind_pure]
  | n + 1 => by
    rw [Nat.add_right_comm, Coll.arrayRead, Coll.arrayRead, arrayRead_add rd k n]
    simp only [bind_assoc, pure_bind, List.cons_append]

theorem arrayRead_mul {α : Type} (rd : M Reader α) (k : Nat) : ∀ n, Coll.arrayRead rd (n * k) =
    (do let xs ← Coll.arrayRead (Coll.arrayRead rd k) n; pure xs.flatten)
  | 0 => by rw [Nat.zero_mul]; rfl
  | n + 1 => by
    rw [Nat.succ_mul, Nat.add_comm, arrayRead_add, arrayRead_mul rd k n, Coll.arrayRead]
    simp only [bind_assoc, pure_bind, List.flatten_cons]

theorem writeAll_append {α : Type} (wr : α → M Writer Unit) (xs ys : List α) :
    Coll.writeAll wr (xs ++ ys) = (do Coll.writeAll wr xs; Coll.writeAll wr ys) := by
  induction xs with
  | nil => rfl
  | cons x xs ih => rw [List.cons_append, Coll.writeAll, Coll.writeAll, ih]; simp only [bind_assoc]

theorem concat_same (m : Machine) (n k : Nat) (t : Ty) :
    Ty.Same m (.array n (.array k t)) (.array (n * k) t)
      (fun v => Val.IsListOf n v ∧ ∀ x ∈ v.elems, Val.IsListOf k x) Val.concat where
  read env := by
    have e : (Ty.array k t).read m env = (do let vs ← Coll.arrayRead (t.read m env) k; pure (.ofList vs)) := by rw [Ty.read]
    rw [Ty.read, Ty.read, e, arrayRead_mul]
    have : ∀ (rd : M Reader (List Val)) n, Coll.arrayRead (do let vs ← rd; pure (Val.ofList vs)) n =
        (do let xs ← Coll.arrayRead rd n; pure (xs.map Val.ofList)) := by
      intro rd n
      induction n with
      | zero => rfl
      | succ n ih =>
        rw [Coll.arrayRead, Coll.arrayRead, ih]
        simp only [bind_assoc, pure_bind, List.map_cons]
    rw [this]
    simp only [bind_assoc, pure_bind, Val.concat, elems_ofList, List.flatMap_map]
    refine bind_congr fun xs => ?_
    rw [List.flatMap_id']
  write env v hv := by
    obtain ⟨h1, h2⟩ := hv
    have hl : (v.elems.flatMap Val.elems).length = n * k := by
      rw [← h1.list.2]
      generalize v.elems = l at h2
      induction l with
      | nil => simp
      | cons x xs ih =>
        rw [List.flatMap_cons, List.length_append, ih fun y hy => h2 y (List.mem_cons_of_mem _ hy),
          (h2 x List.mem_cons_self).list.2, List.length_cons, Nat.succ_mul, Nat.add_comm]
    rw [Ty.write, Ty.write, if_pos h1.list, Val.concat, isList_ofList, elems_ofList, if_pos ⟨rfl, hl⟩]
    generalize v.elems = l at h2
    clear hl
    induction l with
    | nil => rfl
    | cons x xs ih =>
      rw [List.flatMap_cons, writeAll_append, ih fun y hy => h2 y (List.mem_cons_of_mem _ hy), Coll.writeAll, Ty.write,
        if_pos (h2 x List.mem_cons_self).list]
  values env r v r' e := by
    rw [Ty.read] at e
    obtain ⟨vs, r1, e1, e⟩ := M.bind_eq_ok e
    cases e
    refine ⟨by rw [← arrayRead_length n _ _ _ e1]; exact Val.isListOf_ofList vs, ?_⟩
    rw [elems_ofList]
    refine arrayRead_all (fun r v r' h => ?_) n _ _ _ e1
    rw [Ty.read] at h
    obtain ⟨ws, r2, e2, h⟩ := M.bind_eq_ok h
    cases h
    rw [← arrayRead_length k _ _ _ e2]
    exact Val.isListOf_ofList ws

theorem arrayVec_same (m : Machine) (n size : Nat) (t : Ty) (hz : size ≠ 0) (hm : n ≤ m.mem) (hn : n < 2 ^ 64)
    (ht : ∀ env r v r', t.read m env r = (.ok v, r') → r.bitsRead ≤ r'.bitsRead) :
    Ty.Same m (.array n t) (.vec size (.count fun _ => n) t) (Val.IsListOf n) id where
  read env := by
    rw [Ty.read, Ty.read, LimitE.eval, toUsize, if_pos ⟨by omega, by omega⟩]
    simp only [pure_bind, id, bind_pure, Int.toNat_natCast]
    have : Coll.vecRead (σ := List Val) m.mem size (t.read m env) (.count n) = Coll.arrayRead (t.read m env) n := by
      funext r
      rw [arrayRead_eq]
      exact vecRead_count (I := fun _ => True) (fun r a r' _ h => ⟨trivial, ht _ _ _ _ h⟩) hz hm trivial
    rw [this]
  write env v hv := by rw [id, Ty.write, Ty.write, if_pos hv.list, if_pos hv.list.1]
  values env r v r' e := by
    rw [Ty.read] at e
    obtain ⟨vs, r1, e1, e⟩ := M.bind_eq_ok e
    cases e
    rw [← arrayRead_length n _ _ _ e1]
    exact Val.isListOf_ofList vs

theorem vecLoop_size {α : Type} {rd : M Reader α} {k : Nat} (hk : 0 < k)
    (hr : ∀ r v r', rd r = (.ok v, r') → r'.bitsRead = r.bitsRead + k) (start : Nat) :
    ∀ (n mem : Nat) (r : Reader) (done : Nat), n + 1 ≤ mem → r.bitsRead = start + done * k →
      Coll.vecLoop rd (Coll.sizePred ((done + (n + 1)) * k)) start mem () r = Coll.vecLoop rd Coll.countPred start mem (n + 1) r
  | n, 0, r, done, hm, hb => by omega
  | n, mem + 1, r, done, hm, hb => by
    rw [Coll.vecLoop, Coll.vecLoop]
    refine M.bind_congr_of_ok fun v r1 e => ?_
    have hb1 := hr _ _ _ e
    rw [M.get_bind_run, M.get_bind_run]
    have hs : start ≤ r1.bitsRead := by omega
    have hd : r1.bitsRead - start = (done + 1) * k := by rw [hb1, hb, Nat.succ_mul]; omega
    simp only [hs, decide_true, M.assert_true_bind_run, hd, Coll.sizePred, Coll.countPred, Nat.add_sub_cancel]
    cases n with
    | zero => simp
    | succ n =>
      have hne : ¬ ((done + 1) * k == (done + (n + 1 + 1)) * k) = true := by
        intro e
        have := Nat.eq_of_mul_eq_mul_right hk (beq_iff_eq.1 e)
        omega
      rw [if_neg hne, if_neg (by simp)]
      have ih := vecLoop_size hk hr start n mem r1 (done + 1) (by omega) (by rw [hb1, hb, Nat.succ_mul]; omega)
      rw [show done + 1 + (n + 1) = done + (n + 1 + 1) by omega] at ih
      rw [M.bind_def, M.bind_def, ih]

theorem vecRead_size {rd : M Reader Val} {k : Nat} (hk : 0 < k)
    (hr : ∀ r v r', rd r = (.ok v, r') → r'.bitsRead = r.bitsRead + k) (mem size n : Nat) (hn : n ≤ mem) :
    Coll.vecRead (σ := List Val) mem size rd (.bits (n * k)) = Coll.vecRead (σ := List Val) mem size rd (.count n) := by
  simp only [Coll.vecRead]
  cases n with
  | zero => simp
  | succ n =>
    rw [if_neg (Nat.ne_of_gt (Nat.mul_pos (Nat.succ_pos n) hk)), if_neg (by omega)]
    unfold Coll.vecWithPredicate
    split
    · rfl
    · simp only [Coll.withCapacity, hn, decide_true]
      funext r
      rw [M.assert_true_bind_run, M.pure_bind_run, M.get_bind_run, M.get_bind_run]
      have := vecLoop_size hk hr r.bitsRead n mem r 0 hn (by omega)
      rwa [Nat.zero_add] at this

/-- Every element takes `k` bits. -/
theorem countBits_same (m : Machine) (size k : Nat) (hk : 0 < k) (n : Env → Int) (t : Ty)
    (ht : ∀ env r v r', t.read m env r = (.ok v, r') → r'.bitsRead = r.bitsRead + k)
    (hn : ∀ env, n env ≤ m.mem ∧ n env * k < 2 ^ 64) :
    Ty.Same m (.vec size (.count n) t) (.vec size (.bits fun env => n env * k) t) (fun v => v.isList = true) id where
  read env := by
    rw [Ty.read, Ty.read, LimitE.eval, LimitE.eval]
    obtain ⟨h1, h2⟩ := hn env
    generalize n env = x at h1 h2
    unfold toUsize
    by_cases h0 : 0 ≤ x
    · obtain ⟨x, rfl⟩ := Int.eq_ofNat_of_zero_le h0
      have h3 : x * k < 2 ^ 64 := by exact_mod_cast h2
      have h4 : x < 2 ^ 64 := Nat.lt_of_le_of_lt (Nat.le_mul_of_pos_right x hk) h3
      rw [if_pos ⟨by exact_mod_cast Nat.zero_le _, h2⟩, if_pos ⟨h0, by exact_mod_cast h4⟩]
      simp only [pure_bind, id, bind_pure]
      rw [show ((x : Int) * (k : Int)).toNat = x * k from rfl, show ((x : Int)).toNat = x from rfl,
        vecRead_size hk (ht env) _ _ _ (by exact_mod_cast h1)]
    · have : ¬ 0 ≤ x * k := by
        intro h
        have := Int.mul_neg_of_neg_of_pos (Int.not_le.1 h0) (Int.natCast_pos.2 hk)
        omega
      rw [if_neg (fun h => this h.1), if_neg (fun h => h0 h.1)]
      rfl
  write env v hv := by rw [id, Ty.write, Ty.write]
  values env r v r' e := by
    rw [Ty.read] at e
    obtain ⟨_, r1, _, e⟩ := M.bind_eq_ok e
    obtain ⟨vs, r2, _, e⟩ := M.bind_eq_ok e
    cases e
    exact isList_ofList vs

theorem bytesBits_same (m : Machine) (size : Nat) (n : Env → Int) (t : Ty) (hn : ∀ env, n env * 8 < 2 ^ 64) :
    Ty.Same m (.vec size (.bytes n) t) (.vec size (.bits fun env => n env * 8) t) (fun v => v.isList = true) id where
  read env := by
    rw [Ty.read, Ty.read, LimitE.eval, LimitE.eval]
    have h2 := hn env
    generalize n env = x at h2
    unfold toUsize
    by_cases h0 : 0 ≤ x
    · obtain ⟨x, rfl⟩ := Int.eq_ofNat_of_zero_le h0
      rw [if_pos ⟨by omega, h2⟩, if_pos ⟨h0, by omega⟩]
      simp only [pure_bind, id, bind_pure, Coll.vecRead]
      rw [show ((x : Int) * 8).toNat = x * 8 by omega, show ((x : Int)).toNat = x from rfl]
      have h3 : x * 8 < 2 ^ 64 := by omega
      simp only [usize, h3, if_true, pure_bind]
    · rw [if_neg (by omega), if_neg (by omega)]
      rfl
  write env v hv := by rw [id, Ty.write, Ty.write]
  values env r v r' e := by
    rw [Ty.read] at e
    obtain ⟨_, r1, _, e⟩ := M.bind_eq_ok e
    obtain ⟨vs, r2, _, e⟩ := M.bind_eq_ok e
    cases e
    exact isList_ofList vs

/-! ## Temporary fields -/

/-- A temporary field is read like any other, and left out. -/
theorem temp_read (m : Machine) (a : Attrs) (t : Ty) (f : Option (Val → Val)) (post : Fields) : ∀ (pre : Fields) (env : Env),
    (pre.append (.temp a t f post)).read m env =
      (do let v ← (pre.append (.cons a t post)).read m env; pure (v.dropAt pre.arity))
  | .nil, env => by
    rw [Fields.append, Fields.append, Fields.read, Fields.read, Fields.arity]
    simp only [bind_assoc, pure_bind, Val.dropAt, bind_pure]
  | .cons a' t' rest, env => by
    rw [Fields.append, Fields.append, Fields.read, Fields.read, Fields.arity]
    simp only [bind_assoc, pure_bind, temp_read m a t f post rest, Val.dropAt]
  | .temp a' t' f' rest, env => by
    rw [Fields.append, Fields.append, Fields.read, Fields.read, Fields.arity]
    simp only [bind_assoc, temp_read m a t f post rest]

theorem Val.dropAt_insertAt (x : Val) : ∀ (i : Nat) {v : Val}, v.AtLeast i → (Val.insertAt x i v).dropAt i = v
  | 0, v, _ => by rw [Val.insertAt, Val.dropAt]
  | i + 1, v, h => by
    obtain ⟨y, ys, rfl, h⟩ := h
    rw [Val.insertAt, Val.dropAt, Val.dropAt_insertAt x i h]

/-- A temporary field is written like any other with the value computed. -/
theorem temp_write (m : Machine) (a : Attrs) (t : Ty) (f : Val → Val) (post : Fields) (all all' : Val) (g : Val → Val)
    (hg : g all' = all) : ∀ (pre : Fields) (k : Nat) (env : Env) (v : Val), v.AtLeast pre.arity →
    (pre.append (.temp a t (some f) post)).write m env all v =
      ((pre.under sameScope g k).append (.cons a t (post.under sameScope g 0))).write m env all' (Val.insertAt (f all) pre.arity v)
  | .nil, k, env, v, hv => by
    rw [Fields.under, Fields.append, Fields.append, Fields.arity, Val.insertAt, Fields.write, Fields.write,
      Fields.under_write sameScope_scopes, hg]
    rfl
  | .cons a' t' rest, k, env, v, hv => by
    obtain ⟨x, xs, rfl, hv⟩ := hv
    rw [Fields.under, Fields.append, Fields.append, Fields.arity, Val.insertAt, Fields.write, Fields.write,
      funext fun env => funext (Ty.under_write m (sameScope k) t' env),
      Attrs.under_write a' _ _ (sameScope_scopes.at k) (sameScope_scopes.push k),
      temp_write m a t f post all all' g hg rest (k + 1) _ xs hv]
    rfl
  | .temp a' t' f' rest, k, env, v, hv => by
    rw [Fields.under, Fields.append, Fields.append, Fields.arity]
    cases f' with
    | some f' =>
      rw [Option.map_some, Fields.write, Fields.write, funext fun env => funext (Ty.under_write m (sameScope k) t' env),
        Attrs.under_write a' _ _ (sameScope_scopes.at k) (sameScope_scopes.push k),
        temp_write m a t f post all all' g hg rest (k + 1) _ v hv]
      simp only [hg]
      rfl
    | none =>
      rw [Option.map_none, Fields.write, Fields.write,
        Attrs.under_write a' _ _ (sameScope_scopes.at k) (sameScope_scopes.push k) _ (fun _ _ => pure ()),
        temp_write m a t f post all all' g hg rest (k + 1) _ v hv]
      rfl

/-! ## The id of an enum as a field -/

section
variable (φ : Env → Env)

theorem Variants.moved_firstMatch (env : Env) (x : Val) : ∀ (vs : Variants) (k : Nat),
    (vs.moved φ).firstMatch env x k = vs.firstMatch (φ env) x k
  | .nil, _ => by rw [Variants.moved]; rfl
  | .cons a fs rest, k => by
    rw [Variants.moved, Variants.firstMatch, Variants.firstMatch, Variants.moved_firstMatch env x rest]

theorem Variants.moved_defaultAt : ∀ (vs : Variants) (k : Nat), (vs.moved φ).defaultAt k = vs.defaultAt k
  | .nil, _ => by rw [Variants.moved]
  | .cons a fs rest, k => by
    rw [Variants.moved, Variants.defaultAt, Variants.defaultAt, Variants.moved_defaultAt rest]

theorem Variants.moved_select (env : Env) (x : Val) (vs : Variants) : (vs.moved φ).select env x = vs.select (φ env) x := by
  rw [Variants.select, Variants.select, Variants.moved_firstMatch, Variants.moved_defaultAt]

variable (hφ : Scopes fun _ => φ)
include hφ

theorem Variants.moved_readAt (m : Machine) (env : Env) (x y : Val) (b : Bool) : ∀ (vs : Variants) (i : Nat),
    vs.noIdPat = true → (vs.moved φ).readAt m env y false i = vs.readAt m (φ env) x b i
  | .nil, _, _ => by rw [Variants.moved, Variants.readAt, Variants.readAt]
  | .cons a fs rest, 0, h => by
    rw [Variants.noIdPat, Bool.and_eq_true, Bool.not_eq_true'] at h
    rw [Variants.moved, Variants.readAt, Variants.readAt, h.1]
    simp only [Bool.false_and, Bool.false_eq_true, if_false, Fields.under_read hφ]
  | .cons a fs rest, i + 1, h => by
    rw [Variants.noIdPat, Bool.and_eq_true] at h
    rw [Variants.moved, Variants.readAt, Variants.readAt, Variants.moved_readAt m env x y b rest i h.2]

theorem Variants.moved_writeAt (m : Machine) (env : Env) (e : Env → Val) (size : Option Nat) (c : Env → Codec)
    (store store' : Env → Val → M Writer Unit) (x v : Val) : ∀ (vs : Variants) (i : Nat), vs.noIdPat = true →
    vs.idOf i = some x → vs.writeAt m (φ env) (.typed size c) store i v =
      (do (c (φ env)).write x; (vs.moved φ).writeAt m env (.ctx e) store' i v)
  | .nil, i, _, h => by rw [Variants.idOf] at h; cases h
  | .cons a fs rest, 0, h, hi => by
    rw [Variants.noIdPat, Bool.and_eq_true, Bool.not_eq_true'] at h
    rw [Variants.idOf] at hi
    rw [Variants.moved, Variants.writeAt.eq_def, Variants.writeAt.eq_def]
    dsimp only
    rw [hi, h.1]
    simp only [Bool.false_eq_true, if_false, Fields.under_write hφ, id]
  | .cons a fs rest, i + 1, h, hi => by
    rw [Variants.noIdPat, Bool.and_eq_true] at h
    rw [Variants.moved, Variants.writeAt, Variants.writeAt]
    exact Variants.moved_writeAt m env e size c store store' x v rest i h.2 hi

end

theorem idInFront_read (m : Machine) (args : Env → List Val) (magic : List Byte) (size : Option Nat) (c : Env → Codec)
    (store store' : Nat → Env → Val → M Writer Unit) (vs : Variants) (hv : vs.noIdPat = true) (env : Env) :
    (Ty.enum args magic (.typed size c) store vs).read m env =
      (do let v ← (idInFront args magic size c store' vs).read m env; pure v.second) := by
  have hφ : Scopes fun _ => withoutFirst := ⟨fun _ _ _ => rfl, fun _ _ _ => rfl⟩
  rw [idInFront, Ty.read, Ty.read, Fields.read, Attrs.read_plain]
  simp only [Fields.read, Attrs.read_plain, Ty.read, seekRead, pure_bind, bind_assoc, magicRead]
  refine bind_congr fun _ => bind_congr fun x => ?_
  rw [Variants.moved_select]
  unfold dispatch
  have e : ∀ i, (vs.moved withoutFirst).readAt m { ctx := x :: args env } x false i =
    vs.readAt m { ctx := args env } x true i := fun i =>
      Variants.moved_readAt withoutFirst hφ m { ctx := x :: args env } x x true vs i hv
  have e1 : withoutFirst { ctx := x :: args env } = { ctx := args env } := rfl
  simp only [Env.push, Env.at, List.headD_cons, e1]
  generalize vs.select { ctx := args env } x = sel
  rcases sel with _ | i
  · rfl
  · simp only [e, bind_assoc, pure_bind, Val.second]

theorem idInFront_write (m : Machine) (args : Env → List Val) (magic : List Byte) (size : Option Nat) (c : Env → Codec)
    (store store' : Nat → Env → Val → M Writer Unit) (vs : Variants) (hv : vs.noIdPat = true) (env : Env) (i : Nat)
    (x fs : Val) (hx : vs.idOf i = some x) :
    (Ty.enum args magic (.typed size c) store vs).write m env (.variant i fs) =
      (idInFront args magic size c store' vs).write m env (.cons x (.cons (.variant i fs) .nil)) := by
  have hφ : Scopes fun _ => withoutFirst := ⟨fun _ _ _ => rfl, fun _ _ _ => rfl⟩
  simp only [idInFront, Ty.write, Fields.write, Attrs.write_plain, seekWrite, magicWrite, Coll.writeAll, pure_bind, if_true,
    bind_pure_unit]
  have := Variants.moved_writeAt withoutFirst hφ m { ctx := x :: args env } (fun env => env.ctx.headD .none) size c
    (store i) (store' i) x fs vs i hv hx
  refine bind_congr fun _ => ?_
  exact this

end Deku
