import Verif.Lemmas.ConsistentTypes
import Verif.Spec.Patch

/-!
# Changing a value at a place: lemmas
-/

namespace Deku.Patch

/-! ### lists -/

theorem modifyAt_elems (g : Val → Val) : ∀ (i : Nat) (v : Val),
    (modifyAt g i v).elems = v.elems.modify i g
  | 0, .cons x xs => by simp [modifyAt, Val.elems]
  | i + 1, .cons x xs => by simp [modifyAt, Val.elems, modifyAt_elems g i xs]
  | 0, .num _ | 0, .none | 0, .some _ | 0, .nil | 0, .variant _ _ => by simp [modifyAt, Val.elems]
  | i + 1, .num _ | i + 1, .none | i + 1, .some _ | i + 1, .nil | i + 1, .variant _ _ => by simp [modifyAt, Val.elems]

theorem modifyAt_isList (g : Val → Val) : ∀ (i : Nat) (v : Val), (modifyAt g i v).isList = v.isList
  | 0, .cons x xs => by simp [modifyAt, Val.isList]
  | i + 1, .cons x xs => by simp [modifyAt, Val.isList, modifyAt_isList g i xs]
  | 0, .num _ | 0, .none | 0, .some _ | 0, .nil | 0, .variant _ _ => by simp [modifyAt]
  | i + 1, .num _ | i + 1, .none | i + 1, .some _ | i + 1, .nil | i + 1, .variant _ _ => by simp [modifyAt]

theorem modifyAt_numOf (g : Val → Val) : ∀ (i : Nat) (v : Val), numOf (modifyAt g i v) = numOf v
  | 0, .cons x xs => by simp [modifyAt, numOf]
  | i + 1, .cons x xs => by simp [modifyAt, numOf]
  | 0, .num _ | 0, .none | 0, .some _ | 0, .nil | 0, .variant _ _ => by simp [modifyAt]
  | i + 1, .num _ | i + 1, .none | i + 1, .some _ | i + 1, .nil | i + 1, .variant _ _ => by simp [modifyAt]

/-- Below a step the number and the number of elements stay. -/
theorem put_kept (g : Go) (p : List Go) (y v : Val) :
    numOf (put (g :: p) y v) = numOf v ∧ (put (g :: p) y v).elems.length = v.elems.length := by
  cases g <;> cases v <;> simp [put, modifyAt_numOf, modifyAt_elems, Val.elems] <;> rfl

theorem split_at {l : List Val} {i : Nat} {x : Val} (h : l[i]? = some x) :
    ∃ l1 l2, l.take i = l1 ∧ l = l1 ++ x :: l2 ∧ ∀ g : Val → Val, l.modify i g = l1 ++ g x :: l2 := by
  induction l generalizing i with
  | nil => simp at h
  | cons a l ih =>
    cases i with
    | zero =>
      simp only [List.getElem?_cons_zero, Option.some.injEq] at h
      exact ⟨[], l, rfl, by simp [h], by simp [h]⟩
    | succ i =>
      simp only [List.getElem?_cons_succ] at h
      obtain ⟨l1, l2, h0, h1, h2⟩ := ih h
      exact ⟨a :: l1, l2, by simp [h0], by simp [h1], by simp [h2]⟩

/-! ### environments -/

/-- The same numbers, but for the one that is left out. -/
def Agree (k : Option Nat) (a b : Env) : Prop :=
  a.ctx = b.ctx ∧ ∀ i, k ≠ some i → numOf (a.vars[i]?.getD .nil) = numOf (b.vars[i]?.getD .nil)

theorem Agree.refl (k : Option Nat) (a : Env) : Agree k a a := ⟨rfl, fun _ _ => rfl⟩

theorem Agree.push {k : Option Nat} {a b : Env} (h : Agree k a b) (x : Val) :
    Agree (k.map (· + 1)) (a.push x) (b.push x) := by
  refine ⟨h.1, fun i hi => ?_⟩
  cases i with
  | zero => rfl
  | succ i =>
    simp only [Env.push, List.getElem?_cons_succ]
    refine h.2 i fun hk => hi ?_
    rw [hk]; rfl

theorem Agree.of_push {a : Env} {x y : Val} {k : Option Nat} (h : k = some 0 ∨ numOf y = numOf x) :
    Agree k (a.push x) (a.push y) := by
  refine ⟨rfl, fun i hi => ?_⟩
  cases i with
  | zero =>
    rcases h with h | h
    · exact absurd h hi
    · simpa [Env.push] using h.symm
  | succ i => rfl

theorem eval_field (i : Nat) (env : Env) : (Expr.field i).eval env = numOf (env.vars[i]?.getD .nil) := by
  simp only [Expr.eval]
  rcases env.vars[i]? with _ | v
  · rfl
  · cases v <;> rfl

theorem eval_agree {k : Option Nat} {a b : Env} (h : Agree k a b) : ∀ e : Expr, avoids k e = true → e.eval a = e.eval b
  | .lit _, _ => rfl
  | .arg i, _ => by simp only [Expr.eval, h.1]
  | .field i, hk => by
    rw [eval_field, eval_field]
    exact h.2 i (by simpa [avoids] using hk)
  | .op _ x y, hk => by
    simp only [avoids, Bool.and_eq_true] at hk
    simp only [Expr.eval, eval_agree h x hk.1, eval_agree h y hk.2]
  | .lop _ x, hk => by
    simp only [avoids] at hk
    simp only [Expr.eval, eval_agree h x hk]

theorem cond_agree {k : Option Nat} {a b : Env} (h : Agree k a b) : ∀ e : Cond, condAvoids k e = true → e.eval a = e.eval b
  | .eq x y, hk | .lt x y, hk => by
    simp only [condAvoids, Bool.and_eq_true] at hk
    simp only [Cond.eval, eval_agree h x hk.1, eval_agree h y hk.2]
  | .not c, hk => by
    simp only [condAvoids] at hk
    simp only [Cond.eval, cond_agree h c hk]
  | .and c d, hk | .or c d, hk => by
    simp only [condAvoids, Bool.and_eq_true] at hk
    simp only [Cond.eval, cond_agree h c hk.1, cond_agree h d hk.2]

/-- The arguments have the same values. -/
def Args (args : List Arg) (a b : Env) : Prop := ∀ x ∈ args, x.expr.eval a = x.expr.eval b

theorem inside_agree {args : List Arg} {a b : Env} (h : Args args a b) :
    inside (args.map Arg.expr) a = inside (args.map Arg.expr) b := by
  simp only [inside, List.map_map, Env.mk.injEq, and_true]
  refine List.map_congr_left fun x hx => ?_
  simp only [Function.comp_apply, Expr.val, h x hx]

theorem literal_expr {x : CtxArg} {y : Arg} (h : x.literal = some y) (a b : Env) : y.expr.eval a = y.expr.eval b := by
  unfold CtxArg.literal at h
  split at h <;> simp only [Option.some.injEq, reduceCtorEq] at h <;> subst h <;> rfl

theorem scope_agree {c : Container} {args : List Arg} {a b : Env} (h : Args args a b) :
    inside ((c.scope args).map Arg.expr) a = inside ((c.scope args).map Arg.expr) b := by
  refine inside_agree ?_
  unfold Container.scope
  split
  · intro x hx
    obtain ⟨y, _, hy⟩ := List.mem_filterMap.1 hx
    exact literal_expr hy a b
  · exact h

/-- The limits ask for the same. -/
def Lims (lims : List Lim) (a b : Env) : Prop := ∀ l ∈ lims, ∀ vs n s, Lim.good a vs n s l = Lim.good b vs n s l

theorem wire_agree (o : Order) (native : Endian) {a b : Env} : ∀ (t : STy) {args : List Arg} (_ : Args args a b) (v : Val),
    t.wire o native args a v = t.wire o native args b v
  | .base _, _, _, _ => by simp only [STy.wire]
  | .option t, _, h, v => by
    simp only [STy.wire]
    cases v <;> simp only [wire_agree o native t h]
  | .array _ t, _, h, v => by simp only [STy.wire, wire_agree o native t h]
  | .vec _ t, _, h, v => by simp only [STy.wire, wire_agree o native t h]
  | .pair x y, _, h, v => by simp only [STy.wire, wire_agree o native x h, wire_agree o native y h]
  | .struct c fs, _, h, v => by simp only [STy.wire, scope_agree h]
  | .enum c id vs, _, h, v => by simp only [STy.wire, scope_agree h]

theorem consistent_agree (o : Order) (m : Machine) {a b : Env} : ∀ (t : STy) {lims : List Lim} {args : List Arg}
    (_ : Lims lims a b) (_ : Args args a b) (v : Val),
    t.consistent o m lims args a v = t.consistent o m lims args b v
  | .base _, _, _, _, _, _ => by simp only [STy.consistent]
  | .option t, _, _, hl, h, v => by
    simp only [STy.consistent]
    cases v <;> simp only [consistent_agree o m t hl h]
  | .array _ t, _, _, hl, h, v => by simp only [STy.consistent, consistent_agree o m t hl h]
  | .vec _ t, lims, _, hl, h, v => by
    simp only [STy.consistent, consistent_agree o m t (lims := []) (a := a) (b := b) (by simp [Lims]) h, wire_agree o m.native t h]
    congr 1
    rw [Bool.eq_iff_iff, List.all_eq_true, List.all_eq_true]
    exact forall₂_congr fun l hm => by rw [hl l hm]
  | .pair x y, _, _, hl, h, v => by
    simp only [STy.consistent, consistent_agree o m x hl h, consistent_agree o m y hl h]
  | .struct c fs, _, _, _, h, v => by simp only [STy.consistent, scope_agree h]
  | .enum c id vs, _, _, _, h, v => by simp only [STy.consistent, scope_agree h]

/-! ### fields -/

theorem attrs_agree {k : Option Nat} {a b : Env} (h : Agree k a b) {x : SAttrs} (hk : attrsAvoid k x = true) :
    x.parsed a = x.parsed b ∧ x.written a = x.written b ∧ Lims x.limits a b ∧
      (∀ e, x.assertEq = some e → e.eval a = e.eval b) := by
  simp only [attrsAvoid, Bool.and_eq_true] at hk
  obtain ⟨⟨⟨⟨h1, h2⟩, h3⟩, h4⟩, h5⟩ := hk
  have hc : ∀ c, x.cond = some c → c.eval a = c.eval b := fun c e => cond_agree h c (by simpa [e] using h1)
  have e2 : ∀ e, x.count = some e → e.eval a = e.eval b := fun c e => eval_agree h c (by simpa [e] using h2)
  have e3 : ∀ e, x.bytesRead = some e → e.eval a = e.eval b := fun c e => eval_agree h c (by simpa [e] using h3)
  have e4 : ∀ e, x.bitsRead = some e → e.eval a = e.eval b := fun c e => eval_agree h c (by simpa [e] using h4)
  refine ⟨?_, ?_, ?_, fun c e => eval_agree h c (by simpa [e] using h5)⟩
  · unfold SAttrs.parsed
    split <;> first | rfl | (rename_i e; rw [hc _ e])
  · unfold SAttrs.written
    split <;> first | rfl | (rename_i e; rw [hc _ e])
  · intro l hl vs n s
    simp only [SAttrs.limits, List.mem_append, Option.mem_toList, Option.map_eq_some_iff] at hl
    rcases hl with (((⟨e, he, rfl⟩ | ⟨e, he, rfl⟩) | ⟨e, he, rfl⟩) | ⟨e, he, rfl⟩) | hl
    · simp only [Lim.good, e2 e he]
    · simp only [Lim.good, e3 e he]
    · simp only [Lim.good, e4 e he]
    · simp only [Lim.good]
    · split at hl
      · rw [List.mem_singleton] at hl
        subst hl; rfl
      · simp at hl

/-- The values of temporary fields are the same. -/
def Sizes (all all' : Val) : Prop := ∀ f : Temp, f.eval all = f.eval all'

theorem fields_wire_agree (o : Order) (native : Endian) (c : Container) (sc : List Arg) {all all' : Val} (ha : Sizes all all') :
    ∀ (fs : SFields) {k : Option Nat} {a b : Env} (_ : Agree k a b) (_ : fieldsAvoid c sc k fs = true) (v : Val),
    fs.wire o native c sc a all v = fs.wire o native c sc b all' v
  | .nil, _, _, _, _, _, _ => by simp only [SFields.wire]
  | .cons x t rest, k, a, b, h, hk, v => by
    simp only [fieldsAvoid, Bool.and_eq_true] at hk
    obtain ⟨⟨h1, h2⟩, h3⟩ := hk
    obtain ⟨_, hw, _, _⟩ := attrs_agree h h1
    have hargs : Args (x.passes c sc) a b := fun y hy => eval_agree h _ (List.all_eq_true.1 h2 y hy)
    simp only [SFields.wire, SAttrs.wire, hw]
    cases x.temp with
    | some f =>
      dsimp only
      rw [ha f, wire_agree o native t hargs, fields_wire_agree o native c sc ha rest (h.push _) h3]
    | none =>
      cases v with
      | cons y ys => dsimp only; rw [wire_agree o native t hargs, fields_wire_agree o native c sc ha rest (h.push _) h3]
      | _ => rfl

theorem attrs_consistent_agree {x : SAttrs} {t : STy} {args : List Arg} {f g : Val → Bool} (hf : ∀ v, f v = g v) {a b : Env}
    (hp : x.parsed a = x.parsed b) (hw : x.written a = x.written b) (he : ∀ e, x.assertEq = some e → e.eval a = e.eval b) (v : Val) :
    x.consistent t args f a v = x.consistent t args g b v := by
  simp only [SAttrs.consistent, hp, hw, hf]
  cases e : x.assertEq with
  | none => rfl
  | some e' => simp only [he e' e]

theorem fields_consistent_agree (o : Order) (m : Machine) (c : Container) (sc : List Arg) {all all' : Val} (ha : Sizes all all') :
    ∀ (fs : SFields) {k : Option Nat} {a b : Env} (_ : Agree k a b) (_ : fieldsAvoid c sc k fs = true) (v : Val),
    fs.consistent o m c sc a all v = fs.consistent o m c sc b all' v
  | .nil, _, _, _, _, _, _ => by simp only [SFields.consistent]
  | .cons x t rest, k, a, b, h, hk, v => by
    simp only [fieldsAvoid, Bool.and_eq_true] at hk
    obtain ⟨⟨h1, h2⟩, h3⟩ := hk
    obtain ⟨hp, hw, hl, he⟩ := attrs_agree h h1
    have hargs : Args (x.passes c sc) a b := fun y hy => eval_agree h _ (List.all_eq_true.1 h2 y hy)
    have hf := attrs_consistent_agree (x := x) (t := t) (args := x.passes c sc) (consistent_agree o m t hl hargs) hp hw he
    simp only [SFields.consistent]
    cases x.temp with
    | some f =>
      dsimp only
      rw [ha f, hf, fields_consistent_agree o m c sc ha rest (h.push _) h3]
    | none =>
      cases v with
      | cons y ys => dsimp only; rw [hf, fields_consistent_agree o m c sc ha rest (h.push _) h3]
      | _ => rfl

theorem flat_append (l l' : List Piece) : flat (l ++ l') = flat l ++ flat l' := List.flatMap_append

theorem flat_bytes (o : Order) (bs : List Byte) : (flat [bytesPiece o bs]).length = 8 * bs.length := by
  simp [flat, bytesPiece]

theorem flat_mark (a : SAttrs) (t : STy) : flat (a.mark t) = [] := by
  unfold SAttrs.mark
  split <;> rfl

theorem field_spot {o : Order} {m : Machine} {c : Container} {whole : Bool} {sc : List Arg} : ∀ (fs : SFields) (j : Nat) (env : Env)
    (all v : Val) (s : Spot) (_ : fieldSpot o m.native c whole fs j sc env all v = some s) (_ : fs.consistent o m c sc env all v = true),
    s.ty.consistent o m s.lims s.args s.env s.val = true ∧ v.elems[j]? = some s.val ∧
    ∃ pre post, (flat pre).length = s.off ∧ fs.wire o m.native c sc env all v = pre ++ s.ty.wire o m.native s.args s.env s.val ++ post ∧
      ∀ (g : Val → Val) (all' : Val), Sizes all all' → (whole = true ∨ numOf (g s.val) = numOf s.val) →
        (g s.val).elems.length = s.val.elems.length → s.ty.consistent o m s.lims s.args s.env (g s.val) = true →
        fs.consistent o m c sc env all' (modifyAt g j v) = true ∧
        fs.wire o m.native c sc env all' (modifyAt g j v) = pre ++ s.ty.wire o m.native s.args s.env (g s.val) ++ post
  | .nil, _, _, _, _, _, h, _ => by simp [fieldSpot] at h
  | .cons a t rest, j, env, all, v, s, h, hc => by
    simp only [fieldSpot] at h
    simp only [SFields.consistent] at hc
    simp only [SFields.consistent, SFields.wire]
    cases ht : a.temp with
    | some f =>
      simp only [ht] at h hc ⊢
      simp only [Bool.and_eq_true] at hc
      rw [Option.map_eq_some_iff] at h; obtain ⟨s, h, rfl⟩ := h
      obtain ⟨h1, h2, pre, post, h0, h3, h4⟩ := field_spot rest j _ all v s h hc.2
      dsimp only [Spot.behind]
      refine ⟨h1, h2, a.wire o env (a.mark t ++ t.wire o m.native (a.passes c sc) env (f.eval all)) ++ pre, post, by rw [flat_append, List.length_append, h0], by rw [h3, ← List.append_assoc, ← List.append_assoc], fun g all' hs hn hl hy => ?_⟩
      obtain ⟨h5, h6⟩ := h4 g all' hs hn hl hy
      rw [← hs f]
      exact ⟨by rw [hc.1, h5]; rfl, by rw [h6]; simp only [List.append_assoc]⟩
    | none =>
      simp only [ht] at h hc ⊢
      cases v with
      | cons x xs =>
        simp only [Bool.and_eq_true] at hc
        cases j with
        | zero =>
          simp only [Option.ite_none_right_eq_some, Bool.and_eq_true, Option.some.injEq] at h
          · obtain ⟨⟨⟨hp, hq⟩, hv⟩, h⟩ := h
            subst h
            obtain ⟨hx, hr⟩ := hc
            have hx' := hx
            simp only [SAttrs.consistent, hp, if_true, Bool.and_eq_true, Option.isNone_iff_eq_none.1 hq] at hx
            obtain ⟨⟨⟨⟨⟨hw, hy⟩, hu⟩, _⟩, hb⟩, haft⟩ := hx
            refine ⟨hy, by simp [Val.elems],
              [bytesPiece o a.magic] ++ [zerosPiece (a.padBitsBefore.getD 0 + 8 * a.padBytesBefore.getD 0)] ++ a.mark t,
              [zerosPiece (a.padBitsAfter.getD 0 + 8 * a.padBytesAfter.getD 0)] ++ rest.wire o m.native c sc (env.push x) all xs,
              by
                simp only [flat_append, List.length_append, flat_mark, List.length_nil, Nat.add_zero]
                simp [flat, bytesPiece, zerosPiece],
              by simp only [SAttrs.wire, hw, if_true, List.append_assoc], fun g all' hs hn hl hz => ?_⟩
            dsimp only at hn hl hz
            have hag : Agree (if whole then some 0 else none) (env.push x) (env.push (g x)) := by
              refine Agree.of_push ?_
              rcases hn with hn | hn
              · exact .inl (by simp [hn])
              · exact .inr hn
            simp only [modifyAt]
            refine ⟨?_, ?_⟩
            · rw [← fields_consistent_agree o m c sc hs rest hag hv, hr]
              simp only [SAttrs.consistent, hp, if_true, Option.isNone_iff_eq_none.1 hq, hw, hz, hl, hu, hb, haft, Bool.and_self]
            · rw [← fields_wire_agree o m.native c sc hs rest hag hv]
              simp only [SAttrs.wire, hw, if_true, List.append_assoc]
        | succ j =>
          dsimp only at h
          rw [Option.map_eq_some_iff] at h; obtain ⟨s, h, rfl⟩ := h
          obtain ⟨h1, h2, pre, post, h0, h3, h4⟩ := field_spot rest j _ all xs s h hc.2
          dsimp only [Spot.behind]
          refine ⟨h1, by simpa [Val.elems] using h2, a.wire o env (a.mark t ++ t.wire o m.native (a.passes c sc) env x) ++ pre, post, by rw [flat_append, List.length_append, h0], by rw [h3, ← List.append_assoc, ← List.append_assoc], fun g all' hs hn hl hy => ?_⟩
          obtain ⟨h5, h6⟩ := h4 g all' hs hn hl hy
          simp only [modifyAt]
          exact ⟨by rw [hc.1, h5]; rfl, by rw [h6]; simp only [List.append_assoc]⟩
      | _ => simp at h

theorem sizes_modify {v : Val} {j : Nat} {x : Val} {g : Val → Val} (hj : v.elems[j]? = some x)
    (hl : (g x).elems.length = x.elems.length) : Sizes v (modifyAt g j v) := by
  intro f
  simp only [Temp.eval, modifyAt_elems]
  by_cases h : j = f.field
  · subst h
    simp [hj, hl]
  · simp [h]

theorem stored_spot {o : Order} {m : Machine} {c : Container} {whole : Bool} {sc : List Arg} {env : Env} {fs : SFields} {j : Nat} {v : Val}
    {s : Spot} (ok : Int → Bool) (pc : Int → Piece) (h : storedSpot o m.native c whole pc fs j sc env v = some s)
    (hc : fs.consistentStored o m c ok sc env v = true) :
    s.ty.consistent o m s.lims s.args s.env s.val = true ∧
    ∃ pre post, (flat pre).length = s.off ∧ fs.wireStored o m.native c pc sc env v = pre ++ s.ty.wire o m.native s.args s.env s.val ++ post ∧
      ∀ (g : Val → Val), (whole = true ∨ numOf (g s.val) = numOf s.val) →
        (g s.val).elems.length = s.val.elems.length → s.ty.consistent o m s.lims s.args s.env (g s.val) = true →
        fs.consistentStored o m c ok sc env (modifyAt g j v) = true ∧
        fs.wireStored o m.native c pc sc env (modifyAt g j v) = pre ++ s.ty.wire o m.native s.args s.env (g s.val) ++ post := by
  unfold storedSpot at h
  split at h
  · rename_i rest j x xs
    simp only [SFields.consistentStored, Bool.and_eq_true] at hc
    rw [Option.map_eq_some_iff] at h; obtain ⟨s, h, rfl⟩ := h
    obtain ⟨h1, h2, pre, post, h0, h3, h4⟩ := field_spot rest j _ _ xs s h hc.2
    dsimp only [Spot.behind]
    refine ⟨h1, (match (generalizing := false) x with | .num n => [pc n] | _ => []) ++ pre, post, by rw [flat_append, List.length_append, h0]; rfl, by simp only [SFields.wireStored]; rw [h3, ← List.append_assoc, ← List.append_assoc]; rfl, fun g hn hl hy => ?_⟩
    have hs : Sizes (.cons x xs) (modifyAt g (j + 1) (.cons x xs)) :=
      sizes_modify (x := s.val) (by simpa [Val.elems] using h2) hl
    obtain ⟨h5, h6⟩ := h4 g _ hs hn hl hy
    simp only [modifyAt] at h5 h6
    simp only [modifyAt, SFields.consistentStored, SFields.wireStored]
    refine ⟨by rw [hc.1, h5]; rfl, by rw [h6]; simp only [List.append_assoc]; rfl⟩
  · simp at h

theorem variant_spot {o : Order} {m : Machine} {c : Container} {id : SId} {sel : Int → Bool} {whole : Bool} {sc : List Arg} {env : Env} :
    ∀ (vs : SVariants) (i j : Nat) (v : Val) (s : Spot) (_ : variantSpot o m.native c id whole vs i j sc env v = some s)
    (_ : vs.consistentAt o m c id sel i sc env v = true),
    s.ty.consistent o m s.lims s.args s.env s.val = true ∧
    ∃ pre post, (flat pre).length = s.off ∧ vs.wireAt o m.native c id i sc env v = pre ++ s.ty.wire o m.native s.args s.env s.val ++ post ∧
      ∀ (g : Val → Val), (whole = true ∨ numOf (g s.val) = numOf s.val) →
        (g s.val).elems.length = s.val.elems.length → s.ty.consistent o m s.lims s.args s.env (g s.val) = true →
        vs.consistentAt o m c id sel i sc env (modifyAt g j v) = true ∧
        vs.wireAt o m.native c id i sc env (modifyAt g j v) = pre ++ s.ty.wire o m.native s.args s.env (g s.val) ++ post
  | .nil, _, _, _, _, h, _ => by simp [variantSpot] at h
  | .cons a fs rest, i + 1, j, v, s, h, hc => by
    simp only [variantSpot] at h
    simp only [SVariants.consistentAt] at hc
    simp only [SVariants.consistentAt, SVariants.wireAt]
    exact variant_spot rest i j v s h hc
  | .cons a fs rest, 0, j, v, s, h, hc => by
    simp only [variantSpot] at h
    simp only [SVariants.consistentAt] at hc
    simp only [SVariants.consistentAt, SVariants.wireAt]
    have plain : ∀ s, fieldSpot o m.native c whole fs j sc env v v = some s → fs.consistent o m c sc env v v = true →
        s.ty.consistent o m s.lims s.args s.env s.val = true ∧
        ∃ pre post, (flat pre).length = s.off ∧ fs.wire o m.native c sc env v v = pre ++ s.ty.wire o m.native s.args s.env s.val ++ post ∧
          ∀ (g : Val → Val), (whole = true ∨ numOf (g s.val) = numOf s.val) →
            (g s.val).elems.length = s.val.elems.length → s.ty.consistent o m s.lims s.args s.env (g s.val) = true →
            fs.consistent o m c sc env (modifyAt g j v) (modifyAt g j v) = true ∧
            fs.wire o m.native c sc env (modifyAt g j v) (modifyAt g j v) =
              pre ++ s.ty.wire o m.native s.args s.env (g s.val) ++ post := by
      intro s h hc
      obtain ⟨h1, h2, pre, post, h0, h3, h4⟩ := field_spot fs j env v v s h hc
      exact ⟨h1, pre, post, h0, h3, fun g hn hl hy => h4 g _ (sizes_modify h2 hl) hn hl hy⟩
    cases id with
    | ctx e =>
      dsimp only at h hc ⊢
      simp only [Bool.and_eq_true] at hc
      obtain ⟨h1, pre, post, h0, h3, h4⟩ := plain s h hc.2
      refine ⟨h1, pre, post, h0, h3, fun g hn hl hy => ?_⟩
      obtain ⟨h5, h6⟩ := h4 g hn hl hy
      exact ⟨by rw [hc.1, h5]; rfl, h6⟩
    | typed W e bits bytes =>
      cases hk : a.kind with
      | id n =>
        simp only [hk] at h hc ⊢
        simp only [Bool.and_eq_true] at hc
        rw [Option.map_eq_some_iff] at h; obtain ⟨s, h, rfl⟩ := h
        obtain ⟨h1, pre, post, h0, h3, h4⟩ := plain s h hc.2
        dsimp only [Spot.behind]
        refine ⟨h1, [intPiece o m.native ((SId.typed W e bits bytes).passes c sc) W n] ++ pre, post, by rw [flat_append, List.length_append, h0], by rw [h3, ← List.append_assoc, ← List.append_assoc], fun g hn hl hy => ?_⟩
        obtain ⟨h5, h6⟩ := h4 g hn hl hy
        exact ⟨by rw [hc.1.1, hc.1.2, h5]; rfl, by rw [h6]; simp only [List.append_assoc]⟩
      | any =>
        simp only [hk] at h hc ⊢
        exact stored_spot _ _ h hc
      | range lo hi =>
        simp only [hk] at h hc ⊢
        exact stored_spot _ _ h hc

/-! ### places -/

theorem length_of_forms : ∀ {l l' : List Piece}, l.map form = l'.map form → (flat l).length = (flat l').length
  | [], [], _ => rfl
  | [], _ :: _, h => by simp at h
  | _ :: _, [], h => by simp at h
  | x :: l, y :: l', h => by
    simp only [List.map_cons, List.cons.injEq] at h
    have h1 : x.bits.length = y.bits.length := congrArg (·.2.2) h.1
    have h2 := length_of_forms h.2
    simp only [flat, List.flatMap_cons, List.length_append] at h2 ⊢
    omega

theorem settled_of_forms {o : Order} : ∀ {l l' : List Piece} {n : Nat}, l.map form = l'.map form → settled o n l = settled o n l'
  | [], [], _, _ => rfl
  | [], _ :: _, _, h => by simp at h
  | _ :: _, [], _, h => by simp at h
  | x :: l, y :: l', n, h => by
    simp only [List.map_cons, List.cons.injEq] at h
    have h1 : x.whole = y.whole := congrArg (·.1) h.1
    have h2 : x.strict = y.strict := congrArg (·.2.1) h.1
    have h3 : x.bits.length = y.bits.length := congrArg (·.2.2) h.1
    simp only [settled, h1, h2, h3, settled_of_forms h.2]

theorem lim_good_modify {l : Lim} {lims : List Lim} (hl : l ∈ lims) (hu : ended lims = false) (env : Env) {vs vs' : List Val}
    (h : vs.length = vs'.length) (n : Nat) (s : Bool) : l.good env vs n s = l.good env vs' n s := by
  cases l with
  | «until» n => simp [ended] at hu; exact absurd hl (by intro hm; have := hu _ hm; simp at this)
  | _ => simp only [Lim.good, h]

theorem put_sizes {o : Order} {m : Machine} {p : List Go} {t : STy} {lims : List Lim} {args : List Arg} {env : Env} {v : Val} {s : Spot}
    (h : spot o m.native p t lims args env v = some s) {y : Val} (hy : Fits o m s y) :
    (p.isEmpty = true ∨ numOf (put p y v) = numOf v) ∧ (put p y v).elems.length = v.elems.length := by
  cases p with
  | nil =>
    simp only [spot, Option.some.injEq] at h
    subst h
    exact ⟨.inl rfl, hy.2.1⟩
  | cons g p => exact ⟨.inr (put_kept g p y v).1, (put_kept g p y v).2⟩

theorem put_elem (i : Nat) (p : List Go) (y v : Val) : put (.elem i :: p) y v = modifyAt (put p y) i v := by
  cases v <;> rfl

theorem all_split {l1 l2 : List Val} {x : Val} (f : Val → Bool) :
    (l1 ++ x :: l2).all f = (l1.all f && (f x && l2.all f)) := by simp

/-- The value at the place is described there, and so is every other of the same size. -/
theorem spot_sound {o : Order} {m : Machine} : ∀ (p : List Go) (t : STy) (lims : List Lim) (args : List Arg) (env : Env) (v : Val)
    (s : Spot) (_ : spot o m.native p t lims args env v = some s) (_ : t.consistent o m lims args env v = true),
    s.ty.consistent o m s.lims s.args s.env s.val = true ∧
    ∃ pre post, (flat pre).length = s.off ∧ t.wire o m.native args env v = pre ++ s.ty.wire o m.native s.args s.env s.val ++ post ∧
      ∀ y, Fits o m s y → t.consistent o m lims args env (put p y v) = true ∧
        t.wire o m.native args env (put p y v) = pre ++ s.ty.wire o m.native s.args s.env y ++ post
  | [], t, lims, args, env, v, s, h, hc => by
    simp only [spot, Option.some.injEq] at h
    subst h
    exact ⟨hc, [], [], rfl, by simp, fun y hy => ⟨hy.1, by simp [put]⟩⟩
  | .some :: p, t, lims, args, env, v, s, h, hc => by
    cases t with
    | option t =>
      cases v with
      | some x =>
        simp only [spot] at h
        simp only [STy.consistent] at hc
        simp only [STy.consistent, STy.wire, put]
        exact spot_sound p t lims args env x s h hc
      | _ => simp [spot] at h
    | _ => simp [spot] at h
  | .field j :: p, t, lims, args, env, v, s, h, hc => by
    cases t with
    | struct c fs =>
      simp only [spot, Option.bind_eq_some_iff] at h
      obtain ⟨s1, h1, h2⟩ := h
      rw [Option.map_eq_some_iff] at h2; obtain ⟨s, h2, rfl⟩ := h2
      simp only [STy.consistent] at hc
      obtain ⟨f1, f2, pre1, post1, f0, f3, f4⟩ := field_spot fs j _ v v s1 h1 hc
      obtain ⟨g1, pre2, post2, g0, g3, g4⟩ := spot_sound p s1.ty s1.lims s1.args s1.env s1.val s h2 f1
      simp only [STy.consistent, STy.wire]
      refine ⟨g1, [bytesPiece o c.magic] ++ (pre1 ++ pre2), post2 ++ post1, by simp only [flat_append, List.length_append, f0, g0, flat_bytes, Nat.add_assoc], by rw [f3, g3]; simp only [List.append_assoc], fun y hy => ?_⟩
      obtain ⟨k1, k2⟩ := g4 y hy
      obtain ⟨u1, u2⟩ := put_sizes h2 hy
      obtain ⟨w1, w2⟩ := f4 (put p y) _ (sizes_modify f2 u2) u1 u2 k1
      have hput : put (.field j :: p) y v = modifyAt (put p y) j v := by
        cases v with
        | variant i w => simp [Val.elems] at f2
        | _ => rfl
      rw [hput]
      exact ⟨w1, by rw [w2, k2]; simp only [List.append_assoc]⟩
    | enum c id vs =>
      cases v with
      | variant i w =>
        simp only [spot, Option.bind_eq_some_iff] at h
        obtain ⟨s1, h1, h2⟩ := h
        rw [Option.map_eq_some_iff] at h2; obtain ⟨s, h2, rfl⟩ := h2
        simp only [STy.consistent] at hc
        obtain ⟨f1, pre1, post1, f0, f3, f4⟩ := variant_spot vs i j w s1 h1 hc
        obtain ⟨g1, pre2, post2, g0, g3, g4⟩ := spot_sound p s1.ty s1.lims s1.args s1.env s1.val s h2 f1
        simp only [STy.consistent, STy.wire, put]
        refine ⟨g1, [bytesPiece o c.magic] ++ (pre1 ++ pre2), post2 ++ post1, by simp only [flat_append, List.length_append, f0, g0, flat_bytes, Nat.add_assoc], by rw [f3, g3]; simp only [List.append_assoc], fun y hy => ?_⟩
        obtain ⟨k1, k2⟩ := g4 y hy
        obtain ⟨u1, u2⟩ := put_sizes h2 hy
        obtain ⟨w1, w2⟩ := f4 (put p y) u1 u2 k1
        exact ⟨w1, by rw [w2, k2]; simp only [List.append_assoc]⟩
      | _ => simp [spot] at h
    | _ => simp [spot] at h
  | .elem i :: p, t, lims, args, env, v, s, h, hc => by
    simp only [put_elem]
    cases t with
    | array n t =>
      simp only [spot, Option.bind_eq_some_iff] at h
      obtain ⟨x, hx, h⟩ := h
      rw [Option.map_eq_some_iff] at h; obtain ⟨s, h, rfl⟩ := h
      simp only [STy.consistent, Bool.and_eq_true, List.all_eq_true] at hc
      obtain ⟨⟨hc1, hc2⟩, hc3⟩ := hc
      obtain ⟨g1, pre, post, g0, g3, g4⟩ := spot_sound p t lims args env x s h (hc3 x (List.mem_of_getElem? hx))
      obtain ⟨l1, l2, e0, e1, e2⟩ := split_at hx
      simp only [STy.consistent, STy.wire, Spot.behind, e0]
      refine ⟨g1, (l1.flatMap fun x => t.wire o m.native args env x) ++ pre, post ++ (l2.flatMap fun x => t.wire o m.native args env x),
        by rw [flat_append, List.length_append, g0],
        by rw [e1, List.flatMap_append, List.flatMap_cons, g3]; simp only [List.append_assoc], fun y hy => ?_⟩
      obtain ⟨k1, k2⟩ := g4 y hy
      rw [modifyAt_isList, modifyAt_elems, List.length_modify, hc1, hc2, e2, List.flatMap_append, List.flatMap_cons, k2]
      refine ⟨?_, by simp only [List.append_assoc]⟩
      rw [e1] at hc3
      simp only [Bool.and_eq_true, List.all_eq_true, true_and]
      intro z hz
      rcases List.mem_append.1 hz with hz | hz
      · exact hc3 z (List.mem_append_left _ hz)
      · rcases List.mem_cons.1 hz with rfl | hz
        · exact k1
        · exact hc3 z (List.mem_append_right _ (List.mem_cons_of_mem _ hz))
    | vec z t =>
      simp only [spot] at h
      split at h
      · simp at h
      rename_i hu
      simp only [Option.bind_eq_some_iff] at h
      obtain ⟨x, hx, h⟩ := h
      rw [Option.map_eq_some_iff] at h; obtain ⟨s, h, rfl⟩ := h
      simp only [STy.consistent, Bool.and_eq_true] at hc
      obtain ⟨⟨⟨⟨hc1, hcz⟩, hc2⟩, hc3⟩, hc4⟩ := hc
      rw [List.all_eq_true] at hc3
      obtain ⟨g1, pre, post, g0, g3, g4⟩ := spot_sound p t [] args env x s h (hc3 x (List.mem_of_getElem? hx))
      obtain ⟨l1, l2, e0, e1, e2⟩ := split_at hx
      simp only [STy.consistent, STy.wire, Spot.behind, e0]
      refine ⟨g1, (l1.flatMap fun x => t.wire o m.native args env x) ++ pre, post ++ (l2.flatMap fun x => t.wire o m.native args env x),
        by rw [flat_append, List.length_append, g0],
        by rw [e1, List.flatMap_append, List.flatMap_cons, g3]; simp only [List.append_assoc], fun y hy => ?_⟩
      obtain ⟨k1, k2⟩ := g4 y hy
      have hlen : (flat (t.wire o m.native args env (put p y x))).length = (flat (t.wire o m.native args env x)).length := by
        rw [k2, g3]
        simp only [flat_append, List.length_append, length_of_forms hy.2.2]
      have hemp : (flat (t.wire o m.native args env (put p y x))).isEmpty = (flat (t.wire o m.native args env x)).isEmpty := by
        rw [Bool.eq_iff_iff, List.isEmpty_iff_length_eq_zero, List.isEmpty_iff_length_eq_zero, hlen]
      have hsum : (flat ((modifyAt (put p y) i v).elems.flatMap fun x => t.wire o m.native args env x)).length =
          (flat (v.elems.flatMap fun x => t.wire o m.native args env x)).length := by
        rw [modifyAt_elems, e2, e1]
        simp only [List.flatMap_append, List.flatMap_cons, flat_append, List.length_append, hlen]
      have hall : ((modifyAt (put p y) i v).elems.all fun x => !(flat (t.wire o m.native args env x)).isEmpty) =
          (v.elems.all fun x => !(flat (t.wire o m.native args env x)).isEmpty) := by
        rw [modifyAt_elems, e2, e1, all_split, all_split, hemp]
      refine ⟨?_, by rw [modifyAt_elems, e2, List.flatMap_append, List.flatMap_cons, k2]; simp only [List.append_assoc]⟩
      rw [hsum, hall, modifyAt_isList, hc1, hcz]
      simp only [Bool.and_eq_true, true_and]
      refine ⟨⟨by rw [modifyAt_elems, List.length_modify]; exact hc2, ?_⟩, ?_⟩
      · rw [modifyAt_elems, e2]
        rw [e1] at hc3
        rw [List.all_eq_true]
        intro z hz
        rcases List.mem_append.1 hz with hz | hz
        · exact hc3 z (List.mem_append_left _ hz)
        · rcases List.mem_cons.1 hz with rfl | hz
          · exact k1
          · exact hc3 z (List.mem_append_right _ (List.mem_cons_of_mem _ hz))
      · rw [List.all_eq_true] at hc4 ⊢
        intro l hl
        rw [← hc4 l hl]
        exact lim_good_modify hl (by simpa using hu) env (by rw [modifyAt_elems, List.length_modify]) _ _
    | pair a b =>
      simp only [STy.consistent] at hc
      split at hc
      · rename_i x y
        simp only [Bool.and_eq_true] at hc
        match i, h with
        | 0, h =>
          simp only [spot] at h
          obtain ⟨g1, pre, post, g0, g3, g4⟩ := spot_sound p a lims args env x s h hc.1
          simp only [STy.consistent, STy.wire, modifyAt, Bool.and_eq_true]
          exact ⟨g1, pre, post ++ b.wire o m.native args env y, g0, by rw [g3]; simp only [List.append_assoc],
            fun z hz => ⟨⟨(g4 z hz).1, hc.2⟩, by rw [(g4 z hz).2]; simp only [List.append_assoc]⟩⟩
        | 1, h' =>
          simp only [spot, Option.map_eq_some_iff] at h'
          obtain ⟨s, h1, rfl⟩ := h'
          obtain ⟨g1, pre, post, g0, g3, g4⟩ := spot_sound p b lims args env y s h1 hc.2
          simp only [STy.consistent, STy.wire, modifyAt, Bool.and_eq_true, Spot.behind]
          exact ⟨g1, a.wire o m.native args env x ++ pre, post, by rw [flat_append, List.length_append, g0], by rw [g3]; simp only [List.append_assoc],
            fun z hz => ⟨⟨hc.1, (g4 z hz).1⟩, by rw [(g4 z hz).2]; simp only [List.append_assoc]⟩⟩
        | i + 2, h => simp [spot] at h
      · simp at hc
    | _ => simp [spot] at h

end Deku.Patch
