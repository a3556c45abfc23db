import Verif.Lemmas.Yields

/-! # What is read is a value of the type -/

namespace Deku

open Reader Coll

variable {α : Type}

theorem DAttrs.isRead_of {a : DAttrs} (h : a.mayDefault = false) (env : Env) : a.toAttrs.isRead env = true := by
  obtain ⟨magic, pb, pa, po, skip, cond, dflt, ae, sz⟩ := a
  cases skip with
  | none => cases cond <;> simp_all [DAttrs.mayDefault, Attrs.isRead, DAttrs.toAttrs]
  | some s => cases s <;> cases cond <;> simp_all [DAttrs.mayDefault, Attrs.isRead, DAttrs.toAttrs]

theorem DAttrs.read_yields {R : Val → Prop} {a : DAttrs} {native : Endian} {rd : Env → M Reader Val} {env : Env}
    (hrd : ∀ env, Yields R (rd env)) (hd : a.mayDefault = true → R a.default) :
    Yields R (a.toAttrs.read native rd env) := by
  unfold Attrs.read
  refine Yields.after fun _ => Yields.after fun _ => Yields.after fun _ => Yields.after fun r => ?_
  refine Keeps.bind (R := R) ?_ fun v hv => Yields.after fun _ => Yields.after fun _ => Keeps.pure hv
  refine Yields.ite (fun _ => (hrd _).bind fun raw h => Keeps.pure h) fun h => Keeps.pure (hd ?_)
  by_cases hm : a.mayDefault = true
  · exact hm
  · exact absurd (DAttrs.isRead_of (by simpa using hm) _) h

theorem Temp.eval_has {value : Temp} {t : Def} (h : t.isUint value.W = true) (all : Val) :
    t.has (value.eval all) = true := by
  cases t with
  | leaf s l =>
    cases l with
    | uint W ctx =>
      simp only [Def.isUint, decide_eq_true_iff] at h
      simp only [Def.has, Leaf.has, Temp.eval, decide_eq_true_iff, h]
      have : (0 : Int) < 256 ^ value.W := Int.pow_pos (by omega)
      exact ⟨Int.emod_nonneg _ (by omega), Int.emod_lt_of_pos _ this⟩
    | _ => simp [Def.isUint] at h
  | _ => simp [Def.isUint] at h

/-- The stored id is one of the type of the id. -/
theorem DFields.hasStored_of {W : Nat} {a : DAttrs} {t : Def} {rest : DFields} {x : Val} {xs : Val}
    (hx : (Leaf.uint W .unit).has x = true) (hr : ∀ all, rest.has all xs = true) :
    (DFields.cons a t rest).hasStored W (.cons x xs) = true := by
  simp [DFields.hasStored, hx, hr]

/-- The id is read. -/
def DId.isTyped : DId → Bool
  | .typed _ _ _ _ => true
  | .arg _ => false

mutual

theorem Def.read_has (m : Machine) : ∀ (d : Def) (env : Env), d.valid m.native = true → d.typed = true →
    Yields (fun v => d.has v = true) ((d.toTy m).read m env)
  | .leaf _ l, env, _, _ => by
    simp only [Def.toTy, Ty.read, Def.has]
    exact l.read_has m
  | .option t, env, hv, ht => by
    simp only [Def.valid, Def.typed] at hv ht
    simp only [Def.toTy, Ty.read]
    exact (t.read_has m env hv ht).bind fun v h => Keeps.pure (by simpa [Def.has] using h)
  | .array n t, env, hv, ht => by
    simp only [Def.valid, Def.typed] at hv ht
    simp only [Def.toTy, Ty.read]
    refine (arrayRead_keeps (t.read_has m env hv ht) n).bind fun vs h => Keeps.pure ?_
    simp only [Def.has, isList_ofList, elems_ofList, Bool.true_and, Bool.and_eq_true, decide_eq_true_iff, List.all_eq_true]
    exact ⟨h.1, h.2⟩
  | .pair a b, env, hv, ht => by
    simp only [Def.valid, Def.typed, Bool.and_eq_true] at hv ht
    simp only [Def.toTy, Ty.read]
    exact (a.read_has m env hv.1 ht.1).bind fun x hx => (b.read_has m env hv.2 ht.2).bind fun y hy =>
      Keeps.pure (by simp [Def.has, hx, hy])
  | .vec z l t, env, hv, ht => by
    simp only [Def.valid, Def.typed] at hv ht
    simp only [Def.toTy, Ty.read]
    refine Yields.after fun lim => (vecRead_keeps (t.read_has m env hv ht) (Yields.any _) _ _ _).bind fun vs h => Keeps.pure ?_
    simp only [Def.has, isList_ofList, elems_ofList, Bool.true_and, List.all_eq_true]
    exact h
  | .bytes n ctx, env, _, _ => by
    simp only [Def.toTy, Ty.read]
    exact Yields.after fun k => Yields.after fun bs => Keeps.pure (by simp [Def.has, isBytes_ofList])
  | .struct args magic fs, env, hv, ht => by
    simp only [Def.valid, Def.typed] at hv ht
    simp only [Def.toTy, Ty.read]
    exact Yields.after fun _ => Yields.after fun _ => (fs.read_has m _ hv ht).mono fun v h => by
      simpa [Def.has] using h v
  | .enum args magic id vs, env, hv, ht => by
    simp only [Def.valid, Def.typed, Bool.and_eq_true] at hv ht
    simp only [Def.toTy, Ty.read]
    refine Yields.after fun _ => ?_
    have key : ∀ env x typed, typed = id.isTyped →
        (∀ s W c st, id = .typed s W c st → (Leaf.uint W .unit).has x = true) →
        Yields (fun v => (Def.enum args magic id vs).has v = true)
          (dispatch ((vs.toVariants m).select env x) ((vs.toVariants m).readAt m env x typed)) := by
      intro env x typed htyped hx
      unfold dispatch
      split
      · exact Keeps.throw
      · rename_i i _
        refine (vs.read_has m id env x typed i hv.2 ht htyped hx).bind fun fs h => Keeps.pure ?_
        simpa [Def.has] using h
    cases id with
    | arg e => exact key _ _ _ rfl (by intro s W c st h; cases h)
    | typed s W c st =>
      refine ((Leaf.uint W c).read_has m).bind fun x hx => key _ _ _ rfl ?_
      intro s W c st h
      cases h
      simpa [Leaf.has] using hx

theorem DFields.read_has (m : Machine) : ∀ (fs : DFields) (env : Env), fs.valid m.native = true → fs.typed = true →
    Yields (fun v => ∀ all, fs.has all v = true) ((fs.toFields m).read m env)
  | .nil, env, _, _ => by
    simp only [DFields.toFields, Fields.read]
    exact Keeps.pure (by simp [DFields.has])
  | .cons a t rest, env, hv, ht => by
    simp only [DFields.valid, DFields.typed, Bool.and_eq_true, Bool.or_eq_true, Bool.not_eq_true'] at hv ht
    simp only [DFields.toFields, Fields.read]
    refine (DAttrs.read_yields (R := fun v => t.has v = true) (fun env => t.read_has m env hv.1 ht.1.2) ?_).bind
      fun v h => (rest.read_has m _ hv.2 ht.2).bind fun vs hvs => Keeps.pure ?_
    · intro hm
      rcases ht.1.1 with h | h
      · rw [h] at hm; cases hm
      · exact h
    · intro all
      simp [DFields.has, h, hvs all]
  | .temp a t value rest, env, hv, ht => by
    simp only [DFields.valid, DFields.typed, Bool.and_eq_true] at hv ht
    simp only [DFields.toFields, Fields.read]
    refine Yields.after fun v => (rest.read_has m _ hv.2 ht.2).mono fun vs hvs all => ?_
    simp [DFields.has, Temp.eval_has ht.1.1, hvs all]

theorem DVariants.read_has (m : Machine) (id : DId) : ∀ (vs : DVariants) (env : Env) (x : Val) (typed : Bool) (i : Nat),
    vs.valid m.native id = true → vs.typed = true →
    typed = id.isTyped →
    (∀ s W c st, id = .typed s W c st → (Leaf.uint W .unit).has x = true) →
    Yields (fun v => vs.hasAt id i v = true) ((vs.toVariants m).readAt m env x typed i)
  | .nil, env, x, typed, i, _, _, _, _ => by
    simp only [DVariants.toVariants, Variants.readAt]
    exact Keeps.panic
  | .cons a fs rest, env, x, typed, 0, hv, ht, htyped, hx => by
    simp only [DVariants.valid, DVariants.typed, Bool.and_eq_true] at hv ht
    simp only [DVariants.toVariants, Variants.readAt]
    cases id with
    | arg e =>
      simp only [DId.isTyped] at htyped
      subst htyped
      simp only [Bool.and_false, Bool.false_eq_true, if_false]
      exact (fs.read_has m env hv.1.2 ht.1).mono fun v h => by simpa [DVariants.hasAt] using h v
    | typed s W c st =>
      simp only [DId.isTyped] at htyped
      subst htyped
      simp only [Bool.and_true]
      have hp : a.toVAttrs.idPat = a.kind.isPat := rfl
      rw [hp]
      refine Yields.ite (fun h => ?_) fun h => ?_
      · have hs : fs.stores = true := by
          have := hv.1.1
          cases hk : a.kind <;> simp_all [DId.allows, VKind.isPat]
        cases fs with
        | nil => simp [DFields.stores] at hs
        | temp _ _ _ _ => simp [DFields.stores] at hs
        | cons a' t tl =>
          simp only [DFields.valid, DFields.typed, Bool.and_eq_true] at hv ht
          simp only [DFields.toFields, Fields.readStored]
          refine (tl.read_has m _ hv.1.2.2 ht.1.2).bind fun vs hvs => Keeps.pure ?_
          simp only [DVariants.hasAt, h, if_true]
          exact DFields.hasStored_of (hx s W c st rfl) hvs
      · exact (fs.read_has m env hv.1.2 ht.1).mono fun v h' => by simpa [DVariants.hasAt, h] using h' v
  | .cons a fs rest, env, x, typed, i + 1, hv, ht, htyped, hx => by
    simp only [DVariants.valid, DVariants.typed, Bool.and_eq_true] at hv ht
    simp only [DVariants.toVariants, Variants.readAt, DVariants.hasAt]
    exact rest.read_has m id env x typed i hv.2 ht.2 htyped hx

end

end Deku
