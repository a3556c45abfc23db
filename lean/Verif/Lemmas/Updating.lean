import Verif.Model.Update
import Verif.Lemmas.Lengths
import Verif.Lemmas.Source
import Verif.Props.Update

/-!
# `update` with the lengths of lists
-/

namespace Deku

/-! ### reading and writing have nothing to do with `update` -/

theorem Fields.updating_read (m : Machine) (plan : List (Option Temp)) : ∀ (fs : Fields) (i : Nat),
    (fs.updating plan i).read m = fs.read m
  | .nil, i => rfl
  | .cons a t rest, i => by
    funext env
    rw [Fields.updating, Fields.read, Fields.read, Fields.updating_read m plan rest]
    rfl
  | .temp a t value rest, i => by
    funext env
    rw [Fields.updating, Fields.read, Fields.read, Fields.updating_read m plan rest]

theorem Fields.updating_readStored (m : Machine) (plan : List (Option Temp)) : ∀ (fs : Fields) (i : Nat),
    (fs.updating plan i).readStored m = fs.readStored m
  | .nil, i => rfl
  | .cons a t rest, i => by
    funext env id
    rw [Fields.updating, Fields.readStored, Fields.readStored, Fields.updating_read m plan rest]
  | .temp a t value rest, i => by
    funext env id
    rw [Fields.updating, Fields.readStored, Fields.readStored, Fields.updating_read m plan rest]

theorem Fields.updating_write (m : Machine) (plan : List (Option Temp)) : ∀ (fs : Fields) (i : Nat),
    (fs.updating plan i).write m = fs.write m
  | .nil, i => rfl
  | .cons a t rest, i => by
    funext env all v
    rw [Fields.updating, Fields.write.eq_def, Fields.write.eq_def]
    dsimp only
    rw [Fields.updating_write m plan rest]
    rfl
  | .temp a t value rest, i => by
    funext env all v
    rw [Fields.updating, Fields.write.eq_def, Fields.write.eq_def]
    dsimp only
    rw [Fields.updating_write m plan rest]

theorem Fields.updating_writeStored (m : Machine) (plan : List (Option Temp)) (store : Env → Val → M Writer Unit) :
    ∀ (fs : Fields) (i : Nat), (fs.updating plan i).writeStored m store = fs.writeStored m store
  | .nil, i => rfl
  | .cons a t rest, i => by
    funext env v
    rw [Fields.updating, Fields.writeStored.eq_def, Fields.writeStored.eq_def]
    dsimp only
    rw [Fields.updating_write m plan rest]
  | .temp a t value rest, i => by
    funext env v
    rw [Fields.updating, Fields.writeStored.eq_def, Fields.writeStored.eq_def]

theorem Variants.updating_readAt (m : Machine) (env : Env) (id : Val) (typed : Bool) : ∀ (vs : Variants)
    (plans : List (List (Option Temp))) (i : Nat), (vs.updating plans).readAt m env id typed i = vs.readAt m env id typed i
  | .nil, plans, i => by rw [Variants.updating]
  | .cons a fs rest, plans, 0 => by
    rw [Variants.updating, Variants.readAt, Variants.readAt, Fields.updating_read, Fields.updating_readStored]
  | .cons a fs rest, plans, i + 1 => by
    rw [Variants.updating, Variants.readAt, Variants.readAt, Variants.updating_readAt m env id typed rest]

theorem Variants.updating_writeAt (m : Machine) (env : Env) (id : IdSrc) (store : Env → Val → M Writer Unit) :
    ∀ (vs : Variants) (plans : List (List (Option Temp))) (i : Nat) (v : Val),
    (vs.updating plans).writeAt m env id store i v = vs.writeAt m env id store i v
  | .nil, plans, i, v => by rw [Variants.updating]
  | .cons a fs rest, plans, 0, v => by
    rw [Variants.updating, Variants.writeAt.eq_def, Variants.writeAt.eq_def]
    dsimp only
    rw [Fields.updating_write, Fields.updating_writeStored]
  | .cons a fs rest, plans, i + 1, v => by
    rw [Variants.updating, Variants.writeAt, Variants.writeAt, Variants.updating_writeAt m env id store rest]

theorem Variants.updating_firstMatch (env : Env) (id : Val) : ∀ (vs : Variants) (plans : List (List (Option Temp))) (i : Nat),
    (vs.updating plans).firstMatch env id i = vs.firstMatch env id i
  | .nil, plans, i => by rw [Variants.updating]
  | .cons a fs rest, plans, i => by
    rw [Variants.updating, Variants.firstMatch, Variants.firstMatch, Variants.updating_firstMatch env id rest]

theorem Variants.updating_defaultAt : ∀ (vs : Variants) (plans : List (List (Option Temp))) (i : Nat),
    (vs.updating plans).defaultAt i = vs.defaultAt i
  | .nil, plans, i => by rw [Variants.updating]
  | .cons a fs rest, plans, i => by
    rw [Variants.updating, Variants.defaultAt, Variants.defaultAt, Variants.updating_defaultAt rest]

theorem Variants.updating_select (env : Env) (id : Val) (vs : Variants) (plans : List (List (Option Temp))) :
    (vs.updating plans).select env id = vs.select env id := by
  unfold Variants.select
  rw [vs.updating_firstMatch, vs.updating_defaultAt]

theorem Ty.updating_read (m : Machine) (plans : List (List (Option Temp))) (t : Ty) (env : Env) :
    (t.updating plans).read m env = t.read m env := by
  cases t with
  | struct args seek magic fs => rw [Ty.updating, Ty.read, Ty.read, Fields.updating_read]
  | enum args magic id store vs =>
    rw [Ty.updating, Ty.read.eq_def, Ty.read.eq_def]
    dsimp only
    simp only [vs.updating_select]
    have : ∀ env id typed, (vs.updating plans).readAt m env id typed = vs.readAt m env id typed :=
      fun env id typed => funext fun i => vs.updating_readAt m env id typed plans i
    simp only [this]
  | _ => rfl

theorem Ty.updating_write (m : Machine) (plans : List (List (Option Temp))) (t : Ty) (env : Env) (v : Val) :
    (t.updating plans).write m env v = t.write m env v := by
  cases t with
  | struct args seek magic fs => rw [Ty.updating, Ty.write, Ty.write, Fields.updating_write]
  | enum args magic id store vs =>
    rw [Ty.updating, Ty.write.eq_def, Ty.write.eq_def]
    dsimp only
    split
    · rw [vs.updating_writeAt]
    · rfl
  | _ => rfl

/-! ### what is updated -/

/-- The number of fields that are not temporary. -/
def Fields.visible : Fields → Nat
  | .nil => 0
  | .cons _ _ rest => rest.visible + 1
  | .temp _ _ _ rest => rest.visible

theorem Fields.updating_mem (plan : List (Option Temp)) : ∀ (fs : Fields) (i : Nat) (u : Nat × (Val → Except DekuError Val)),
    u ∈ (fs.updating plan i).updates i → ∃ f : Temp, plan[u.1]? = some (some f) ∧ u.2 = lenOf f.field f.W
  | .nil, i, u, h => by simp [Fields.updating, Fields.updates] at h
  | .cons a t rest, i, u, h => by
    rw [Fields.updating, Fields.updates] at h
    dsimp only at h
    cases hp : plan[i]?.getD none with
    | none => rw [hp] at h; exact Fields.updating_mem plan rest (i + 1) u h
    | some f =>
      rw [hp] at h
      rcases List.mem_cons.1 h with rfl | h
      · refine ⟨f, ?_, rfl⟩
        dsimp only
        cases hg : plan[i]? with
        | none => rw [hg] at hp; cases hp
        | some p => rw [hg] at hp; exact congrArg some hp
      · exact Fields.updating_mem plan rest (i + 1) u h
  | .temp a t value rest, i, u, h => by
    rw [Fields.updating, Fields.updates] at h
    exact Fields.updating_mem plan rest i u h

theorem Fields.mem_updating (plan : List (Option Temp)) (j : Nat) (f : Temp) (hf : plan[j]? = some (some f)) :
    ∀ (fs : Fields) (i : Nat), i ≤ j → j < i + fs.visible → (j, lenOf f.field f.W) ∈ (fs.updating plan i).updates i
  | .nil, i, h1, h2 => by rw [Fields.visible] at h2; omega
  | .cons a t rest, i, h1, h2 => by
    rw [Fields.visible] at h2
    rw [Fields.updating, Fields.updates]
    dsimp only
    by_cases hij : i = j
    · subst hij
      rw [hf]
      exact List.mem_cons_self
    · have := Fields.mem_updating plan j f hf rest (i + 1) (by omega) (by omega)
      cases (plan[i]?.getD none).map fun f : Temp => lenOf f.field f.W with
      | none => exact this
      | some g => exact List.mem_cons_of_mem _ this
  | .temp a t value rest, i, h1, h2 => by
    rw [Fields.visible] at h2
    rw [Fields.updating, Fields.updates]
    exact Fields.mem_updating plan j f hf rest i h1 h2

theorem lenOf_set (f : Temp) (j : Nat) (v x : Val) (h : f.field ≠ j) : lenOf f.field f.W (v.set j x) = lenOf f.field f.W v := by
  unfold lenOf
  rw [Val.elems_set, List.getElem?_set_ne (Ne.symm h)]

theorem planFits_ne {n : Nat} {plan : List (Option Temp)} (h : planFits n plan = true) {j k : Nat} {f g : Temp}
    (hf : plan[j]? = some (some f)) (hg : plan[k]? = some (some g)) : f.field ≠ k := by
  rintro rfl
  unfold planFits at h
  rw [Bool.and_eq_true] at h
  have := List.all_eq_true.1 h.2 _ (List.mem_of_getElem? hf)
  dsimp only at this
  rw [hg] at this
  cases this

theorem planFits_lt {n : Nat} {plan : List (Option Temp)} (h : planFits n plan = true) {j : Nat} {f : Temp}
    (hf : plan[j]? = some (some f)) : j < n := by
  unfold planFits at h
  rw [Bool.and_eq_true] at h
  obtain ⟨hj, _⟩ := List.getElem?_eq_some_iff.1 hf
  exact Nat.lt_of_lt_of_le hj (of_decide_eq_true h.1)

theorem Fields.updating_independent {n : Nat} {plan : List (Option Temp)} (h : planFits n plan = true) (fs : Fields) :
    (fs.updating plan 0).Independent := by
  intro u hu u' hu' v x
  obtain ⟨f, h1, h2⟩ := Fields.updating_mem plan fs 0 u hu
  obtain ⟨g, h3, _⟩ := Fields.updating_mem plan fs 0 u' hu'
  rw [h2]
  exact lenOf_set f u'.1 v x (planFits_ne h h1 h3)

theorem lenOf_ok {f : Temp} {v x : Val} (h : lenOf f.field f.W v = .ok x) :
    f.length v < 256 ^ f.W ∧ x = .num (f.length v) ∧ ∃ y, v.elems[f.field]? = some y ∧ f.length v = y.elems.length := by
  unfold lenOf at h
  unfold Temp.length
  split at h
  · rename_i l hl
    rw [hl]
    dsimp only [Option.getD]
    split at h
    · rename_i hlt
      cases h
      exact ⟨hlt, rfl, l, rfl, rfl⟩
    · cases h
  · cases h

/-- After `update` the fields hold the lengths. -/
theorem Fields.updating_planned {n : Nat} {plan : List (Option Temp)} (h : planFits n plan = true) (fs : Fields)
    (hn : n ≤ fs.visible) (v v' : Val) (hv : n ≤ v'.elems.length) (hu : (fs.updating plan 0).update 0 v = (.ok (), v'))
    (hl : ∀ x ∈ v'.elems, x.elems.length < 2 ^ 61) : Planned plan v' := by
  intro j f hf
  have hj := planFits_lt h hf
  rw [update_eq] at hu
  obtain ⟨h1, _, h3, _⟩ := applyUpdates_ok (Fields.updating_independent h fs) (updates_pairwise _ 0) hu
  obtain ⟨x, _, g2, g3⟩ := h1 _ (Fields.mem_updating plan j f hf fs 0 (Nat.zero_le _) (by omega))
  obtain ⟨_, k2, y, k3, k4⟩ := lenOf_ok g2
  refine ⟨?_, ?_⟩
  · rw [← k2]
    exact g3 (by dsimp only; omega)
  · rw [k4]
    exact hl y (List.mem_of_getElem? k3)

/-! ### the number of fields -/

theorem SFields.elab_visible (m : Machine) (c : Container) (env : List Arg) : ∀ (fs : SFields) (ds : DFields),
    fs.elab c env = some ds → (ds.toFields m).visible = fs.visible
  | .nil, ds, h => by
    simp only [SFields.elab, Option.some.injEq] at h
    subst h
    rfl
  | .cons a t rest, ds, h => by
    obtain ⟨_, _, _, _, _, rest', _, _, _, _, _, h6, _, h8⟩ := SFields.elab_cons c env a t rest ds h
    have ih := SFields.elab_visible m c env rest rest' h6
    rcases h8 with ⟨ht, rfl⟩ | ⟨f, ht, rfl⟩
    · rw [DFields.toFields, Fields.visible, SFields.visible, ht, ih]; rfl
    · rw [DFields.toFields, Fields.visible, SFields.visible, ht, ih]; rfl

theorem SFields.elabStored_visible (m : Machine) (c : Container) (env : List Arg) (typed : Option Nat) (fs : SFields)
    (ds : DFields) (h : fs.elabStored c env typed = some ds) : fs.visible ≤ (ds.toFields m).visible := by
  cases fs with
  | nil => simp [SFields.elabStored] at h
  | cons a t rest =>
    obtain ⟨W, rest', h1, rfl⟩ := SFields.elabStored_cons c env typed a t rest ds h
    have ih := SFields.elab_visible m c env rest rest' h1
    rw [DFields.toFields, Fields.visible, SFields.visible, ih]
    split <;> omega

theorem SFields.loose_visible (plan : List (Option Temp)) : ∀ (fs : SFields) (held : List (Option Temp)) (i : Nat),
    (fs.loose plan held i).visible = fs.visible
  | .nil, held, i => by rw [SFields.loose]
  | .cons a t rest, held, i => by
    rw [SFields.loose, SFields.visible, SFields.visible, SFields.loose_visible plan rest]
    rfl

theorem SFields.looseStored_visible (plan : List (Option Temp)) (fs : SFields) : (fs.looseStored plan).visible = fs.visible := by
  cases fs with
  | nil => rw [SFields.looseStored]
  | cons a t rest =>
    rw [SFields.looseStored, SFields.visible, SFields.visible]
    split
    · rfl
    · rw [SFields.loose_visible plan rest]

theorem SFields.consistent_visible (o : Order) (m : Machine) (c : Container) : ∀ (fs : SFields) (sc : List Arg) (env : Env)
    (all v : Val), fs.consistent o m c sc env all v = true → v.elems.length = fs.visible
  | .nil, sc, env, all, v, h => by
    rw [SFields.consistent] at h
    rw [of_decide_eq_true h]
    rfl
  | .cons a t rest, sc, env, all, v, h => by
    rw [SFields.consistent.eq_def] at h
    dsimp only at h
    rw [SFields.visible]
    cases ht : a.temp with
    | some f =>
      rw [ht] at h
      rw [Bool.and_eq_true] at h
      exact SFields.consistent_visible o m c rest sc _ all v h.2
    | none =>
      rw [ht] at h
      cases v with
      | cons x xs =>
        dsimp only at h
        rw [Bool.and_eq_true] at h
        rw [Val.elems, List.length_cons, SFields.consistent_visible o m c rest sc _ all xs h.2]
        rfl
      | _ => cases h

theorem SFields.consistentStored_visible (o : Order) (m : Machine) (c : Container) (id : Int → Bool) (fs : SFields)
    (sc : List Arg) (env : Env) (v : Val) (h : fs.consistentStored o m c id sc env v = true) :
    fs.visible ≤ v.elems.length := by
  cases fs with
  | nil => rw [SFields.visible]; omega
  | cons a t rest =>
    cases v with
    | cons x xs =>
      rw [SFields.consistentStored.eq_def] at h
      dsimp only at h
      rw [Bool.and_eq_true] at h
      have := SFields.consistent_visible o m c rest sc _ _ xs h.2
      rw [SFields.visible, Val.elems, List.length_cons]
      split <;> omega
    | _ => simp [SFields.consistentStored] at h

theorem SVariants.consistentAt_visible (o : Order) (m : Machine) (c : Container) (id : SId) (sel : Int → Bool) (a : DVAttrs)
    (fs : SFields) (rest : SVariants) (sc : List Arg) (env : Env) (v : Val)
    (h : (SVariants.cons a fs rest).consistentAt o m c id sel 0 sc env v = true) : fs.visible ≤ v.elems.length := by
  rw [SVariants.consistentAt.eq_def] at h
  dsimp only at h
  split at h
  · simp only [Bool.and_eq_true] at h
    exact Nat.le_of_eq (SFields.consistent_visible o m c fs sc env v v h.2).symm
  · exact SFields.consistentStored_visible o m c _ fs sc env v h
  · simp only [Bool.and_eq_true] at h
    exact Nat.le_of_eq (SFields.consistent_visible o m c fs sc env v v h.2).symm

/-! ### updated values -/

theorem SVariants.updateAt_planned (o : Order) (m : Machine) (c : Container) (id : SId) (sel : Int → Bool) (scc : List Arg)
    (typed : Option Nat) (sc : List Arg) (env : Env) : ∀ (vs : SVariants) (ds : DVariants) (plans : List (List (Option Temp)))
    (i : Nat) (v v' : Val), vs.elab c scc typed = some ds → vs.plansFit plans = true →
    ((ds.toVariants m).updating plans).updateAt i v = (.ok (), v') → (∀ x ∈ v'.elems, x.elems.length < 2 ^ 61) →
    (vs.loose plans).consistentAt o m c id sel i sc env v' = true → Planned (plans[i]?.getD []) v'
  | .nil, ds, plans, i, v, v', hd, hp, hu, hl, hc => by rw [SVariants.loose] at hc; cases hc
  | .cons a fs rest, ds, plans, i, v, v', hd, hp, hu, hl, hc => by
    obtain ⟨fs', rest', h1, h2, rfl⟩ := SVariants.elab_cons c scc typed a fs rest ds hd
    rw [SVariants.plansFit, Bool.and_eq_true] at hp
    rw [DVariants.toVariants, Variants.updating] at hu
    rw [SVariants.loose] at hc
    cases i with
    | zero =>
      rw [Variants.updateAt] at hu
      have hv := SVariants.consistentAt_visible o m c id sel _ _ _ sc env v' hc
      have hv' : fs.visible ≤ v'.elems.length := by
        split at hv
        · rw [SFields.looseStored_visible] at hv; exact hv
        · rw [SFields.loose_visible] at hv; exact hv
      have hn : fs.visible ≤ (fs'.toFields m).visible := by
        split at h1
        · exact SFields.elabStored_visible m c scc typed fs fs' h1
        · exact Nat.le_of_eq (SFields.elab_visible m c scc fs fs' h1).symm
      have := Fields.updating_planned hp.1 (fs'.toFields m) hn v v' hv' hu hl
      cases plans <;> exact this
    | succ i =>
      rw [Variants.updateAt] at hu
      rw [SVariants.consistentAt] at hc
      have := SVariants.updateAt_planned o m c id sel scc typed sc env rest rest' plans.tail i v v' h2 hp.2 hu hl hc
      cases plans <;> exact this

theorem STy.update_planned (o : Order) (m : Machine) (t : STy) (d : Def) (hd : t.compile = some d)
    (plans : List (List (Option Temp))) (hp : t.plansFit plans = true) (v v' : Val)
    (hu : ((d.toTy m).updating plans).update v = (.ok (), v')) (hl : ∀ x ∈ v'.members, x.elems.length < 2 ^ 61) (env : Env)
    (hc : (t.loose plans).consistent o m [] [] env v' = true) : t.Planned plans v' := by
  cases t with
  | struct c fs =>
    unfold STy.compile at hd
    rw [STy.elab, if_neg (by simp)] at hd
    simp only [Option.bind_eq_bind, Option.bind_eq_some_iff, Option.pure_def, Option.some.injEq] at hd
    obtain ⟨sc, _, ds, h2, rfl⟩ := hd
    rw [Def.toTy] at hu
    replace hu : ((ds.toFields m).updating (plans.headD []) 0).update 0 v = (.ok (), v') := hu
    rw [STy.loose, STy.consistent] at hc
    have hv := SFields.consistent_visible o m c _ _ _ _ v' hc
    rw [SFields.loose_visible] at hv
    have hl' : ∀ x ∈ v'.elems, x.elems.length < 2 ^ 61 := by
      intro x hx
      cases v' with
      | variant i fs => cases hx
      | _ => exact hl x hx
    exact Fields.updating_planned hp (ds.toFields m) (Nat.le_of_eq (SFields.elab_visible m c sc fs ds h2).symm) v v'
      (Nat.le_of_eq hv.symm) hu hl'
  | enum c id vs =>
    unfold STy.compile at hd
    rw [STy.elab] at hd
    split at hd
    · cases hd
    simp only [Option.bind_eq_bind, Option.bind_eq_some_iff, Option.pure_def, Option.some.injEq] at hd
    obtain ⟨sc, _, did, _, ds, h2, rfl⟩ := hd
    rw [Def.toTy] at hu
    cases v with
    | variant i fs =>
      replace hu : ((((ds.toVariants m).updating plans).updateAt i fs).1,
        Val.variant i (((ds.toVariants m).updating plans).updateAt i fs).2) = (.ok (), v') := hu
      simp only [Prod.mk.injEq] at hu
      obtain ⟨hu1, rfl⟩ := hu
      rw [STy.loose, STy.consistent] at hc
      exact SVariants.updateAt_planned o m c id _ sc _ _ _ vs ds plans i fs _ h2 hp (Prod.ext hu1 rfl) hl hc
    | _ => cases hu
  | _ => trivial

end Deku
