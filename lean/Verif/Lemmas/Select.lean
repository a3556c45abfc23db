import Verif.Lemmas.FitsSound

/-! # The variant an id selects -/

namespace Deku

open Reader Writer Coll

/-- The index of the first element with a property, counted from `k`. -/
theorem Variants.firstMatch_some {env : Env} {x : Val} : ∀ {vs : Variants} {k i : Nat},
    vs.firstMatch env x k = some i ↔ ∃ d a, i = k + d ∧ vs.toList[d]? = some a ∧
      a.1.pat env x = true ∧ ∀ j b, j < d → vs.toList[j]? = some b → b.1.pat env x = false
  | .nil, k, i => by simp [Variants.firstMatch, Variants.toList]
  | .cons a fs tl, k, i => by
    simp only [Variants.firstMatch, Variants.toList]
    by_cases h : a.pat env x = true
    · rw [if_pos h]
      constructor
      · intro hi
        simp at hi
        exact ⟨0, (a, fs), by omega, rfl, h, fun j b hj => by omega⟩
      · rintro ⟨d, b, rfl, hb, hp, hall⟩
        cases d with
        | zero => simp
        | succ d => have := hall 0 (a, fs) (by omega) rfl; rw [h] at this; simp at this
    · rw [if_neg h, Variants.firstMatch_some]
      constructor
      · rintro ⟨d, b, rfl, hb, hp, hall⟩
        refine ⟨d + 1, b, by omega, by simpa using hb, hp, fun j c hj hc => ?_⟩
        cases j with
        | zero => simp at hc; subst hc; simpa using h
        | succ j => exact hall j c (by omega) (by simpa using hc)
      · rintro ⟨d, b, rfl, hb, hp, hall⟩
        cases d with
        | zero => simp at hb; subst hb; exact absurd hp h
        | succ d =>
          exact ⟨d, b, by omega, by simpa using hb, hp, fun j c hj hc =>
            hall (j + 1) c (by omega) (by simpa using hc)⟩

theorem Variants.firstMatch_none {env : Env} {x : Val} : ∀ {vs : Variants} {k : Nat},
    vs.firstMatch env x k = none ↔ ∀ a ∈ vs.toList, a.1.pat env x = false
  | .nil, k => by simp [Variants.firstMatch, Variants.toList]
  | .cons a fs tl, k => by
    simp only [Variants.firstMatch, Variants.toList]
    by_cases h : a.pat env x = true
    · simp [h]
    · rw [if_neg h, Variants.firstMatch_none]
      simp at h
      simp [h]

theorem Variants.defaultAt_some : ∀ {vs : Variants} {k i : Nat},
    vs.defaultAt k = some i ↔ ∃ d a, i = k + d ∧ vs.toList[d]? = some a ∧
      a.1.default = true ∧ ∀ j b, j < d → vs.toList[j]? = some b → b.1.default = false
  | .nil, k, i => by simp [Variants.defaultAt, Variants.toList]
  | .cons a fs tl, k, i => by
    simp only [Variants.defaultAt, Variants.toList]
    by_cases h : a.default = true
    · rw [if_pos h]
      constructor
      · intro hi
        simp at hi
        exact ⟨0, (a, fs), by omega, rfl, h, fun j b hj => by omega⟩
      · rintro ⟨d, b, rfl, hb, hp, hall⟩
        cases d with
        | zero => simp
        | succ d => have := hall 0 (a, fs) (by omega) rfl; rw [h] at this; simp at this
    · rw [if_neg h, Variants.defaultAt_some]
      constructor
      · rintro ⟨d, b, rfl, hb, hp, hall⟩
        refine ⟨d + 1, b, by omega, by simpa using hb, hp, fun j c hj hc => ?_⟩
        cases j with
        | zero => simp at hc; subst hc; simpa using h
        | succ j => exact hall j c (by omega) (by simpa using hc)
      · rintro ⟨d, b, rfl, hb, hp, hall⟩
        cases d with
        | zero => simp at hb; subst hb; exact absurd hp h
        | succ d =>
          exact ⟨d, b, by omega, by simpa using hb, hp, fun j c hj hc =>
            hall (j + 1) c (by omega) (by simpa using hc)⟩

theorem Variants.defaultAt_none : ∀ {vs : Variants} {k : Nat},
    vs.defaultAt k = none ↔ ∀ a ∈ vs.toList, a.1.default = false
  | .nil, k => by simp [Variants.defaultAt, Variants.toList]
  | .cons a fs tl, k => by
    simp only [Variants.defaultAt, Variants.toList]
    by_cases h : a.default = true
    · simp [h]
    · rw [if_neg h, Variants.defaultAt_none]
      simp at h
      simp [h]

theorem Variants.select_some {env : Env} {x : Val} {vs : Variants} {i : Nat} :
    vs.select env x = some i ↔ Selects env x vs.toList i := by
  unfold Variants.select Selects
  constructor
  · intro h
    cases hf : vs.firstMatch env x 0 with
    | some k =>
      rw [hf] at h
      simp at h
      subst h
      obtain ⟨d, a, rfl, ha, hp, hall⟩ := Variants.firstMatch_some.1 hf
      rw [Nat.zero_add]
      exact ⟨a, ha, .inl ⟨hp, hall⟩⟩
    | none =>
      rw [hf] at h
      simp at h
      obtain ⟨d, a, rfl, ha, hp, hall⟩ := Variants.defaultAt_some.1 h
      rw [Nat.zero_add]
      exact ⟨a, ha, .inr ⟨Variants.firstMatch_none.1 hf, hp, hall⟩⟩
  · rintro ⟨a, ha, ⟨hp, hall⟩ | ⟨hn, hd, hall⟩⟩
    · rw [(Variants.firstMatch_some (k := 0) (i := i)).2 ⟨i, a, by omega, ha, hp, hall⟩]
    · rw [(Variants.firstMatch_none (k := 0)).2 hn]
      exact (Variants.defaultAt_some (k := 0) (i := i)).2 ⟨i, a, by omega, ha, hd, hall⟩

theorem Variants.select_none {env : Env} {x : Val} {vs : Variants} :
    vs.select env x = none ↔ ∀ a ∈ vs.toList, a.1.pat env x = false ∧ a.1.default = false := by
  unfold Variants.select
  constructor
  · intro h
    cases hf : vs.firstMatch env x 0 with
    | some k => rw [hf] at h; simp at h
    | none =>
      rw [hf] at h
      exact fun a ha => ⟨Variants.firstMatch_none.1 hf a ha, Variants.defaultAt_none.1 h a ha⟩
  · intro h
    rw [(Variants.firstMatch_none (k := 0)).2 fun a ha => (h a ha).1]
    exact Variants.defaultAt_none.2 fun a ha => (h a ha).2

theorem Variants.readAt_eq (m : Machine) (env : Env) (x : Val) (typed : Bool) {a : VAttrs}
    {fs : Fields} : ∀ {vs : Variants} {i : Nat}, vs.toList[i]? = some (a, fs) →
    vs.readAt m env x typed i =
      if a.idPat && typed then fs.readStored m env x else fs.read m env
  | .nil, i, h => by simp [Variants.toList] at h
  | .cons b gs tl, 0, h => by
    simp [Variants.toList] at h
    simp only [Variants.readAt, h.1, h.2]
  | .cons b gs tl, i + 1, h => by
    simp only [Variants.toList, List.getElem?_cons_succ] at h
    simp only [Variants.readAt]
    exact Variants.readAt_eq m env x typed h

theorem Variants.fitsAt (m : Machine) (o : Order) (sel : Val → Prop) (id : IdSrc)
    (store : Env → Val → M Writer Unit) {a : VAttrs} {fs : Fields} {P Q : Nat → Prop} {env : Env}
    {v : Val} (hf : Variants.FitsAt m o sel id store (.cons a fs .nil) 0 P Q env v) :
    ∀ {vs : Variants} {i : Nat}, vs.toList[i]? = some (a, fs) →
      vs.FitsAt m o sel id store i P Q env v
  | .nil, i, h => by simp [Variants.toList] at h
  | .cons b gs tl, 0, h => by
    simp [Variants.toList] at h
    simp only [Variants.FitsAt, h.1, h.2] at hf ⊢
    exact hf
  | .cons b gs tl, i + 1, h => by
    simp only [Variants.toList, List.getElem?_cons_succ] at h
    simp only [Variants.FitsAt]
    exact Variants.fitsAt m o sel id store hf h

theorem Variants.writeAt_eq (m : Machine) (env : Env) (id : IdSrc)
    (store : Env → Val → M Writer Unit) (v : Val) {a : VAttrs} {fs : Fields} :
    ∀ {vs : Variants} {i : Nat}, vs.toList[i]? = some (a, fs) →
      vs.writeAt m env id store i v = Variants.writeAt m (.cons a fs .nil) env id store 0 v
  | .nil, i, h => by simp [Variants.toList] at h
  | .cons b gs tl, 0, h => by
    simp [Variants.toList] at h
    simp only [Variants.writeAt, h.1, h.2]
  | .cons b gs tl, i + 1, h => by
    simp only [Variants.toList, List.getElem?_cons_succ] at h
    rw [← Variants.writeAt_eq m env id store v h]
    simp only [Variants.writeAt]

end Deku
