import Verif.Lemmas.Select

/-! # `deku_id` -/

namespace Deku

open Reader Writer Coll

theorem Variants.dekuIdAt_eq {a : VAttrs} {fs : Fields} : ∀ {vs : Variants} {i : Nat},
    vs.toList[i]? = some (a, fs) → vs.dekuIdAt i = Variants.dekuIdAt (.cons a fs .nil) 0
  | .nil, i, h => by simp [Variants.toList] at h
  | .cons b gs tl, 0, h => by
    simp [Variants.toList] at h
    simp only [Variants.dekuIdAt, h.1]
  | .cons b gs tl, i + 1, h => by
    simp only [Variants.toList, List.getElem?_cons_succ] at h
    simp only [Variants.dekuIdAt]
    rw [Variants.dekuIdAt_eq h]
    simp only [Variants.dekuIdAt]

theorem Variants.dekuIdAt_none : ∀ {vs : Variants} {i : Nat}, vs.toList[i]? = none → vs.dekuIdAt i = .panic
  | .nil, i, h => by simp only [Variants.dekuIdAt]
  | .cons b gs tl, 0, h => by simp [Variants.toList] at h
  | .cons b gs tl, i + 1, h => by
    simp only [Variants.toList, List.getElem?_cons_succ] at h
    simp only [Variants.dekuIdAt]
    exact Variants.dekuIdAt_none h

theorem Variants.dekuIdAt_ok {vs : Variants} {i : Nat} {x : Val} :
    vs.dekuIdAt i = .ok x ↔ ∃ a fs, vs.toList[i]? = some (a, fs) ∧ a.id = some x ∧ a.discr = false := by
  cases h : vs.toList[i]? with
  | none => rw [Variants.dekuIdAt_none h]; simp
  | some b =>
    obtain ⟨a, fs⟩ := b
    rw [Variants.dekuIdAt_eq h]
    simp only [Variants.dekuIdAt]
    cases hd : a.discr <;> cases hi : a.id <;> simp [hd, hi]

theorem Variants.dekuIdAt_err {vs : Variants} {i : Nat} :
    vs.dekuIdAt i = .err .idVariantNotFound ↔
      ∃ a fs, vs.toList[i]? = some (a, fs) ∧ (a.id = none ∨ a.discr = true) := by
  cases h : vs.toList[i]? with
  | none => rw [Variants.dekuIdAt_none h]; simp
  | some b =>
    obtain ⟨a, fs⟩ := b
    rw [Variants.dekuIdAt_eq h]
    simp only [Variants.dekuIdAt]
    cases hd : a.discr <;> cases hi : a.id <;> simp [hd, hi]

end Deku
