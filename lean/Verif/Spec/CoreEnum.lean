import Verif.Model.Core

/-! # Specification vocabulary: which ids the variants of an enum are for -/

namespace Deku

/-- The ids written as `n`, `lo..=hi` and `_`. -/
def VKind.ids : VKind → Int → Prop
  | .id n, x => x = n
  | .range lo hi, x => lo ≤ x ∧ x ≤ hi
  | .any, _ => True

/-- The variants in source order. -/
def DVariants.toList : DVariants → List (DVAttrs × DFields)
  | .nil => []
  | .cons a fs rest => (a, fs) :: rest.toList

/-- Variant `i` is the one for the id `x`: the first one that is for it, or none is and it is the first default
one. -/
def DVariants.For (vs : DVariants) (x : Int) (i : Nat) : Prop :=
  ∃ a, vs.toList[i]? = some a ∧
    ((a.1.kind.ids x ∧ ∀ j b, j < i → vs.toList[j]? = some b → ¬ b.1.kind.ids x) ∨
      ((∀ b ∈ vs.toList, ¬ b.1.kind.ids x) ∧ a.1.default = true ∧
        ∀ j b, j < i → vs.toList[j]? = some b → b.1.default = false))

end Deku
