import Verif.Model.Unsafe

/-! # Specification vocabulary: the values an array read creates -/

namespace Deku.Unsafe

/-- The values of up to `n` consecutive reads, up to the first one that fails. -/
def produced {α : Type} (read : M Reader α) : Nat → Reader → List α
  | 0, _ => []
  | n + 1, r =>
    match read r with
    | (.ok a, r') => a :: produced read n r'
    | _ => []

/-- The values that are in some slot. -/
def Mem.live {α : Type} (m : Mem α) : List α :=
  m.slots.filterMap fun | .init a => some a | _ => none

end Deku.Unsafe
