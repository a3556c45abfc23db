import Verif.Model.Derive

/-!
# Specification vocabulary: `update`
-/

namespace Deku

/-- The fields with an `update` attribute: their numbers among the fields of the value (counted from
`i`), and the new value as a function of the value of the struct. -/
def Fields.updates : Fields → Nat → List (Nat × (Val → Except DekuError Val))
  | .nil, _ => []
  | .cons a _ rest, i =>
    match a.update with
    | none => rest.updates (i + 1)
    | some f => (i, f) :: rest.updates (i + 1)
  | .temp _ _ _ rest, i => rest.updates i

/-- Every field with an `update` attribute has the value the attribute asks for. -/
def Fields.Consistent (fs : Fields) (v : Val) : Prop :=
  ∀ u ∈ fs.updates 0, ∃ x, u.2 v = .ok x ∧ v.elems[u.1]? = some x

/-- The `update` expressions do not refer to fields that are updated themselves. -/
def Fields.Independent (fs : Fields) : Prop :=
  ∀ u ∈ fs.updates 0, ∀ u' ∈ fs.updates 0, ∀ v x, u.2 (v.set u'.1 x) = u.2 v

/-- `list.len()`, where `list` is field number `j`, converted to an unsigned type of `W` bytes with
`try_into()?`. -/
def lenOf (j W : Nat) (all : Val) : Except DekuError Val :=
  match all.elems[j]? with
  | some l => if l.elems.length < 256 ^ W then .ok (.num l.elems.length) else .error .parse
  | none => .error .parse

end Deku
