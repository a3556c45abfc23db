import Verif.Model.Derive

/-!
# Specification vocabulary: which fields are skipped
-/

namespace Deku

inductive Direction
  | reading
  | writing

/-- `skip` names both directions, `skip(read)` and `skip(write)` one of them. -/
def SkipMode.Names : SkipMode → Direction → Prop
  | .all, _ => True
  | .read, .reading => True
  | .write, .writing => True
  | _, _ => False

/-- The field has an attribute `skip` naming this direction, and its `cond`, if any, is true. -/
def Attrs.Skipped (a : Attrs) (d : Direction) (env : Env) : Prop :=
  ∃ s, a.skip = some s ∧ s.Names d ∧ ∀ c, a.cond = some c → c env = true

/-- The field without `skip` and `cond`. -/
def Attrs.always (a : Attrs) : Attrs := { a with skip := none, cond := none }

/-- A field with no effect besides its value. -/
def Attrs.Plain (a : Attrs) : Prop :=
  a.seek = none ∧ a.magic = [] ∧ a.padBefore = none ∧ a.padAfter = none

/-- The value meets the assertions of the field. -/
def Attrs.Meets (a : Attrs) (env : Env) (v : Val) : Prop :=
  a.assert env v = true ∧ ∀ x, a.assertEq env = some x → v = x

end Deku
