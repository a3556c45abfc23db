import Verif.Model.Source

/-!
# Fields added at the end of a message

A protocol also grows by longer messages: fields are added at the end of the last struct or variant of a message. An
`Edit` says where; `Makes` says that one definition is obtained from another one by adding fields there, and `cut` takes
the added fields away from a value.
-/

namespace Deku

mutual

/-- Where fields are added in a type. -/
inductive Edit
  | same
  | option (e : Edit)
  /-- In the second part. -/
  | pair (e : Edit)
  | struct (e : FEdit)
  | enum (e : VEdit)

/-- Where fields are added in the fields of a struct or of a variant. -/
inductive FEdit
  | same
  /-- There are no more fields, and some are added. -/
  | more
  /-- Not in the first field. -/
  | field (e : FEdit)
  /-- Not in the first field, which is temporary. -/
  | temp (e : FEdit)
  /-- In the type of the first field, which is the last one. -/
  | last (e : Edit)

inductive VEdit
  | nil
  | cons (e : FEdit) (rest : VEdit)

end

/-! ## Values -/

mutual

/-- The value without the added fields. -/
def Edit.cut : Edit → Val → Val
  | .same, v => v
  | .option e, v => match v with | .some x => .some (e.cut x) | v => v
  | .pair e, v => match v with | .cons x (.cons y z) => .cons x (.cons (e.cut y) z) | v => v
  | .struct e, v => e.cut v
  | .enum e, v => match v with | .variant i fs => .variant i (e.cut i fs) | v => v

def FEdit.cut : FEdit → Val → Val
  | .same, v => v
  | .more, _ => .nil
  | .field e, v => match v with | .cons x xs => .cons x (e.cut xs) | v => v
  | .temp e, v => e.cut v
  | .last e, v => match v with | .cons x xs => .cons (e.cut x) xs | v => v

/-- The fields of variant number `i`. -/
def VEdit.cut : VEdit → Nat → Val → Val
  | .nil, _, v => v
  | .cons e _, 0, v => e.cut v
  | .cons _ rest, i + 1, v => rest.cut i v

end

mutual

/-- Where something is cut, the value has the shape it has in the type. -/
def Edit.Shaped : Edit → Val → Prop
  | .same, _ => True
  | .option e, v => match v with | .some x => e.Shaped x | _ => True
  | .pair e, v => match v with | .cons _ (.cons y z) => z = .nil ∧ e.Shaped y | _ => True
  | .struct e, v => e.Shaped v
  | .enum e, v => match v with | .variant i fs => e.Shaped i fs | _ => True

def FEdit.Shaped : FEdit → Val → Prop
  | .same, _ => True
  | .more, _ => True
  | .field e, v => match v with | .cons _ xs => e.Shaped xs | _ => True
  | .temp e, v => e.Shaped v
  | .last e, v => match v with | .cons x xs => xs = .nil ∧ e.Shaped x | _ => True

def VEdit.Shaped : VEdit → Nat → Val → Prop
  | .nil, _, _ => True
  | .cons e _, 0, v => e.Shaped v
  | .cons _ rest, i + 1, v => rest.Shaped i v

end

/-! ## Emitted code -/

/-- Nothing is done to the field but reading and writing it, after what comes before. -/
structure Attrs.Bare (a : Attrs) : Prop where
  isRead : ∀ env, a.isRead env = true
  isWritten : ∀ env, a.isWritten env = true
  map : ∀ env v, a.map env v = .ok v
  unmap : ∀ env v, a.unmap env v = v
  assert : ∀ env v, a.assert env v = true
  assertEq : ∀ env, a.assertEq env = none
  padAfter : a.padAfter = none

/-- The first field stays as it is. -/
def FEdit.keepsFirst : FEdit → Bool
  | .more => false
  | .last _ => false
  | _ => true

mutual

/-- `new` is `old` with fields of `Q` added there. -/
def Edit.Makes (Q : Fields → Prop) : Edit → Ty → Ty → Prop
  | .same, old, new => new = old
  | .option e, old, new => ∃ t t', old = .option t ∧ new = .option t' ∧ e.Makes Q t t'
  | .pair e, old, new => ∃ a b b', old = .pair a b ∧ new = .pair a b' ∧ e.Makes Q b b'
  | .struct e, old, new => ∃ args seek magic fs fs', old = .struct args seek magic fs ∧
      new = .struct args seek magic fs' ∧ e.Makes Q fs fs'
  | .enum e, old, new => ∃ args magic id store vs vs', old = .enum args magic id store vs ∧
      new = .enum args magic id store vs' ∧ e.Makes Q vs vs'

def FEdit.Makes (Q : Fields → Prop) : FEdit → Fields → Fields → Prop
  | .same, old, new => new = old
  | .more, old, new => old = .nil ∧ Q new
  | .field e, old, new => ∃ a t rest rest', old = .cons a t rest ∧ new = .cons a t rest' ∧ e.Makes Q rest rest'
  | .temp e, old, new => ∃ a t value rest rest', old = .temp a t value rest ∧ new = .temp a t value rest' ∧
      e.Makes Q rest rest'
  | .last e, old, new => ∃ a t t', old = .cons a t .nil ∧ new = .cons a t' .nil ∧ a.Bare ∧ e.Makes Q t t'

/-- A field that stores the id stays what it is. -/
def VEdit.Makes (Q : Fields → Prop) : VEdit → Variants → Variants → Prop
  | .nil, old, new => old = .nil ∧ new = .nil
  | .cons e rest, old, new => ∃ a fs fs' vs vs', old = .cons a fs vs ∧ new = .cons a fs' vs' ∧ e.Makes Q fs fs' ∧
      (a.idPat = true → e.keepsFirst = true) ∧ rest.Makes Q vs vs'

end

/-- The values of the temporary fields. -/
def Fields.temps : Fields → List (Val → Val)
  | .nil => []
  | .cons _ _ rest => rest.temps
  | .temp _ _ value rest => value.toList ++ rest.temps

mutual

/-- The values of the temporary fields do not depend on what is added. -/
def Edit.Temps : Edit → Ty → Prop
  | .same, _ => True
  | .option e, old => match old with | .option t => e.Temps t | _ => True
  | .pair e, old => match old with | .pair _ b => e.Temps b | _ => True
  | .struct e, old => match old with | .struct _ _ _ fs => (∀ f ∈ fs.temps, ∀ u, f (e.cut u) = f u) ∧ e.Temps fs | _ => True
  | .enum e, old => match old with | .enum _ _ _ _ vs => e.Temps vs | _ => True

def FEdit.Temps : FEdit → Fields → Prop
  | .same, _ => True
  | .more, _ => True
  | .field e, old => match old with | .cons _ _ rest => e.Temps rest | _ => True
  | .temp e, old => match old with | .temp _ _ _ rest => e.Temps rest | _ => True
  | .last e, old => match old with | .cons _ t .nil => e.Temps t | _ => True

def VEdit.Temps : VEdit → Variants → Prop
  | .nil, _ => True
  | .cons e rest, old => match old with
    | .cons _ fs vs => (∀ f ∈ fs.temps, ∀ u, f (e.cut u) = f u) ∧ e.Temps fs ∧ rest.Temps vs
    | _ => True

end

/-! ## Sources -/

/-- The attributes of a field that is always read and written, with nothing after it. -/
def SAttrs.bare (a : SAttrs) : Bool :=
  a.skip.isNone && a.cond.isNone && a.assertEq.isNone && a.padBitsAfter.isNone && a.padBytesAfter.isNone &&
    a.temp.isNone

/-- The number of fields that stay as they are, temporary fields not counted. -/
def FEdit.kept : FEdit → Nat
  | .same | .more | .last _ => 0
  | .field e => e.kept + 1
  | .temp e => e.kept

/-- The temporary fields before the added ones refer to fields that stay as they are. -/
def FEdit.refers (kept : Nat) : FEdit → SFields → Bool
  | .same, .nil => true
  | .same, .cons _ _ _ => false
  | .more, _ => true
  | .last _, _ => true
  | .field e, fs => match fs with | .cons _ _ rest => e.refers kept rest | .nil => false
  | .temp e, fs => match fs with
    | .cons a _ rest => (match a.temp with | some t => decide (t.field < kept) | none => false) && e.refers kept rest
    | .nil => false

mutual

/-- `new` is `old` with fields added there. -/
def Edit.MakesS : Edit → STy → STy → Prop
  | .same, old, new => new = old
  | .option e, old, new => ∃ t t', old = .option t ∧ new = .option t' ∧ e.MakesS t t'
  | .pair e, old, new => ∃ a b b', old = .pair a b ∧ new = .pair a b' ∧ e.MakesS b b'
  | .struct e, old, new => ∃ c fs fs', old = .struct c fs ∧ new = .struct c fs' ∧ e.MakesS fs fs' ∧
      e.refers e.kept fs = true
  | .enum e, old, new => ∃ c id vs vs', old = .enum c id vs ∧ new = .enum c id vs' ∧ e.MakesS vs vs'

def FEdit.MakesS : FEdit → SFields → SFields → Prop
  | .same, old, new => new = old
  | .more, old, _ => old = .nil
  | .field e, old, new => ∃ a t rest rest', old = .cons a t rest ∧ new = .cons a t rest' ∧ a.temp = none ∧
      e.MakesS rest rest'
  | .temp e, old, new => ∃ a t rest rest', old = .cons a t rest ∧ new = .cons a t rest' ∧ a.temp.isSome = true ∧
      e.MakesS rest rest'
  | .last e, old, new => ∃ a t t', old = .cons a t .nil ∧ new = .cons a t' .nil ∧ a.bare = true ∧ e.MakesS t t'

def VEdit.MakesS : VEdit → SVariants → SVariants → Prop
  | .nil, old, new => old = .nil ∧ new = .nil
  | .cons e rest, old, new => ∃ a fs fs' vs vs', old = .cons a fs vs ∧ new = .cons a fs' vs' ∧ e.MakesS fs fs' ∧
      (e = .same ∨ e.refers e.kept fs = true) ∧ (a.kind.isPat = true → e.keepsFirst = true) ∧ rest.MakesS vs vs'

end

end Deku
