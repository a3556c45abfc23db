import Verif.Spec.Faithful

/-!
# Specification vocabulary: lists that go on to the end

A list with `read_all` at the end of a source, and the source in which it has a size instead.
-/

namespace Deku

def Lim.closing (n : Nat) : Lim → Lim
  | .all => .bits (.lit n)
  | l => l

/-- `bits_read = n` where there is `read_all`. -/
def SAttrs.closing (n : Nat) (a : SAttrs) : SAttrs :=
  if a.readAll then { a with readAll := false, bitsRead := some (.lit n) } else a

mutual

/-- `bits_read = n` for every `read_all`. -/
def STy.closing (n : Nat) : STy → STy
  | .base b => .base b
  | .option t => .option (t.closing n)
  | .array k t => .array k (t.closing n)
  | .pair a b => .pair (a.closing n) (b.closing n)
  | .vec zst t => .vec zst (t.closing n)
  | .struct c fs => .struct c (fs.closing n)
  | .enum c id vs => .enum c id (vs.closing n)

def SFields.closing (n : Nat) : SFields → SFields
  | .nil => .nil
  | .cons a t rest => .cons (a.closing n) (t.closing n) (rest.closing n)

def SVariants.closing (n : Nat) : SVariants → SVariants
  | .nil => .nil
  | .cons a fs rest => .cons a (fs.closing n) (rest.closing n)

end

mutual

/-- There is no `read_all`. -/
def STy.limited : STy → Bool
  | .base _ => true
  | .option t => t.limited
  | .array _ t => t.limited
  | .pair a b => a.limited && b.limited
  | .vec _ t => t.limited
  | .struct _ fs => fs.limited
  | .enum _ _ vs => vs.limited

def SFields.limited : SFields → Bool
  | .nil => true
  | .cons a t rest => !a.readAll && t.limited && rest.limited

def SVariants.limited : SVariants → Bool
  | .nil => true
  | .cons _ fs rest => fs.limited && rest.limited

end

/-- `read_all` is the only limit if it is there. -/
def SAttrs.allAlone (a : SAttrs) : Bool :=
  !a.readAll || (a.count.isNone && a.bytesRead.isNone && a.bitsRead.isNone && a.untilEq.isNone)

/-- The fields are not in the input. -/
def SFields.silent : SFields → Bool
  | .nil => true
  | .cons a t rest =>
    decide (a.skip = some .read ∨ a.skip = some .all) && a.cond.isNone && a.magic.isEmpty && a.padless && !a.readAll &&
      t.limited && rest.silent

mutual

/-- There is `read_all` only at the end. `lims` are the limits written on the field. -/
def STy.openEnded : STy → List Lim → Bool
  | .base _, _ => true
  | .option t, lims => t.openEnded lims
  | .array _ t, lims => t.limited && decide (Lim.all ∉ lims)
  | .pair a b, lims => a.limited && decide (Lim.all ∉ lims) && b.openEnded lims
  | .vec _ t, _ => t.limited
  | .struct _ fs, _ => fs.openEnded
  | .enum _ _ vs, _ => vs.openEnded

def SFields.openEnded : SFields → Bool
  | .nil => true
  | .cons a t rest =>
    (!a.readAll && t.limited && rest.openEnded) ||
    (a.allAlone && t.openEnded a.limits && a.padBitsAfter.isNone && a.padBytesAfter.isNone && rest.silent)

def SVariants.openEnded : SVariants → Bool
  | .nil => true
  | .cons _ fs rest => fs.openEnded && rest.openEnded

end

mutual

/-- Every value has a list with `read_all` that is read. -/
def STy.takesAll : STy → List Lim → Bool
  | .base _, _ => false
  | .option t, lims => t.takesAll lims
  | .array _ _, _ => false
  | .pair a b, lims => a.takesAll lims || b.takesAll lims
  | .vec zst _, lims => !zst && decide (lims = [.all])
  | .struct _ fs, _ => fs.takesAll
  | .enum _ _ vs, _ => vs.takesAll

def SFields.takesAll : SFields → Bool
  | .nil => false
  | .cons a t rest => (a.always && t.takesAll a.limits) || rest.takesAll

def SVariants.takesAll : SVariants → Bool
  | .nil => true
  | .cons a fs rest => (if a.kind.isPat then fs.tailTakesAll else fs.takesAll) && rest.takesAll

/-- The fields without the first one, which may store the id. -/
def SFields.tailTakesAll : SFields → Bool
  | .nil => false
  | .cons _ _ rest => rest.takesAll

end

end Deku
