import Verif.Spec.Parse

/-!
# Specification vocabulary: sources all of whose values can be written again

Sources of which every value that is parsed is one that is described (`Spec/Consistent.lean`), and those in which every
bit of the input is part of the value. Both are told from the attributes alone.
-/

namespace Deku

/-- Negative numbers are written as they are read; a string is given in whole bytes. -/
def Base.faithful (args : List Arg) : Base → Bool
  | .sint W | .nonzeroSigned W => signKept args W
  | .cstring => decide ((sizeOf? args).getD 0 % 8 = 0)
  | _ => true

/-- A list has one limit, and not `read_all`; the elements of one with a size begin with a bit. -/
def limsFaithful (eager : Bool) : List Lim → Bool
  | [.count _] | [.until _] => true
  | [.bytes _] | [.bits _] => eager
  | _ => false

/-- A field that is not read is not written: either both, by `skip`, or it is `None`. There is no `temp`, whose values
the attributes do not relate. -/
def SAttrs.faithful (a : SAttrs) (t : STy) : Bool :=
  a.temp.isNone &&
  match a.skip, a.cond with
  | none, none | some .all, _ => true
  | none, some _ => t.isOption && a.default.isNone
  | _, _ => false

/-- The variants that are used by default store the id. -/
def DVAttrs.faithful (a : DVAttrs) : Bool := !a.default || a.kind.isPat

mutual

/-- What is parsed can be written. -/
def STy.faithful : STy → List Lim → List Arg → Bool
  | .base b, _, args => b.faithful args
  | .option t, lims, args => t.faithful lims args
  | .array _ t, lims, args => t.faithful lims args
  | .pair a b, lims, args => a.faithful lims args && b.faithful lims args
  | .vec zst t, lims, args => !zst && limsFaithful (t.eager args) lims && t.faithful [] args
  | .struct c fs, _, args => fs.faithful c (c.scope args)
  | .enum c id vs, _, args => (id.size.isNone || vs.heads.all (·.faithful)) && vs.faithful c (c.scope args)

def SFields.faithful (c : Container) : SFields → List Arg → Bool
  | .nil, _ => true
  | .cons a t rest, sc => a.faithful t && t.faithful a.limits (a.passes c sc) && rest.faithful c sc

def SVariants.faithful (c : Container) : SVariants → List Arg → Bool
  | .nil, _ => true
  | .cons _ fs rest, sc => fs.faithful c sc && rest.faithful c sc

end

def SAttrs.padless (a : SAttrs) : Bool :=
  a.padBitsBefore.isNone && a.padBytesBefore.isNone && a.padBitsAfter.isNone && a.padBytesAfter.isNone

mutual

/-- There are no paddings: every bit is part of the value. -/
def STy.padless : STy → Bool
  | .base _ => true
  | .option t => t.padless
  | .array _ t => t.padless
  | .pair a b => a.padless && b.padless
  | .vec _ t => t.padless
  | .struct _ fs => fs.padless
  | .enum _ _ vs => vs.padless

def SFields.padless : SFields → Bool
  | .nil => true
  | .cons a t rest => a.padless && t.padless && rest.padless

def SVariants.padless : SVariants → Bool
  | .nil => true
  | .cons _ fs rest => fs.padless && rest.padless

end

end Deku
