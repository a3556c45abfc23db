import Verif.Spec.Conform
import Verif.Model.Source

/-!
# Specification vocabulary: sources

Conditions on the attributes as they are written, without regard to what the macros make of them.
-/

namespace Deku

/-! ### limits -/

/-- All limits written on the field. -/
def SAttrs.limits (a : SAttrs) : List Lim :=
  (a.count.map Lim.count).toList ++ (a.bytesRead.map Lim.bytes).toList ++ (a.bitsRead.map Lim.bits).toList ++
    (a.untilEq.map Lim.until).toList ++ (if a.readAll then [Lim.all] else [])

/-- `until` is the only limit if it is there. -/
def SAttrs.untilAlone (a : SAttrs) : Bool :=
  a.untilEq.isNone || (a.count.isNone && a.bytesRead.isNone && a.bitsRead.isNone)

/-- The field is read in every case. -/
def SAttrs.always (a : SAttrs) : Bool := (a.skip.isNone || decide (a.skip = some .write)) && a.cond.isNone

/-- In every list that is a field, every limit written on the field is kept: `before` are the fields before. The
values of temporary fields are not part of the value, but there were some. -/
def SFields.Kept : SFields → List Val → List Val → Val → Prop
  | .nil, _, _, _ => True
  | .cons a t rest, args, before, v =>
    if a.temp.isSome then ∃ x, rest.Kept args (before ++ [x]) v
    else ∃ x xs, v = .cons x xs ∧ rest.Kept args (before ++ [x]) xs ∧
      (a.always = true → (∃ u, t = .vec false u) → ∀ l ∈ a.limits, l.Allows args before x.elems)

def SFields.all (p : SAttrs → Bool) : SFields → Bool
  | .nil => true
  | .cons a _ rest => p a && rest.all p

/-! ### plain definitions -/

/-- `whole`: everything is given in bytes. `lax`: nothing is asserted, and paddings are shorter than 2^64 bits. -/
structure Style where
  whole : Bool
  lax : Bool

def CtxArg.noOrder : CtxArg → Bool
  | .order _ => false
  | _ => true

def padSmall (bits bytes : Option Nat) : Bool := decide (bits.getD 0 + 8 * bytes.getD 0 < 2 ^ 64)

/-- No bit orders; no bits if everything is given in bytes; no assertions. -/
def SAttrs.plain (s : Style) (a : SAttrs) : Bool :=
  a.order.isNone && a.ctx.all (·.noOrder) &&
  (!s.whole || (a.bits.isNone && a.padBitsBefore.isNone && a.padBitsAfter.isNone)) &&
  (!s.lax || (a.assertEq.isNone && padSmall a.padBitsBefore a.padBytesBefore &&
    padSmall a.padBitsAfter a.padBytesAfter))

def Container.plain (c : Container) : Bool :=
  c.order.isNone && (c.ctxDefault.getD []).all (·.noOrder)

/-- An id that is stored in a field does not get its endianness from the enum. -/
def SId.named (c : Container) (pat : Bool) : SId → Bool
  | .typed _ e _ _ => !pat || e.isSome || c.endian.isNone
  | .ctx _ => true

/-- The id is not given in bits, if everything is in bytes; and an id that is stored in a field does not get its
endianness from the enum. -/
def SId.plain (s : Style) (c : Container) (pat : Bool) : SId → Bool
  | .typed W endian bits bytes => (!s.whole || bits.isNone) && (SId.typed W endian bits bytes).named c pat
  | .ctx _ => true

def SVariants.isNil : SVariants → Bool
  | .nil => true
  | _ => false

mutual

/-- A definition in the bit order of the library. If not everything is given in bytes, there is no `Vec<u8>` with a
`count`. -/
def STy.plain (s : Style) : STy → Bool
  | .base _ => true
  | .option t => t.plain s
  | .array _ t => t.plain s
  | .pair a b => a.plain s && b.plain s
  | .vec _ t => t.plain s
  | .struct c fs => c.plain && fs.plain s
  | .enum c id vs => c.plain && id.plain s c vs.anyPat && !vs.isNil && vs.plain s

def SFields.plain (s : Style) : SFields → Bool
  | .nil => true
  | .cons a t rest => a.plain s && (s.whole || !(a.count.isSome && t.isVecU8)) && t.plain s && rest.plain s

def SVariants.plain (s : Style) : SVariants → Bool
  | .nil => true
  | .cons _ fs rest => fs.plain s && rest.plain s

end

/-! ### attributes of the type -/

/-- The field with the attributes of the type written on it. -/
def SAttrs.inherit (c : Container) (a : SAttrs) : SAttrs :=
  { a with endian := a.endian.or c.endian, order := a.order.or c.order }

def SId.spread (c : Container) : SId → SId
  | .typed W e bits bytes => .typed W (e.or c.endian) bits bytes
  | .ctx e => .ctx e

mutual

/-- The definition with the attributes `endian` and `bit_order` of each type written on its fields instead, and
`endian` of an enum as its `id_endian`. (`bit_order` of an enum stays: there is no other attribute for the id.) -/
def STy.spread : STy → STy
  | .base b => .base b
  | .option t => .option t.spread
  | .array n t => .array n t.spread
  | .pair a b => .pair a.spread b.spread
  | .vec z t => .vec z t.spread
  | .struct c fs => .struct { c with endian := none, order := none } (fs.spread c)
  | .enum c id vs => .enum { c with endian := none } (id.spread c) (vs.spread c)

def SFields.spread (c : Container) : SFields → SFields
  | .nil => .nil
  | .cons a t rest => .cons (a.inherit c) t.spread (rest.spread c)

/-- The field that stores the id has no attributes. -/
def SFields.spreadStored (c : Container) : SFields → SFields
  | .nil => .nil
  | .cons a t rest => .cons a t.spread (rest.spread c)

def SVariants.spread (c : Container) : SVariants → SVariants
  | .nil => .nil
  | .cons a fs rest =>
    .cons a (if a.kind.isPat then fs.spreadStored c else fs.spread c) (rest.spread c)

end

mutual

/-- No enum that stores its id in a field has an `endian` without an `id_endian`. -/
def STy.idsNamed : STy → Bool
  | .base _ => true
  | .option t => t.idsNamed
  | .array _ t => t.idsNamed
  | .pair a b => a.idsNamed && b.idsNamed
  | .vec _ t => t.idsNamed
  | .struct _ fs => fs.idsNamed
  | .enum c id vs => id.named c vs.anyPat && vs.idsNamed

def SFields.idsNamed : SFields → Bool
  | .nil => true
  | .cons _ t rest => t.idsNamed && rest.idsNamed

def SVariants.idsNamed : SVariants → Bool
  | .nil => true
  | .cons _ fs rest => fs.idsNamed && rest.idsNamed

end

end Deku
