import Verif.Model.Source

/-!
# Sources that mean the same on every machine

An integer of more than one byte is given an endianness: by the field, by the type it is in, or in the arguments of the
field. The id of an enum is given one by `id_endian` or `endian`; if it is stored in a field, by `id_endian`.
-/

namespace Deku

/-- `endian`: an endianness is given; `both`: `bits` and `bit_order` are given. -/
def Base.portable (endian both : Bool) : Base → Bool
  | .uint W => endian || decide (W = 1)
  | .sint W => endian || (decide (W = 1) && !both)
  | .nonzero W => endian || decide (W = 1)
  | .nonzeroSigned W => endian || decide (W = 1)
  | .bool => true
  | .cstring => true
  | .unit => true

def CtxArg.isEndian : CtxArg → Bool
  | .endian _ => true
  | _ => false

/-- An endianness is given to the field. -/
def SAttrs.givesEndian (c : Container) (a : SAttrs) : Bool :=
  a.endian.isSome || c.endian.isSome || a.ctx.any CtxArg.isEndian

/-- A size in bits and perhaps a bit order are given to the field. -/
def SAttrs.givesBoth (c : Container) (a : SAttrs) : Bool :=
  a.bits.isSome && (a.order.isSome || c.order.isSome || !a.ctx.isEmpty)

def SId.portable (c : Container) (stored : Bool) : SId → Bool
  | .typed W idEndian _ _ => decide (W = 1) || idEndian.isSome || (!stored && c.endian.isSome)
  | .ctx _ => true

mutual

def STy.portable (endian both : Bool) : STy → Bool
  | .base b => b.portable endian both
  | .option t => t.portable endian both
  | .array _ t => t.portable endian both
  | .pair a b => a.portable endian both && b.portable endian both
  | .vec _ t => t.portable endian both
  | .struct c fs => fs.portable c
  | .enum c id vs => id.portable c vs.anyPat && vs.portable c

def SFields.portable (c : Container) : SFields → Bool
  | .nil => true
  | .cons a t rest => t.portable (a.givesEndian c) (a.givesBoth c) && rest.portable c

/-- The first field is the id. -/
def SFields.portableStored (c : Container) : SFields → Bool
  | .nil => true
  | .cons _ _ rest => rest.portable c

def SVariants.portable (c : Container) : SVariants → Bool
  | .nil => true
  | .cons a fs rest => (if a.kind.isPat then fs.portableStored c else fs.portable c) && rest.portable c

end

/-- A type parsed by `from_bytes`. -/
def STy.Portable (t : STy) : Prop := t.portable false false = true

instance (t : STy) : Decidable t.Portable := by unfold STy.Portable; infer_instance

end Deku
