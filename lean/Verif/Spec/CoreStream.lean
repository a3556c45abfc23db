import Verif.Model.Core

/-! # Specification vocabulary: definitions that are read without seeking -/

namespace Deku

/-- Padding of less than a byte. -/
def DAttrs.unpadded (a : DAttrs) : Bool := (a.padBefore.getD 0 < 8) && (a.padAfter.getD 0 < 8)

mutual

/-- All paddings are of less than a byte. `Vec<u8>` with a count, which is read with `ReadExact`, is allowed if
`lists`. -/
def Def.unpadded (lists : Bool) : Def → Bool
  | .leaf _ _ => true
  | .option t => t.unpadded lists
  | .array _ t => t.unpadded lists
  | .pair a b => a.unpadded lists && b.unpadded lists
  | .vec _ _ t => t.unpadded lists
  | .bytes _ _ => lists
  | .struct _ _ fs => fs.unpadded lists
  | .enum _ _ _ vs => vs.unpadded lists

def DFields.unpadded (lists : Bool) : DFields → Bool
  | .nil => true
  | .cons a t rest => a.unpadded && t.unpadded lists && rest.unpadded lists
  | .temp a t _ rest => a.unpadded && t.unpadded lists && rest.unpadded lists

def DVariants.unpadded (lists : Bool) : DVariants → Bool
  | .nil => true
  | .cons _ fs rest => fs.unpadded lists && rest.unpadded lists

end

end Deku
