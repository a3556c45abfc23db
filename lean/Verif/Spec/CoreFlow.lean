import Verif.Spec.CoreStream

/-! # Specification vocabulary: definitions that end where their bits end -/

namespace Deku

mutual

/-- No `read_all`: where the message ends does not depend on where the input ends. -/
def Def.bounded : Def → Bool
  | .leaf _ _ => true
  | .option t => t.bounded
  | .array _ t => t.bounded
  | .pair a b => a.bounded && b.bounded
  | .vec _ l t => decide (l ≠ .all) && t.bounded
  | .bytes _ _ => true
  | .struct _ _ fs => fs.bounded
  | .enum _ _ _ vs => vs.bounded

def DFields.bounded : DFields → Bool
  | .nil => true
  | .cons _ t rest => t.bounded && rest.bounded
  | .temp _ t _ rest => t.bounded && rest.bounded

def DVariants.bounded : DVariants → Bool
  | .nil => true
  | .cons _ fs rest => fs.bounded && rest.bounded

end

mutual

/-- No `Vec<u8>` with a count, which is read with `ReadExact`. -/
def Def.unlisted : Def → Bool
  | .leaf _ _ => true
  | .option t => t.unlisted
  | .array _ t => t.unlisted
  | .pair a b => a.unlisted && b.unlisted
  | .vec _ _ t => t.unlisted
  | .bytes _ _ => false
  | .struct _ _ fs => fs.unlisted
  | .enum _ _ _ vs => vs.unlisted

def DFields.unlisted : DFields → Bool
  | .nil => true
  | .cons _ t rest => t.unlisted && rest.unlisted
  | .temp _ t _ rest => t.unlisted && rest.unlisted

def DVariants.unlisted : DVariants → Bool
  | .nil => true
  | .cons _ fs rest => fs.unlisted && rest.unlisted

end

/-- The definitions of C56: no `read_all`, and not both a `Vec<u8>` with a count and a padding of a byte or more. -/
def Def.cuttable (d : Def) : Bool := d.bounded && (d.unlisted || d.unpadded true)

end Deku
