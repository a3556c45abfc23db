import Verif.Spec.CoreSafe

/-!
# Specification vocabulary: how often a parser calls its source

`Src.calls` counts the calls of `read_exact`, `seek` and `stream_position`. `Def.calls` and `Def.callRate` are two
numbers computed from a definition: the calls that may be made whatever is read, and those that come with a bit.
-/

namespace Deku

/-- The calls for a leaf: an integer of `W` bytes that does not start at a byte is read byte by byte. -/
def Leaf.calls : Leaf → Nat
  | .uint W _ | .nonzero W _ | .sint W _ | .nonzeroSigned W _ => W + 1
  | .bool _ => 2
  | .cstring | .cstringSized _ => 3
  | .unit => 0

/-- The calls for one more bit of a leaf. -/
def Leaf.callRate : Leaf → Nat
  | .cstring | .cstringSized _ => 3
  | _ => 0

/-- Magic bytes are read one by one, padding takes at most a seek and a read. -/
def DAttrs.calls (a : DAttrs) : Nat :=
  2 * a.magic.length + (if a.padBefore.isSome then 2 else 0) + (if a.padAfter.isSome then 2 else 0)

mutual

/-- The calls that do not depend on how much is read. -/
def Def.calls : Def → Nat
  | .leaf _ l => l.calls
  | .option t => t.calls
  | .array n t => n * t.calls
  | .pair a b => a.calls + b.calls
  | .vec _ _ t => t.calls + 1
  | .bytes _ _ => 4
  | .struct _ magic fs => 2 * magic.length + fs.calls
  | .enum _ magic id vs =>
    2 * magic.length + (match id with | .typed _ W _ _ => W + 1 | .arg _ => 0) + vs.calls

def DFields.calls : DFields → Nat
  | .nil => 0
  | .cons a t rest => a.calls + t.calls + rest.calls
  | .temp a t _ rest => a.calls + t.calls + rest.calls

def DVariants.calls : DVariants → Nat
  | .nil => 0
  | .cons _ fs rest => max fs.calls rest.calls

end

mutual

/-- The calls that come with a bit. -/
def Def.callRate : Def → Nat
  | .leaf _ l => l.callRate
  | .option t => t.callRate
  | .array _ t => t.callRate
  | .pair a b => max a.callRate b.callRate
  | .vec _ _ t => t.calls + t.callRate + 1
  | .bytes _ _ => 1
  | .struct _ _ fs => fs.callRate
  | .enum _ _ _ vs => vs.callRate

def DFields.callRate : DFields → Nat
  | .nil => 0
  | .cons _ t rest => max t.callRate rest.callRate
  | .temp _ t _ rest => max t.callRate rest.callRate

def DVariants.callRate : DVariants → Nat
  | .nil => 0
  | .cons _ fs rest => max fs.callRate rest.callRate

end

end Deku
