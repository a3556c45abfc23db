import Verif.Spec.CoreSafe

/-!
# Specification vocabulary: how large a value is

`Val.weight` counts the pieces of a value. `Def.least` and `Def.rate` are two numbers computed from a definition:
what a value of the definition may weigh whatever is read, and what it may weigh more for every bit that is read.
-/

namespace Deku

/-- The number of pieces of a value: numbers, `None`s, `Some`s, list cells, ends of lists, variants. -/
def Val.weight : Val → Nat
  | .num _ => 1
  | .none => 1
  | .some v => v.weight + 1
  | .nil => 1
  | .cons v vs => v.weight + vs.weight + 1
  | .variant _ fs => fs.weight + 1

mutual

/-- The elements of every list read something, in every case. (Lists of elements of size 0 stay empty.) -/
def Def.dense : Def → Bool
  | .leaf _ _ => true
  | .option t => t.dense
  | .array _ t => t.dense
  | .pair a b => a.dense && b.dense
  | .vec zst _ t => t.dense && (zst || t.hungry)
  | .bytes _ _ => true
  | .struct _ _ fs => fs.dense
  | .enum _ _ _ vs => vs.dense

def DFields.dense : DFields → Bool
  | .nil => true
  | .cons _ t rest => t.dense && rest.dense
  | .temp _ t _ rest => t.dense && rest.dense

def DVariants.dense : DVariants → Bool
  | .nil => true
  | .cons _ fs rest => fs.dense && rest.dense

end

mutual

/-- The weight that does not depend on how much is read: the places of fields and arrays, default values. -/
def Def.least : Def → Nat
  | .leaf _ _ => 1
  | .option t => t.least + 1
  | .array n t => n * (t.least + 1) + 1
  | .pair a b => a.least + b.least + 3
  | .vec _ _ _ => 1
  | .bytes _ _ => 1
  | .struct _ _ fs => fs.least
  | .enum _ _ _ vs => vs.least + 1

def DFields.least : DFields → Nat
  | .nil => 1
  | .cons a t rest => max t.least a.default.weight + rest.least + 1
  | .temp _ _ _ rest => rest.least

def DVariants.least : DVariants → Nat
  | .nil => 0
  | .cons _ fs rest => max fs.least rest.least

end

mutual

/-- The weight that comes with a bit read. -/
def Def.rate : Def → Nat
  | .leaf _ .cstring => 2
  | .leaf _ (.cstringSized _) => 2
  | .leaf _ _ => 0
  | .option t => t.rate
  | .array _ t => t.rate
  | .pair a b => max a.rate b.rate
  | .vec _ _ t => t.least + t.rate + 1
  | .bytes _ _ => 1
  | .struct _ _ fs => fs.rate
  | .enum _ _ _ vs => vs.rate

def DFields.rate : DFields → Nat
  | .nil => 0
  | .cons _ t rest => max t.rate rest.rate
  | .temp _ _ _ rest => rest.rate

def DVariants.rate : DVariants → Nat
  | .nil => 0
  | .cons _ fs rest => max fs.rate rest.rate

end

end Deku
