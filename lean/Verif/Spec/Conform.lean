import Verif.Spec.CoreEnum

/-!
# Specification vocabulary: values that satisfy what a definition states

Expressions are given a meaning here by what they denote: a number, if what they refer to is in scope and is a
number. `before` are the fields before, in source order. Nothing refers to the code.
-/

namespace Deku

/-- What the operations say of numbers that are not negative. -/
def Op.Says : Op → Int → Int → Int → Prop
  | .add, x, y, k => k = x + y
  | .mul, x, y, k => 0 ≤ x ∧ 0 ≤ y ∧ k = x * y
  | .sub, x, y, k => 0 ≤ x ∧ 0 ≤ y ∧ 0 ≤ k ∧ (y ≤ x → x = k + y) ∧ (x < y → k = 0)
  | .min, x, y, k => k ≤ x ∧ k ≤ y ∧ (k = x ∨ k = y)
  | .max, x, y, k => x ≤ k ∧ y ≤ k ∧ (k = x ∨ k = y)

/-- What the operations with a literal say: quotient and remainder, the bits that both have, and the bits but the
last ones. -/
def LitOp.Says : LitOp → Int → Int → Prop
  | .div n, x, k => 0 ≤ k ∧ ∃ r : Int, 0 ≤ r ∧ r < n ∧ x = n * k + r
  | .mod n, x, k => 0 ≤ k ∧ k < n ∧ ∃ q : Int, 0 ≤ q ∧ x = n * q + k
  | .and n, x, k => ∃ a b : Nat, x = a ∧ k = b ∧ ∀ i, b.testBit i = (a.testBit i && n.testBit i)
  | .shr n, x, k => ∃ a b : Nat, x = a ∧ k = b ∧ ∀ i, b.testBit i = a.testBit (i + n)

/-- The expression denotes the number. -/
def Expr.Denotes (args before : List Val) : Expr → Int → Prop
  | .lit n, k => k = n
  | .field i, k => i < before.length ∧ before[before.length - 1 - i]? = some (.num k)
  | .arg i, k => args[i]? = some (.num k)
  | .op o a b, k => ∃ x y, a.Denotes args before x ∧ b.Denotes args before y ∧ o.Says x y k
  | .lop o a, k => ∃ x, a.Denotes args before x ∧ o.Says x k

/-- The condition is true, or false. -/
def Cond.Says (args before : List Val) : Cond → Bool → Prop
  | .eq a b, t => ∃ x y, a.Denotes args before x ∧ b.Denotes args before y ∧ (t = true ↔ x = y)
  | .lt a b, t => ∃ x y, a.Denotes args before x ∧ b.Denotes args before y ∧ (t = true ↔ x < y)
  | .not c, t => c.Says args before (!t)
  | .and c d, t => ∃ x y, c.Says args before x ∧ d.Says args before y ∧ (t = true ↔ x = true ∧ y = true)
  | .or c d, t => ∃ x y, c.Says args before x ∧ d.Says args before y ∧ (t = true ↔ x = true ∨ y = true)

/-- The attributes of the field say that it is read, or that it is not: `skip` (for reading) with a condition skips
the field where the condition is true, a condition alone reads it there. -/
def DAttrs.Reads (args before : List Val) (a : DAttrs) (t : Bool) : Prop :=
  match a.skip, a.cond with
  | none, none => t = true
  | none, some c => c.Says args before t
  | some .write, _ => t = true
  | some .all, none => t = false
  | some .read, none => t = false
  | some .all, some c => c.Says args before (!t)
  | some .read, some c => c.Says args before (!t)

/-- The list is one that the limit allows: as long as the count says, or ending at its first element equal to the
number given with `until`. (Nothing is said of sizes.) -/
def Lim.Allows (args before : List Val) (vs : List Val) : Lim → Prop
  | .count e => ∀ k, e.Denotes args before k → (vs.length : Int) = k
  | .until n => ∃ front, vs = front ++ [.num n] ∧ ∀ x ∈ front, x ≠ .num n
  | .bytes e => e.Denotes args before 0 → vs = []
  | .bits e => e.Denotes args before 0 → vs = []
  | .all => True

/-- The arguments are those that the expressions denote. -/
def Passed (args before : List Val) (es : List Expr) (vals : List Val) : Prop :=
  vals.length = es.length ∧
    ∀ (i : Nat) (e : Expr) (k : Int), es[i]? = some e → e.Denotes args before k → vals[i]? = some (Val.num k)

mutual

/-- The value satisfies what the definition states: lists are as long as their counts say and end where they must,
optional parts are there where the condition says so and are the default where it does not, asserted fields are
what is asserted, and variants are those for their ids. -/
def Def.Conforms : Def → List Val → List Val → Val → Prop
  | .leaf _ _, _, _, _ => True
  | .option t, args, before, v => ∃ x, v = .some x ∧ t.Conforms args before x
  | .array n t, args, before, v => v.elems.length = n ∧ ∀ x ∈ v.elems, t.Conforms args before x
  | .pair a b, args, before, v =>
    ∃ x y, v = .cons x (.cons y .nil) ∧ a.Conforms args before x ∧ b.Conforms args before y
  | .vec zst l t, args, before, v =>
    (∀ x ∈ v.elems, t.Conforms args before x) ∧ (zst = false → l.Allows args before v.elems)
  | .bytes e _, args, before, v => ∀ k, e.Denotes args before k → (v.elems.length : Int) = k
  | .struct es _ fs, args, before, v => ∃ vals, Passed args before es vals ∧ fs.Conforms vals [] v
  | .enum es _ id vs, args, before, v =>
    ∃ vals i fs x, v = .variant i fs ∧ Passed args before es vals ∧ vs.For x i ∧
      (∀ e, id = .arg e → ∀ k, e.Denotes vals [] k → x = k) ∧
      vs.ConformsAt (match id with | .typed _ _ _ _ => true | .arg _ => false) vals x i fs

/-- The values of temporary fields are not part of the value, but there were some. -/
def DFields.Conforms : DFields → List Val → List Val → Val → Prop
  | .nil, _, _, v => v = .nil
  | .cons a t rest, args, before, v =>
    ∃ x xs, v = .cons x xs ∧ (a.Reads args before true → t.Conforms args before x) ∧
      (a.Reads args before false → x = a.default) ∧
      (∀ e k, a.assertEq = some e → e.Denotes args before k → x = .num k) ∧
      rest.Conforms args (before ++ [x]) xs
  | .temp a t _ rest, args, before, v =>
    ∃ x, (a.Reads args before true → t.Conforms args before x) ∧ (a.Reads args before false → x = a.default) ∧
      (∀ e k, a.assertEq = some e → e.Denotes args before k → x = .num k) ∧
      rest.Conforms args (before ++ [x]) v

/-- The first field is the id. -/
def DFields.ConformsStored (x : Int) : DFields → List Val → Val → Prop
  | .nil, _, v => v = .nil
  | .cons _ _ rest, args, v => ∃ xs, v = .cons (.num x) xs ∧ rest.Conforms args [.num x] xs
  | .temp _ _ _ rest, args, v => rest.Conforms args [.num x] v

/-- The fields of variant number `i`; the id is stored in the first field if it is read and matched with a
pattern. -/
def DVariants.ConformsAt (typed : Bool) : DVariants → List Val → Int → Nat → Val → Prop
  | .nil, _, _, _, _ => False
  | .cons a fs _, args, x, 0, v =>
    (a.kind.isPat = true → typed = true → fs.ConformsStored x args v) ∧
      (a.kind.isPat = false ∨ typed = false → fs.Conforms args [] v)
  | .cons _ _ rest, args, x, i + 1, v => rest.ConformsAt typed args x i v

end

end Deku
