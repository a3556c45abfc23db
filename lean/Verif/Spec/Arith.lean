import Verif.Model.Arith
import Verif.Spec.CoreSafe

/-!
# Specification vocabulary: expressions that do not overflow, by computation

`Def.exact` walks through a definition with the smallest and the largest value of every number in scope, and
accepts it if no expression in an attribute can leave the type it is computed in.
-/

namespace Deku

/-- The smallest and the largest value of a number that is not negative, if they are known. -/
abbrev Span := Option (Nat × Nat)

structure Spans where
  ctx : List Span := []
  vars : List Span := []

namespace Spans

def push (sp : Spans) (s : Span) : Spans := { sp with vars := s :: sp.vars }

/-- The numbers are within their bounds. -/
def holds (sp : Spans) (env : Env) : Prop :=
  (∀ (i a b : Nat), sp.vars[i]? = some (some (a, b)) → (a : Int) ≤ (Expr.field i).eval env ∧ (Expr.field i).eval env ≤ b) ∧
  ∀ (i a b : Nat), sp.ctx[i]? = some (some (a, b)) → (a : Int) ≤ (Expr.arg i).eval env ∧ (Expr.arg i).eval env ≤ b

end Spans

/-- The result of an operation in a type of `n` bits, if it always fits. -/
def Op.span (n : Nat) (minus : Bool) : Op → Nat × Nat → Nat × Nat → Span
  | .add, x, y => if x.2 + y.2 < 2 ^ n then some (x.1 + y.1, x.2 + y.2) else none
  | .mul, x, y => if x.2 * y.2 < 2 ^ n then some (x.1 * y.1, x.2 * y.2) else none
  | .sub, x, y => if minus = true ∧ x.1 < y.2 then none else some (x.1 - y.2, x.2 - y.1)
  | .min, x, y => some (Min.min x.1 y.1, Min.min x.2 y.2)
  | .max, x, y => some (Max.max x.1 y.1, Max.max x.2 y.2)

def LitOp.span (n : Nat) : LitOp → Nat × Nat → Span
  | .div k, x => if k = 0 ∨ 2 ^ n ≤ k then none else some (x.1 / k, x.2 / k)
  | .mod k, x => if k = 0 ∨ 2 ^ n ≤ k then none else some (if x.2 < k then x.1 else 0, min x.2 (k - 1))
  | .and k, x => if 2 ^ n ≤ k then none else some (0, min x.2 k)
  | .shr k, x => if n ≤ k then none else some (x.1 >>> k, x.2 >>> k)

/-- A number that is converted to a type of `n` bits, if it fits. -/
def Span.cast (n : Nat) : Span → Span
  | some (a, b) => if b < 2 ^ n then some (a, b) else none
  | none => none

/-- The value of an expression in a type of `n` bits, if nothing overflows. -/
def Expr.span (n : Nat) (minus : Bool) (sp : Spans) : Expr → Span
  | .lit k => if 0 ≤ k ∧ k < (2 ^ n : Nat) then some (k.toNat, k.toNat) else none
  | .field i => Span.cast n (sp.vars[i]?.getD none)
  | .arg i => Span.cast n (sp.ctx[i]?.getD none)
  | .op o a b =>
    match a.span n minus sp, b.span n minus sp with
    | some x, some y => o.span n minus x y
    | _, _ => none
  | .lop o a => match a.span n minus sp with | some x => o.span n x | none => none

namespace Arith

/-- The value of an expression in an attribute. -/
def span (ar : Arith) (sp : Spans) : Expr → Span
  | .lit k => if 0 ≤ k then some (k.toNat, k.toNat) else none
  | .field i => sp.vars[i]?.getD none
  | .arg i => sp.ctx[i]?.getD none
  | .op o a b => (Expr.op o a b).span (ar.bits (.op o a b)) ar.minus sp
  | .lop o a => (Expr.lop o a).span (ar.bits (.lop o a)) ar.minus sp

/-- The expression has no operations, or they do not overflow. -/
def ok (ar : Arith) (sp : Spans) : Expr → Bool
  | .op o a b => (ar.span sp (.op o a b)).isSome
  | .lop o a => (ar.span sp (.lop o a)).isSome
  | _ => true

def okCond (ar : Arith) (sp : Spans) : Cond → Bool
  | .eq a b => ar.ok sp a && ar.ok sp b
  | .lt a b => ar.ok sp a && ar.ok sp b
  | .not c => ar.okCond sp c
  | .and c d => ar.okCond sp c && ar.okCond sp d
  | .or c d => ar.okCond sp c && ar.okCond sp d

def okLim (ar : Arith) (sp : Spans) : Lim → Bool
  | .count e => ar.ok sp e
  | .bytes e => ar.ok sp e
  | .bits e => ar.ok sp e
  | .until _ => true
  | .all => true

/-- The arguments of a type. -/
def inside (ar : Arith) (sp : Spans) (args : List Expr) : Spans := { ctx := args.map (ar.span sp) }

end Arith

/-- The numbers a leaf is read as on a machine of the given endianness, or without one the numbers of its type. -/
def Leaf.span (rd : Option Endian) : Leaf → Span
  | .uint W ctx => match rd with | some native => some (0, ((Leaf.uint W ctx).most native).toNat) | none => some (0, 256 ^ W - 1)
  | .nonzero W ctx =>
    match rd with | some native => some (1, ((Leaf.nonzero W ctx).most native).toNat) | none => some (1, 256 ^ W - 1)
  | .sint _ _ | .nonzeroSigned _ _ => none
  | .bool _ => some (0, 1)
  | .cstring | .cstringSized _ | .unit => some (0, 0)

def Def.span (rd : Option Endian) : Def → Span
  | .leaf _ l => l.span rd
  | _ => some (0, 0)

/-- One of two ranges. -/
def Span.join : Span → Span → Span
  | some (a, b), some (c, d) => some (min a c, max b d)
  | _, _ => none

/-- The numbers a field can have, when it is read or when it is written. -/
def DAttrs.span (ar : Arith) (rd : Option Endian) (a : DAttrs) (sp : Spans) (t : Span) : Span :=
  match a.assertEq with
  | some e => ar.span sp e
  | none =>
    if rd.isSome && a.mayDefault then
      Span.join t (if 0 ≤ a.default.number then some (a.default.number.toNat, a.default.number.toNat) else none)
    else t

/-- The condition is evaluated. -/
def DAttrs.asks (rd : Option Endian) (a : DAttrs) : Bool :=
  match rd with
  | some _ => decide (a.skip ≠ some .write)
  | none => decide (a.skip = some .all ∨ a.skip = some .write)

/-- The expressions of a field. -/
def DAttrs.exact (ar : Arith) (rd : Option Endian) (a : DAttrs) (sp : Spans) : Bool :=
  (!a.asks rd || match a.cond with | some c => ar.okCond sp c | none => true) &&
    match a.assertEq with | some e => ar.ok sp e | none => true

mutual

/-- No expression overflows: when the definition is read on a machine of the given endianness, or without one
when a value of the type is written. -/
def Def.exact (ar : Arith) (rd : Option Endian) : Def → Spans → Bool
  | .leaf _ _, _ => true
  | .option t, sp => t.exact ar rd sp
  | .array _ t, sp => t.exact ar rd sp
  | .pair a b, sp => a.exact ar rd sp && b.exact ar rd sp
  | .vec _ l t, sp => (rd.isNone || ar.okLim sp l) && t.exact ar rd sp
  | .bytes n _, sp => rd.isNone || ar.ok sp n
  | .struct args _ fs, sp => args.all (ar.ok sp) && fs.exact ar rd (ar.inside sp args)
  | .enum args _ id vs, sp =>
    args.all (ar.ok sp) &&
      (match id with | .arg e => rd.isNone || ar.ok (ar.inside sp args) e | .typed _ _ _ _ => true) &&
      vs.exact ar rd id (ar.inside sp args)

def DFields.exact (ar : Arith) (rd : Option Endian) : DFields → Spans → Bool
  | .nil, _ => true
  | .cons a t rest, sp =>
    a.exact ar rd sp && t.exact ar rd sp && rest.exact ar rd (sp.push (a.span ar rd sp (t.span rd)))
  | .temp a t _ rest, sp =>
    a.exact ar rd sp && t.exact ar rd sp && rest.exact ar rd (sp.push (a.span ar rd sp (t.span rd)))

/-- The fields after a stored id. -/
def DFields.exactStored (ar : Arith) (rd : Option Endian) (s : Span) : DFields → Spans → Bool
  | .nil, _ => true
  | .cons _ _ rest, sp => rest.exact ar rd (sp.push s)
  | .temp _ _ _ rest, sp => rest.exact ar rd (sp.push s)

def DVariants.exact (ar : Arith) (rd : Option Endian) (id : DId) : DVariants → Spans → Bool
  | .nil, _ => true
  | .cons a fs rest, sp =>
    (match id with
      | .typed _ W c _ => if a.kind.isPat then fs.exactStored ar rd ((Leaf.uint W c).span rd) sp else fs.exact ar rd sp
      | .arg _ => fs.exact ar rd sp) && rest.exact ar rd id sp

end

end Deku
