import Verif.Spec.Core
import Verif.Spec.Safe

/-!
# Specification vocabulary: definitions that read without panics, by computation

`Def.safe` walks through a definition in the order in which it is read. It keeps track of what may have
happened to the reader (`Stage`) and of upper bounds of the numbers that expressions can refer to (`Scope`).
-/

namespace Deku

/-- Upper bounds of the numbers in scope. -/
structure Scope where
  ctx : List Int := []
  vars : List Int := []

/-- The number an expression takes a value for. -/
def Val.number : Val → Int
  | .num n => n
  | _ => 0

/-- An upper bound of the result of an operation, from those of the operands. -/
def Op.most : Op → Int → Int → Int
  | .add, a, b => a + b
  | .mul, a, b => (a.toNat * b.toNat : Nat)
  | .sub, a, _ => a.toNat
  | .min, a, b => if a ≤ b then a else b
  | .max, a, b => if a ≤ b then b else a

def LitOp.most : LitOp → Int → Int
  | .div n, a => (a.toNat / n : Nat)
  | .mod n, a => if n = 0 then (a.toNat : Int) else if a.toNat < n then a.toNat else n - 1
  | .and n, a => if a.toNat < n then a.toNat else n
  | .shr n, a => (a.toNat >>> n : Nat)

/-- An upper bound of the value of an expression. -/
def Expr.most (sc : Scope) : Expr → Int
  | .lit n => n
  | .field i => sc.vars[i]?.getD 0
  | .arg i => sc.ctx[i]?.getD 0
  | .op o a b => o.most (a.most sc) (b.most sc)
  | .lop o a => o.most (a.most sc)

def Expr.nonzero : Expr → Bool
  | .lit n => decide (n ≠ 0)
  | _ => false

namespace Scope

def push (sc : Scope) (n : Int) : Scope := { sc with vars := n :: sc.vars }

/-- The scope inside a type whose arguments are `args`. -/
def inside (args : List Expr) (sc : Scope) : Scope := { ctx := args.map fun e => e.most sc }

/-- The bounds are right. -/
def holds (sc : Scope) (env : Env) : Prop := ∀ e : Expr, e.eval env ≤ e.most sc

end Scope

deriving instance DecidableEq for Stage

namespace Stage

instance (s t : Stage) : Decidable (s.le t) := inferInstanceAs (Decidable (_ ∧ _))

/-- One of two stages. -/
def join (s t : Stage) : Stage := ⟨s.past || t.past, s.peek || t.peek⟩

/-- The stage after one or more rounds. -/
def loop (f : Stage → Option Stage) (s : Stage) : Option Stage :=
  match f s with
  | none => none
  | some t =>
    match f (s.join t) with
    | none => none
    | some u => if u.le (s.join t) then some u else none

end Stage

/-- The largest number a leaf can be read as. A big endian Lsb0 bit field of several bytes can be read as a
number of more bits than it has. -/
def Leaf.most (native : Endian) : Leaf → Int
  | .uint W ctx | .nonzero W ctx =>
    let shape := ctx.shape native W
    if shape.2.2 = .lsb0 ∧ shape.1 = .big ∧ 8 < shape.2.1 ∧ shape.2.1 % 8 ≠ 0 then 256 ^ W - 1
    else 2 ^ shape.2.1 - 1
  | .sint W _ | .nonzeroSigned W _ => 256 ^ W / 2
  | .bool _ => 1
  | .cstring | .cstringSized _ | .unit => 0

def Def.most (native : Endian) : Def → Int
  | .leaf _ l => l.most native
  | _ => 0

/-- A success has read something. (A `CString` with `bytes` has too, which is not used.) -/
def Leaf.hungry : Leaf → Bool
  | .cstringSized _ | .unit => false
  | _ => true

mutual

/-- Something is read in every case. -/
def Def.hungry : Def → Bool
  | .leaf _ l => l.hungry
  | .option t => t.hungry
  | .array n t => decide (n ≠ 0) && t.hungry
  | .pair a b => a.hungry || b.hungry
  | .vec zst l t => !zst && (match l with | .until _ => true | _ => false) && t.hungry
  | .bytes _ _ => false
  | .struct _ magic fs => decide (magic ≠ []) || fs.hungry
  | .enum _ magic id vs =>
    decide (magic ≠ []) || (match id with | .typed _ _ _ _ => true | .arg _ => false) || vs.hungry

def DFields.hungry : DFields → Bool
  | .nil => false
  | .cons a t rest => decide (a.magic ≠ []) || (!a.mayDefault && t.hungry) || rest.hungry
  | .temp a t _ rest => decide (a.magic ≠ []) || (!a.mayDefault && t.hungry) || rest.hungry

def DVariants.hungry : DVariants → Bool
  | .nil => true
  | .cons a fs rest => !a.kind.isPat && fs.hungry && rest.hungry

end

/-- The stage after a leaf. -/
def Leaf.safe (mem : Nat) (l : Leaf) (s : Stage) : Option Stage :=
  match l with
  | .cstringSized n => if n ≤ mem then some (if n = 0 then s else .fresh) else none
  | .unit => some s
  | _ => some .fresh

/-- The stage after a list whose elements take a stage to the stage given by `el`: a count must be small
enough to allocate, with other limits the elements read something. -/
def Lim.safe (mem : Nat) (sc : Scope) (hungry : Bool) (el : Stage → Option Stage) (s : Stage) : Lim → Option Stage
  | .count e =>
    if e.most sc ≤ mem then (s.loop el).map fun t => if e.nonzero then t else s.join t else none
  | .until _ => if hungry then s.loop el else none
  | .bytes e =>
    if hungry = true ∧ e.most sc < 2 ^ 61 then (s.loop el).map fun t => if e.nonzero then t else s.join t else none
  | .bits e => if hungry then (s.loop el).map fun t => if e.nonzero then t else s.join t else none
  | .all => if hungry then (el ⟨false, true⟩).map fun t => ⟨s.past || t.past, false⟩ else none

/-- The stage before the value of a field. -/
def DAttrs.before (a : DAttrs) (s : Stage) : Stage :=
  let s := Stage.afterMagic a.magic s
  if a.padBefore.isSome then ⟨true, s.peek⟩ else s

/-- The stage after a field. -/
def DAttrs.safe (a : DAttrs) (ty : Stage → Option Stage) (s : Stage) : Option Stage :=
  (ty (a.before s)).map fun t =>
    let t := if a.mayDefault then (a.before s).join t else t
    if a.padAfter.isSome then ⟨true, t.peek⟩ else t

/-- The largest number a field can have. -/
def DAttrs.most (a : DAttrs) (sc : Scope) (ty : Int) : Int :=
  match a.assertEq with
  | some e => e.most sc
  | none => if a.mayDefault then max a.default.number ty else ty

mutual

/-- The stage after the definition, if no input can make its reader panic when it starts at stage `s`. -/
def Def.safe (m : Machine) : Def → Scope → Stage → Option Stage
  | .leaf _ l, _, s => l.safe m.mem s
  | .option t, sc, s => t.safe m sc s
  | .array n t, sc, s => (s.loop fun s => t.safe m sc s).map fun t => if n = 0 then s.join t else t
  | .pair a b, sc, s => match a.safe m sc s with | none => none | some t => b.safe m sc t
  | .vec zst l t, sc, s =>
    if zst then
      match l with
      | .bytes e => if e.most sc < 2 ^ 61 then some s else none
      | _ => some s
    else l.safe m.mem sc t.hungry (fun s => t.safe m sc s) s
  | .bytes e _, sc, s =>
    if s.past = false ∧ e.most sc < 2 ^ 61 ∧ (s.peek = true → e.nonzero = true) then some .fresh else none
  | .struct args magic fs, sc, s => fs.safe m (sc.inside args) (Stage.afterMagic magic s)
  | .enum args magic id vs, sc, s =>
    match id with
    | .typed _ W ctx _ => vs.safe m (some ((Leaf.uint W ctx).most m.native)) (sc.inside args) .fresh
    | .arg _ => vs.safe m none (sc.inside args) (Stage.afterMagic magic s)

def DFields.safe (m : Machine) : DFields → Scope → Stage → Option Stage
  | .nil, _, s => some s
  | .cons a t rest, sc, s =>
    match a.safe (fun s => t.safe m sc s) s with
    | none => none
    | some u => rest.safe m (sc.push (a.most sc (t.most m.native))) u
  | .temp a t _ rest, sc, s =>
    match a.safe (fun s => t.safe m sc s) s with
    | none => none
    | some u => rest.safe m (sc.push (a.most sc (t.most m.native))) u

/-- The fields after a stored id of at most `n`. -/
def DFields.safeStored (m : Machine) (n : Int) : DFields → Scope → Stage → Option Stage
  | .nil, _, s => some s
  | .cons _ _ rest, sc, s => rest.safe m (sc.push n) s
  | .temp _ _ _ rest, sc, s => rest.safe m (sc.push n) s

/-- The stage after any of the variants; `id` is the largest id if it is read. -/
def DVariants.safe (m : Machine) (id : Option Int) : DVariants → Scope → Stage → Option Stage
  | .nil, _, _ => some .fresh
  | .cons a fs rest, sc, s =>
    match
      (match id with
        | some n => if a.kind.isPat then fs.safeStored m n sc s else fs.safe m sc s
        | none => fs.safe m sc s),
      rest.safe m id sc s with
    | some t, some u => some (t.join u)
    | _, _ => none

end

end Deku
