import Verif.Spec.Consistent

/-!
# Specification vocabulary: places in a message

A place is a way down into a value: to a field of a struct or of a variant, to an element of a list, an array or a pair, into
an option. Which places can be changed on their own is computed from the attributes: a field that another attribute refers
to cannot, nor can one with an `assert_eq`, nor an element of a list that ends with a certain element.
-/

namespace Deku.Patch

/-- A step down into a value. -/
inductive Go
  /-- A field, counted without the temporary ones. -/
  | field (j : Nat)
  | elem (i : Nat)
  | some
  deriving DecidableEq, Repr

/-- The number, if it is one. -/
def numOf : Val → Int
  | .num n => n
  | _ => 0

/-- An element of a list is changed. -/
def modifyAt (g : Val → Val) : Nat → Val → Val
  | 0, .cons x xs => .cons (g x) xs
  | i + 1, .cons x xs => .cons x (modifyAt g i xs)
  | _, v => v

/-- What is at the place is replaced by `y`. -/
def put : List Go → Val → Val → Val
  | [], y, _ => y
  | .field j :: p, y, .variant i fs => .variant i (modifyAt (put p y) j fs)
  | .field j :: p, y, v => modifyAt (put p y) j v
  | .elem i :: p, y, v => modifyAt (put p y) i v
  | .some :: p, y, .some v => .some (put p y v)
  | .some :: _, _, v => v

/-! ### What attributes refer to -/

/-- The expression does not refer to the field with this number, counted backwards. -/
def avoids (k : Option Nat) : Expr → Bool
  | .lit _ | .arg _ => true
  | .field i => decide (k ≠ some i)
  | .op _ a b => avoids k a && avoids k b
  | .lop _ a => avoids k a

def condAvoids (k : Option Nat) : Cond → Bool
  | .eq a b | .lt a b => avoids k a && avoids k b
  | .not c => condAvoids k c
  | .and c d | .or c d => condAvoids k c && condAvoids k d

def attrsAvoid (k : Option Nat) (a : SAttrs) : Bool :=
  a.cond.all (condAvoids k) && a.count.all (avoids k) && a.bytesRead.all (avoids k) && a.bitsRead.all (avoids k) &&
    a.assertEq.all (avoids k)

/-- No attribute of these fields refers to it. -/
def fieldsAvoid (c : Container) (sc : List Arg) : Option Nat → SFields → Bool
  | _, .nil => true
  | k, .cons a _ rest =>
    attrsAvoid k a && (a.passes c sc).all (fun x => avoids k x.expr) && fieldsAvoid c sc (k.map (· + 1)) rest

/-! ### Places -/

/-- What is at a place: its type, with the limits and arguments that it has there and the fields before it, and the number
of bits before it. -/
structure Spot where
  ty : STy
  lims : List Lim
  args : List Arg
  env : Env
  val : Val
  off : Nat

/-- With more bits before it. -/
def Spot.behind (l : List Piece) (s : Spot) : Spot := { s with off := (flat l).length + s.off }

/-- Field number `j`, which is parsed and not asserted. If it is to be replaced as a whole, no other refers to it. -/
def fieldSpot (o : Order) (native : Endian) (c : Container) (whole : Bool) :
    SFields → Nat → List Arg → Env → Val → Val → Option Spot
  | .nil, _, _, _, _, _ => none
  | .cons a t rest, j, sc, env, all, v =>
    match a.temp with
    | some f =>
      (fieldSpot o native c whole rest j sc (env.push (f.eval all)) all v).map
        (·.behind (a.wire o env (a.mark t ++ t.wire o native (a.passes c sc) env (f.eval all))))
    | none =>
      match v with
      | .cons x xs =>
        match j with
        | 0 =>
          if a.parsed env && a.assertEq.isNone && fieldsAvoid c sc (if whole then some 0 else none) rest then
            some ⟨t, a.limits, a.passes c sc, env, x,
              8 * a.magic.length + (a.padBitsBefore.getD 0 + 8 * a.padBytesBefore.getD 0)⟩
          else none
        | j + 1 =>
          (fieldSpot o native c whole rest j sc (env.push x) all xs).map
            (·.behind (a.wire o env (a.mark t ++ t.wire o native (a.passes c sc) env x)))
      | _ => none

/-- The first field stores the id and stays. -/
def storedSpot (o : Order) (native : Endian) (c : Container) (whole : Bool) (id : Int → Piece) :
    SFields → Nat → List Arg → Env → Val → Option Spot
  | .cons _ _ rest, j + 1, sc, env, .cons x xs =>
    (fieldSpot o native c whole rest j sc (env.push x) (.cons x xs) xs).map
      (·.behind (match x with | .num n => [id n] | _ => []))
  | _, _, _, _, _ => none

/-- The fields of a variant; an id that is stored is not one of them. -/
def variantSpot (o : Order) (native : Endian) (c : Container) (id : SId) (whole : Bool) :
    SVariants → Nat → Nat → List Arg → Env → Val → Option Spot
  | .nil, _, _, _, _, _ => none
  | .cons a fs _, 0, j, sc, env, v =>
    match id, a.kind with
    | .typed W e bits bytes, .id n =>
      (fieldSpot o native c whole fs j sc env v v).map
        (·.behind [intPiece o native ((SId.typed W e bits bytes).passes c sc) W n])
    | .typed W e bits bytes, _ =>
      storedSpot o native c whole (intPiece o native ((SId.typed W e bits bytes).passes c sc) W) fs j sc env v
    | .ctx _, _ => fieldSpot o native c whole fs j sc env v v
  | .cons _ _ rest, i + 1, j, sc, env, v => variantSpot o native c id whole rest i j sc env v

/-- A list in which an element ends the list. -/
def ended (lims : List Lim) : Bool := lims.any fun l => match l with | .until _ => true | _ => false

/-- What is at a place, if it can be changed on its own. -/
def spot (o : Order) (native : Endian) : List Go → STy → List Lim → List Arg → Env → Val → Option Spot
  | [], t, lims, args, env, v => some ⟨t, lims, args, env, v, 0⟩
  | .some :: p, .option t, lims, args, env, .some x => spot o native p t lims args env x
  | .elem i :: p, .array _ t, lims, args, env, v =>
    v.elems[i]?.bind fun x => (spot o native p t lims args env x).map
      (·.behind ((v.elems.take i).flatMap fun x => t.wire o native args env x))
  | .elem i :: p, .vec _ t, lims, args, env, v =>
    if ended lims then none
    else v.elems[i]?.bind fun x => (spot o native p t [] args env x).map
      (·.behind ((v.elems.take i).flatMap fun x => t.wire o native args env x))
  | .elem 0 :: p, .pair a _, lims, args, env, .cons x _ => spot o native p a lims args env x
  | .elem 1 :: p, .pair a b, lims, args, env, .cons x (.cons y _) =>
    (spot o native p b lims args env y).map (·.behind (a.wire o native args env x))
  | .field j :: p, .struct c fs, _, args, env, v =>
    (fieldSpot o native c p.isEmpty fs j (c.scope args) (inside ((c.scope args).map Arg.expr) env) v v).bind fun s =>
      (spot o native p s.ty s.lims s.args s.env s.val).map fun s' => { s' with off := 8 * c.magic.length + s.off + s'.off }
  | .field j :: p, .enum c id vs, _, args, env, .variant i w =>
    (variantSpot o native c id p.isEmpty vs i j (c.scope args) (inside ((c.scope args).map Arg.expr) env) w).bind fun s =>
      (spot o native p s.ty s.lims s.args s.env s.val).map fun s' => { s' with off := 8 * c.magic.length + s.off + s'.off }
  | _, _, _, _, _, _ => none

/-! ### What may be put there -/

/-- How a piece is to be written: from where, and in how many bits. -/
def form (x : Piece) : Bool × Bool × Nat := (x.whole, x.strict, x.bits.length)

/-- `y` is a value for the place, of the same size as the one that is there. -/
def Fits (o : Order) (m : Machine) (s : Spot) (y : Val) : Prop :=
  s.ty.consistent o m s.lims s.args s.env y = true ∧ y.elems.length = s.val.elems.length ∧
    (s.ty.wire o m.native s.args s.env y).map form = (s.ty.wire o m.native s.args s.env s.val).map form

instance (o : Order) (m : Machine) (s : Spot) (y : Val) : Decidable (Fits o m s y) := inferInstanceAs (Decidable (_ ∧ _))

/-- The bits of a value at the place. -/
def bitsAt (o : Order) (native : Endian) (s : Spot) (y : Val) : List Bool := flat (s.ty.wire o native s.args s.env y)

/-- Bits overwritten by others, from bit `n` on. -/
def overwrite (n : Nat) (new : List Bool) (old : List Bool) : List Bool :=
  old.take n ++ new ++ old.drop (n + new.length)

end Deku.Patch
