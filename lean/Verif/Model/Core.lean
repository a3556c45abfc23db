import Verif.Model.Leaves

/-!
# Definitions as data

In `Model.Derive` the attributes of a definition are functions of what is in scope. Here they are written
down: expressions are made of literals, fields before and arguments of the context, leaves are named types with a
context argument, and sizes, paddings and ids are literals. `Def.toTy` gives the emitted code. What a
definition does can so be found out by computation; `Model.Source` obtains definitions of this kind from
the attributes as they are written in the source.

A definition of this kind uses no `seek_*`, `map`, `reader`, `writer`, `update`, `assert`, `deku::bit_offset`
and no ids given by patterns other than ranges and `_`.
-/

namespace Deku

/-- An operation on two unsigned numbers. Overflow inside an expression is not modelled: the numbers are those
of a type that is wide enough. -/
inductive Op
  | add
  | mul
  /-- `saturating_sub`. -/
  | sub
  | min
  | max
  deriving DecidableEq, Repr

/-- The operation, on numbers that are not negative (`min` and `max` on all). -/
def Op.eval : Op → Int → Int → Int
  | .add, a, b => a + b
  | .mul, a, b => (a.toNat * b.toNat : Nat)
  | .sub, a, b => (a.toNat - b.toNat : Nat)
  | .min, a, b => if a ≤ b then a else b
  | .max, a, b => if a ≤ b then b else a

/-- An operation on an unsigned number, with a literal. A literal 0 does not compile as a divisor. -/
inductive LitOp
  /-- `e / n`. -/
  | div (n : Nat)
  /-- `e % n`. -/
  | mod (n : Nat)
  /-- `e & n`. -/
  | and (n : Nat)
  /-- `e >> n`. -/
  | shr (n : Nat)
  deriving DecidableEq, Repr

def LitOp.eval : LitOp → Int → Int
  | .div n, a => (a.toNat / n : Nat)
  | .mod n, a => (a.toNat % n : Nat)
  | .and n, a => (a.toNat &&& n : Nat)
  | .shr n, a => (a.toNat >>> n : Nat)

/-- An expression in an attribute. -/
inductive Expr
  | lit (n : Int)
  /-- A field before, counted backwards. -/
  | field (i : Nat)
  /-- An argument of the context. -/
  | arg (i : Nat)
  | op (o : Op) (a b : Expr)
  | lop (o : LitOp) (a : Expr)
  deriving DecidableEq, Repr

namespace Expr

/-- The value of the expression. Only numbers can be referred to; anything else does not compile, and is
0 here. -/
def eval (e : Expr) (env : Env) : Int :=
  match e with
  | .lit n => n
  | .field i => match env.vars[i]? with | some (.num n) => n | _ => 0
  | .arg i => match env.ctx[i]? with | some (.num n) => n | _ => 0
  | .op o a b => o.eval (a.eval env) (b.eval env)
  | .lop o a => o.eval (a.eval env)

def val (e : Expr) (env : Env) : Val := .num (e.eval env)

end Expr

/-- A condition in an attribute. -/
inductive Cond
  | eq (a b : Expr)
  | lt (a b : Expr)
  | not (c : Cond)
  | and (c d : Cond)
  | or (c d : Cond)
  deriving DecidableEq, Repr

def Cond.eval (env : Env) : Cond → Bool
  | .eq a b => decide (a.eval env = b.eval env)
  | .lt a b => decide (a.eval env < b.eval env)
  | .not c => !c.eval env
  | .and c d => c.eval env && d.eval env
  | .or c d => c.eval env || d.eval env

/-- The limit of a `Vec`. -/
inductive Lim
  | count (e : Expr)
  | bytes (e : Expr)
  | bits (e : Expr)
  /-- `until = "|x| *x == n"` on numbers. -/
  | until (n : Int)
  /-- `read_all`. -/
  | all
  deriving DecidableEq, Repr

def Lim.toLimit : Lim → LimitE
  | .count e => .count e.eval
  | .bytes e => .bytes e.eval
  | .bits e => .bits e.eval
  | .until n => .until fun _ seen => decide (seen.head? = some (.num n))
  | .all => .end

/-- A type with its own implementation of the traits, and its context argument; `W` is the size of the
integer in bytes. -/
inductive Leaf
  | uint (W : Nat) (ctx : IntCtx)
  | sint (W : Nat) (ctx : IntCtx)
  | nonzero (W : Nat) (ctx : IntCtx)
  | nonzeroSigned (W : Nat) (ctx : IntCtx)
  | bool (ctx : IntCtx)
  | cstring
  /-- `CString` with `bytes`. -/
  | cstringSized (n : Nat)
  | unit

def Leaf.codec (m : Machine) : Leaf → Codec
  | .uint W ctx => uintCodec m.native W ctx
  | .sint W ctx => sintCodec m.native W ctx
  | .nonzero W ctx => nonzeroCodec m.native W ctx
  | .nonzeroSigned W ctx => nonzeroSignedCodec m.native W ctx
  | .bool ctx => boolCodec m.native ctx
  | .cstring => cstringCodec m.native m.mem
  | .cstringSized n => cstringSizedCodec m.native m.mem n
  | .unit => unitCodec

/-- The attributes of a field that do not belong to its type, as in `Attrs`; paddings are in bits. -/
structure DAttrs where
  magic : List Byte := []
  padBefore : Option Nat := none
  padAfter : Option Nat := none
  padOrder : Option Order := none
  skip : Option SkipMode := none
  cond : Option Cond := none
  default : Val := .num 0
  assertEq : Option Expr := none
  sizeAttr : Option Nat := none

def DAttrs.toAttrs (a : DAttrs) : Attrs :=
  { magic := a.magic, padBefore := a.padBefore.map fun n _ => n, padAfter := a.padAfter.map fun n _ => n,
    padOrder := a.padOrder, skip := a.skip, cond := a.cond.map fun c env => c.eval env,
    default := fun _ => a.default, assertEq := fun env => a.assertEq.map fun e => e.val env,
    sizeAttr := a.sizeAttr }

/-- The value of a temporary field: `self.f.len() as uW`, with the number of `f` among the fields of the
struct. -/
structure Temp where
  field : Nat
  W : Nat

def Temp.eval (t : Temp) (all : Val) : Val :=
  .num (((all.elems[t.field]?.getD .nil).elems.length : Int) % 256 ^ t.W)

/-- The id of a variant. -/
inductive VKind
  /-- `id = n`. -/
  | id (n : Int)
  /-- `id_pat = "_"`, stored in the first field. -/
  | any
  /-- `id_pat = "lo..=hi"`, stored in the first field. -/
  | range (lo hi : Int)
  deriving DecidableEq, Repr

namespace VKind

def hits (k : VKind) (x : Val) : Bool :=
  match k, x with
  | .id n, .num i => decide (i = n)
  | .any, _ => true
  | .range lo hi, .num i => decide (lo ≤ i ∧ i ≤ hi)
  | _, _ => false

def isPat : VKind → Bool
  | .id _ => false
  | _ => true

def idVal : VKind → Option Val
  | .id n => some (.num n)
  | _ => none

end VKind

structure DVAttrs where
  kind : VKind
  default : Bool := false

def DVAttrs.toVAttrs (a : DVAttrs) : VAttrs :=
  { pat := fun _ x => a.kind.hits x, id := a.kind.idVal, idPat := a.kind.isPat, default := a.default }

/-- The id of an enum: a type with `id_args` and with the arguments for a stored id, or an argument of the
context. -/
inductive DId
  | typed (size : Option Nat) (W : Nat) (ctx store : IntCtx)
  | arg (e : Expr)

def DId.toSrc (m : Machine) : DId → IdSrc
  | .typed size W ctx _ => .typed size fun _ => uintCodec m.native W ctx
  | .arg e => .ctx e.val

def DId.store (m : Machine) : DId → Env → Val → M Writer Unit
  | .typed _ W _ ctx, _, x => (uintCodec m.native W ctx).write x
  | .arg _, _, _ => M.panic

mutual

inductive Def
  | leaf (size : Option Nat) (l : Leaf)
  | option (t : Def)
  | array (n : Nat) (t : Def)
  | pair (a b : Def)
  /-- `zst`: the elements have size 0. -/
  | vec (zst : Bool) (l : Lim) (t : Def)
  | bytes (n : Expr) (ctx : IntCtx)
  | struct (args : List Expr) (magic : List Byte) (fs : DFields)
  | enum (args : List Expr) (magic : List Byte) (id : DId) (vs : DVariants)

inductive DFields
  | nil
  | cons (a : DAttrs) (t : Def) (rest : DFields)
  | temp (a : DAttrs) (t : Def) (value : Temp) (rest : DFields)

inductive DVariants
  | nil
  | cons (a : DVAttrs) (fs : DFields) (rest : DVariants)

end

mutual

/-- The emitted code. -/
def Def.toTy (m : Machine) : Def → Ty
  | .leaf size l => .prim size fun _ => l.codec m
  | .option t => .option (t.toTy m)
  | .array n t => .array n (t.toTy m)
  | .pair a b => .pair (a.toTy m) (b.toTy m)
  | .vec zst l t => .vec (if zst then 0 else 1) l.toLimit (t.toTy m)
  | .bytes n ctx => .bytes n.eval fun _ => ctx
  | .struct args magic fs => .struct (fun env => args.map fun e => e.val env) none magic (fs.toFields m)
  | .enum args magic id vs =>
    .enum (fun env => args.map fun e => e.val env) magic (id.toSrc m) (fun _ => id.store m) (vs.toVariants m)

def DFields.toFields (m : Machine) : DFields → Fields
  | .nil => .nil
  | .cons a t rest => .cons a.toAttrs (t.toTy m) (rest.toFields m)
  | .temp a t value rest => .temp a.toAttrs (t.toTy m) (some value.eval) (rest.toFields m)

def DVariants.toVariants (m : Machine) : DVariants → Variants
  | .nil => .nil
  | .cons a fs rest => .cons a.toVAttrs (fs.toFields m) (rest.toVariants m)

end

end Deku
