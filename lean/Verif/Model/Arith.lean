import Verif.Model.Core

/-!
# Expressions in attributes on numbers of a fixed size

In `Model.Core` the expressions in attributes are evaluated on unbounded numbers. In the emitted code they are the
expressions of the user, inserted as they are written (deku_read.rs:741-759, 830-940, 949-988; deku_write.rs:710-730,
814-842), and so computed in some unsigned type, with the checks of the build: with overflow checks (debug) an
overflow panics, without them (release) the result wraps around.

Here every expression is computed in a type of its own, of `bits e` bits, to which fields and arguments are
converted with `as`. An expression without an operation is computed in the type of the field or argument, where
nothing can go wrong. Literals that do not fit and shifts by the size of the type or more do not compile; they
count as panics. (An expression with intermediate results of several sizes is not described.)
-/

namespace Deku

structure Arith where
  /-- The size of the type of an expression with operations. -/
  bits : Expr → Nat
  /-- Without overflow checks. -/
  release : Bool := false
  /-- The difference of two numbers is written `a - b` and not `a.saturating_sub(b)`. -/
  minus : Bool := false

namespace Arith

/-- A result that may not fit. -/
def fit (ar : Arith) (n x : Nat) : Option Nat :=
  if x < 2 ^ n then some x else if ar.release then some (x % 2 ^ n) else none

/-- The value of `a - b`. -/
def diff (ar : Arith) (n a b : Nat) : Option Nat :=
  if b ≤ a then some (a - b)
  else if ar.minus then if ar.release then some (2 ^ n + a - b) else none
  else some 0

/-- A literal, a field or an argument in a type of `n` bits. -/
def cast (n : Nat) (x : Int) : Nat := (x % (2 ^ n : Nat)).toNat

def op (ar : Arith) (n : Nat) (o : Op) (a b : Nat) : Option Nat :=
  match o with
  | .add => ar.fit n (a + b)
  | .mul => ar.fit n (a * b)
  | .sub => ar.diff n a b
  | .min => some (if a ≤ b then a else b)
  | .max => some (if a ≤ b then b else a)

def lop (n : Nat) (o : LitOp) (a : Nat) : Option Nat :=
  match o with
  | .div k => if k = 0 ∨ 2 ^ n ≤ k then none else some (a / k)
  | .mod k => if k = 0 ∨ 2 ^ n ≤ k then none else some (a % k)
  | .and k => if 2 ^ n ≤ k then none else some (a &&& k)
  | .shr k => if n ≤ k then none else some (a >>> k)

/-- The value of an expression in a type of `n` bits; `none` is a panic. -/
def run (ar : Arith) (n : Nat) (env : Env) : Expr → Option Nat
  | .lit k => if 0 ≤ k ∧ k < (2 ^ n : Nat) then some k.toNat else none
  | .field i => some (cast n ((Expr.field i).eval env))
  | .arg i => some (cast n ((Expr.arg i).eval env))
  | .op o a b =>
    match ar.run n env a, ar.run n env b with
    | some x, some y => ar.op n o x y
    | _, _ => none
  | .lop o a => match ar.run n env a with | some x => lop n o x | none => none

/-- The value of an expression in an attribute. -/
def eval (ar : Arith) (env : Env) : Expr → Option Int
  | .lit k => some k
  | .field i => some ((Expr.field i).eval env)
  | .arg i => some ((Expr.arg i).eval env)
  | .op o a b => (ar.run (ar.bits (.op o a b)) env (.op o a b)).map Int.ofNat
  | .lop o a => (ar.run (ar.bits (.lop o a)) env (.lop o a)).map Int.ofNat

/-- The value of a condition; `&&` and `||` do not evaluate the second operand if the first one decides. -/
def test (ar : Arith) (env : Env) : Cond → Option Bool
  | .eq a b => match ar.eval env a, ar.eval env b with | some x, some y => some (decide (x = y)) | _, _ => none
  | .lt a b => match ar.eval env a, ar.eval env b with | some x, some y => some (decide (x < y)) | _, _ => none
  | .not c => match ar.test env c with | some b => some (!b) | none => none
  | .and c d => match ar.test env c with | some true => ar.test env d | some false => some false | none => none
  | .or c d => match ar.test env c with | some true => some true | some false => ar.test env d | none => none

variable {σ : Type}

def must {α : Type} : Option α → M σ α
  | some a => pure a
  | none => M.panic

def get (ar : Arith) (env : Env) (e : Expr) : M σ Int := must (ar.eval env e)

/-- The arguments of a type, from left to right. -/
def args (ar : Arith) (env : Env) : List Expr → M σ (List Val)
  | [] => pure []
  | e :: es => do
    let x ← ar.get env e
    let xs ← ar.args env es
    pure (.num x :: xs)

/-- The limit of a `Vec`. -/
def limit (ar : Arith) (env : Env) : Lim → M Reader (Limit Val (List Val))
  | .count e => do let n ← ar.get env e; let k ← toUsize n; pure (.count k)
  | .bytes e => do let n ← ar.get env e; let k ← toUsize n; pure (.bytes k)
  | .bits e => do let n ← ar.get env e; let k ← toUsize n; pure (.bits k)
  | .until n => (Lim.until n).toLimit.eval env
  | .all => Lim.all.toLimit.eval env

/-- Whether the field is read: the condition is evaluated only if it decides (deku_read.rs:949-988). -/
def isRead (ar : Arith) (a : DAttrs) (env : Env) : M σ Bool :=
  match a.skip, a.cond with
  | some .all, some c => do let b ← must (ar.test env c); pure !b
  | some .read, some c => do let b ← must (ar.test env c); pure !b
  | some .all, none => pure false
  | some .read, none => pure false
  | some .write, _ => pure true
  | none, some c => must (ar.test env c)
  | none, none => pure true

/-- Whether the field is written (deku_write.rs:814-842). -/
def isWritten (ar : Arith) (a : DAttrs) (env : Env) : M σ Bool :=
  match a.skip, a.cond with
  | some .all, some c => do let b ← must (ar.test env c); pure !b
  | some .write, some c => do let b ← must (ar.test env c); pure !b
  | some .all, none => pure false
  | some .write, none => pure false
  | some .read, _ => pure true
  | none, _ => pure true

/-- `assert_eq` (deku_read.rs:741-759, deku_write.rs:710-730). -/
def check (ar : Arith) (a : DAttrs) (env : Env) (v : Val) : M σ Unit :=
  match a.assertEq with
  | none => pure ()
  | some e => do
    let x ← ar.get env e
    if v ≠ .num x then M.throw .assertion else pure ()

/-- `emit_field_read` (deku_read.rs:652-1011), as in `Attrs.read`. -/
def readField (ar : Arith) (a : DAttrs) (native : Endian) (rd : Env → M Reader Val) (env : Env) : M Reader Val := do
  magicRead native a.magic
  padRead a.padOrder (a.padBefore.map fun n _ => n) env
  let yes ← ar.isRead a (env.at 0)
  let v ← if yes then rd (env.at 0) else pure a.default
  ar.check a (env.at 0) v
  padRead a.padOrder (a.padAfter.map fun n _ => n) ((env.at 0).push v)
  pure v

/-- `emit_field_write` (deku_write.rs:604-862), as in `Attrs.write`. -/
def writeField (ar : Arith) (a : DAttrs) (native : Endian) (wr : Env → Val → M Writer Unit) (env : Env) (v : Val) :
    M Writer Unit := do
  magicWrite native a.magic
  padWrite a.padOrder (a.padBefore.map fun n _ => n) env
  ar.check a (env.at 0) v
  let yes ← ar.isWritten a (env.at 0)
  if yes then wr (env.at 0) v else pure ()
  padWrite a.padOrder (a.padAfter.map fun n _ => n) ((env.at 0).push v)

end Arith

/-- The arguments of the `ctx` attribute, which are evaluated once for all the values in a field. -/
def Def.given : Def → List Expr
  | .leaf _ _ => []
  | .option t => t.given
  | .array _ t => t.given
  | .pair a b => a.given ++ b.given
  | .vec _ _ t => t.given
  | .bytes _ _ => []
  | .struct args _ _ => args
  | .enum args _ _ _ => args

mutual

/-- `from_reader_with_ctx` of a type (`Ty.read` of `Def.toTy`). -/
def Def.readIn (m : Machine) (ar : Arith) : Def → Env → M Reader Val
  | .leaf _ l, _ => (l.codec m).read
  | .option t, env => do
    let v ← t.readIn m ar env
    pure (.some v)
  | .array n t, env => do
    let _ ← ar.args env t.given
    let vs ← Coll.arrayRead (t.readIn m ar env) n
    pure (.ofList vs)
  | .pair a b, env => do
    let _ ← ar.args env (a.given ++ b.given)
    let x ← a.readIn m ar env
    let y ← b.readIn m ar env
    pure (.cons x (.cons y .nil))
  | .vec zst l t, env => do
    let lim ← ar.limit env l
    let _ ← ar.args env t.given
    let vs ← Coll.vecRead m.mem (if zst then 0 else 1) (t.readIn m ar env) lim
    pure (.ofList vs)
  | .bytes n _, env => do
    let n ← ar.get env n
    let k ← toUsize n
    let bs ← Coll.readExact k
    pure (.ofList (bs.map .ofByte))
  | .struct args magic fs, env => do
    let ctx ← ar.args env args
    magicRead m.native magic
    fs.readIn m ar { ctx := ctx }
  | .enum args magic id vs, env => do
    let ctx ← ar.args env args
    magicRead m.native magic
    match id with
    | .arg e => do
      let x ← ar.get { ctx := ctx } e
      dispatch ((vs.toVariants m).select { ctx := ctx } (.num x)) (vs.readInAt m ar { ctx := ctx } (.num x) false)
    | .typed _ W c _ => do
      let x ← (uintCodec m.native W c).read
      dispatch ((vs.toVariants m).select { ctx := ctx } x) (vs.readInAt m ar { ctx := ctx } x true)

def DFields.readIn (m : Machine) (ar : Arith) : DFields → Env → M Reader Val
  | .nil, _ => pure .nil
  | .cons a t rest, env => do
    let v ← ar.readField a m.native (t.readIn m ar) env
    let vs ← rest.readIn m ar (env.push v)
    pure (.cons v vs)
  | .temp a t _ rest, env => do
    let v ← ar.readField a m.native (t.readIn m ar) env
    rest.readIn m ar (env.push v)

def DFields.readInStored (m : Machine) (ar : Arith) : DFields → Env → Val → M Reader Val
  | .nil, _, _ => pure .nil
  | .cons _ _ rest, env, id => do
    let vs ← rest.readIn m ar (env.push id)
    pure (.cons id vs)
  | .temp _ _ _ rest, env, id => rest.readIn m ar (env.push id)

def DVariants.readInAt (m : Machine) (ar : Arith) : DVariants → Env → Val → Bool → Nat → M Reader Val
  | .nil, _, _, _, _ => M.panic
  | .cons a fs _, env, id, typed, 0 =>
    if a.kind.isPat && typed then fs.readInStored m ar env id else fs.readIn m ar env
  | .cons _ _ rest, env, id, typed, i + 1 => rest.readInAt m ar env id typed i

end

mutual

/-- `to_writer` of a type (`Ty.write` of `Def.toTy`). Limits are not evaluated. -/
def Def.writeIn (m : Machine) (ar : Arith) : Def → Env → Val → M Writer Unit
  | .leaf _ l, _, v => (l.codec m).write v
  | .option t, env, v =>
    match v with
    | .none => do
      let _ ← ar.args env t.given
      pure ()
    | .some x => t.writeIn m ar env x
    | _ => M.panic
  | .array n t, env, v => do
    let _ ← ar.args env t.given
    if v.isList ∧ v.elems.length = n then Coll.writeAll (t.writeIn m ar env) v.elems else M.panic
  | .pair a b, env, v => do
    let _ ← ar.args env (a.given ++ b.given)
    match v with
    | .cons x (.cons y .nil) => do
      a.writeIn m ar env x
      b.writeIn m ar env y
    | _ => M.panic
  | .vec _ _ t, env, v => do
    let _ ← ar.args env t.given
    if v.isList then Coll.writeAll (t.writeIn m ar env) v.elems else M.panic
  | .bytes _ ctx, _, v =>
    if v.isBytes then Coll.writeAll (Coll.u8Write m.native ctx) (v.elems.map Val.toByte) else M.panic
  | .struct args magic fs, env, v => do
    let ctx ← ar.args env args
    magicWrite m.native magic
    fs.writeIn m ar { ctx := ctx } v v
  | .enum args magic id vs, env, v => do
    let ctx ← ar.args env args
    match v with
    | .variant i fs => do
      magicWrite m.native magic
      vs.writeInAt m ar { ctx := ctx } id i fs
    | _ => M.panic

def DFields.writeIn (m : Machine) (ar : Arith) : DFields → Env → Val → Val → M Writer Unit
  | .nil, _, _, v => if v = .nil then pure () else M.panic
  | .cons a t rest, env, all, v =>
    match v with
    | .cons x xs => do
      ar.writeField a m.native (t.writeIn m ar) env x
      rest.writeIn m ar (env.push x) all xs
    | _ => M.panic
  | .temp a t value rest, env, all, v => do
    ar.writeField a m.native (t.writeIn m ar) env (value.eval all)
    rest.writeIn m ar (env.push (value.eval all)) all v

def DFields.writeInStored (m : Machine) (ar : Arith) (id : DId) : DFields → Env → Val → M Writer Unit
  | .nil, _, v => if v = .nil then pure () else M.panic
  | .cons _ _ rest, env, v =>
    match v with
    | .cons x xs => do
      id.store m env x
      rest.writeIn m ar (env.push x) v xs
    | _ => M.panic
  | .temp _ _ _ _, _, _ => M.panic

def DVariants.writeInAt (m : Machine) (ar : Arith) : DVariants → Env → DId → Nat → Val → M Writer Unit
  | .nil, _, _, _, _ => M.panic
  | .cons a fs _, env, id, 0, v => do
    match id, a.kind.idVal with
    | .typed _ W c _, some x => (uintCodec m.native W c).write x
    | _, _ => pure ()
    if a.kind.isPat then fs.writeInStored m ar id env v else fs.writeIn m ar env v v
  | .cons _ _ rest, env, id, i + 1, v => rest.writeInAt m ar env id i v

end

end Deku
