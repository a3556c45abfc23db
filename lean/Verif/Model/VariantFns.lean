import Verif.Model.Derive

/-!
# `reader` and `writer` on a variant

The arm of a variant with `reader` is `{ reader; }` (deku_read.rs:307-308), so that the value of the tokens is
thrown away; that of a variant with `writer` is `{ writer?; }` (deku_write.rs:324-325), without the id of the variant.
-/

namespace Deku

/-! ## Types of the emitted code -/

/-- The type of an expression in the body of `from_reader_with_ctx`: `Self`, `()`, `!` or another one (as
`Result<Self, DekuError>`). -/
inductive RTy
  | self
  | unit
  | never
  | other
  deriving DecidableEq, Repr

/-- The tokens of `reader` on a variant, an expression. -/
inductive VReader
  /-- `return f`, for an `f` of type `Result<Self, DekuError>` that can refer to the arguments of the context. -/
  | ret (f : Env → M Reader Val)
  /-- An expression of the given type without a `return`. One of type `!` panics (or does not end, which is
  not modelled). What others do does not matter, as they do not compile. -/
  | expr (t : RTy)

def VReader.ty : VReader → RTy
  | .ret _ => .never
  | .expr t => t

/-- A block: statements of the given types, each with `;`, and maybe an expression at the end. If a statement
does not return, then the block does not; without an expression it is a `()`. -/
def blockTy (stmts : List RTy) (last : Option RTy) : RTy :=
  if .never ∈ stmts then .never else last.getD .unit

/-- The type of a `match`: that of all arms that return; `none` if they differ. -/
def matchTy : List RTy → Option RTy
  | [] => some .never
  | t :: ts =>
    match matchTy ts with
    | none => none
    | some u => if t = .never then some u else if u = .never ∨ u = t then some t else none

/-- The type of `variant_read_func` (deku_read.rs:307-340). The reads of the fields are `let` statements. -/
def variantTy : Option VReader → RTy
  | some r => blockTy [r.ty] none
  | none => blockTy [.unit] (some .self)

/-- The arms of the `match` (deku_read.rs:352-377): the variants, then, unless a variant has the pattern `_` (`wild`),
the error or a copy of the variant marked `default`. -/
def armTys (readers : List (Option VReader)) (wild : Bool) (default : Option Nat) : List RTy :=
  readers.map variantTy ++
    if wild then []
    else match default with
      | none => [blockTy [.never] none]
      | some i => [variantTy ((readers[i]?).getD none)]

/-- `let __deku_value = match …; Ok(__deku_value)` has type `Result<Self, DekuError>` (deku_read.rs:392-400, 452-462). -/
def readerCompiles (readers : List (Option VReader)) (wild : Bool) (default : Option Nat) : Bool :=
  match matchTy (armTys readers wild default) with
  | some t => t = .self || t = .never
  | none => false

/-! ## What it does -/

/-- The functions of a variant. The writer can refer to the arguments of the context and to the fields. -/
structure VFns where
  reader : Option VReader := none
  writer : Option (Env → Val → M Writer Unit) := none

/-- A derived enum, as `Ty.enum`, and the functions of its variants by their numbers. -/
structure FEnum where
  args : Env → List Val
  magic : List Byte
  id : IdSrc
  store : Nat → Env → Val → M Writer Unit
  vs : Variants
  fns : Nat → VFns

namespace FEnum

/-- The enum without the functions. -/
def plain (e : FEnum) : Ty := .enum e.args e.magic e.id e.store e.vs

/-- The arm of variant number `i` in `from_reader_with_ctx` (deku_read.rs:307-340); with a `return` the function
ends here. -/
def readArm (m : Machine) (e : FEnum) (env : Env) (x : Val) (typed : Bool) (i : Nat) : M Reader Val :=
  match (e.fns i).reader with
  | some (.ret f) => f env
  | some (.expr _) => M.panic
  | none => do
    let fs ← e.vs.readAt m env x typed i
    pure (.variant i fs)

/-- The `match` of `from_reader_with_ctx` (deku_read.rs:352-377, 397-399). -/
def pick (m : Machine) (e : FEnum) (env : Env) (x : Val) (typed : Bool) : M Reader Val :=
  match e.vs.select env x with
  | none => M.throw .parse
  | some i => e.readArm m env x typed i

/-- `from_reader_with_ctx` (deku_read.rs:379-400, 452-462). -/
def read (m : Machine) (e : FEnum) (env : Env) : M Reader Val := do
  let env := { ctx := e.args env }
  magicRead m.native e.magic
  match e.id with
  | .ctx f => e.pick m env (f env) false
  | .typed _ c => do
    let x ← (c env).read
    e.pick m env x true

/-- The arm of variant number `i` in `to_writer` (deku_write.rs:324-341). -/
def writeArm (m : Machine) (e : FEnum) (env : Env) (i : Nat) (v : Val) : M Writer Unit :=
  match (e.fns i).writer with
  | some w => w env v
  | none => e.vs.writeAt m env e.id (e.store i) i v

/-- `to_writer` (deku_write.rs:398-406). -/
def write (m : Machine) (e : FEnum) (env : Env) (v : Val) : M Writer Unit :=
  match v with
  | .variant i fs => do
    let env := { ctx := e.args env }
    magicWrite m.native e.magic
    e.writeArm m env i fs
  | _ => M.panic

/-- `deku_id`: a variant with `reader` has no arm (deku_read.rs:307-333, 500-513). -/
def dekuId (e : FEnum) (v : Val) : Res Val :=
  match v with
  | .variant i _ => if (e.fns i).reader.isSome then .err .idVariantNotFound else e.vs.dekuIdAt i
  | _ => .panic

end FEnum

end Deku
