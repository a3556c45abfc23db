import Verif.Model.Core

/-!
# From attributes to code

`Model.Core` and `Model.Derive` start from the context argument of each field. Here it is computed from the
attributes as they are written in the source, as the macros do: attributes of the type are inherited by its fields,
`gen_field_args` and `gen_id_args` make a list of arguments, and the implementations of the traits decide which lists
of arguments a type takes. `STy.elab` gives the definition of `Model.Core`, or nothing if the source is rejected by
the macros or does not compile.

The definitions of named types are written out in place. Attributes that `Model.Core` does not have, and
`id_pat` together with an id from the context, are left out; feature `bits` is on. Fields that are never read and
never written are rejected here if their type has no fitting implementation, which the compiler does not see.
The types of numbers given as context are not compared, nor those of the elements of several lists with one limit.
-/

namespace Deku

/-- What `endian` and `bit_order` are given as: `"little"`, `"big"`, `"msb"`, `"lsb"`, or the name of an argument of
the context (`gen_endian_from_str`, `gen_bit_order_from_str`, deku-derive/src/macros/mod.rs:323-349). -/
inductive Given (α : Type)
  | lit (a : α)
  | arg (i : Nat)
  deriving DecidableEq, Repr

/-- An argument in an attribute `ctx` or `ctx_default`. -/
inductive CtxArg
  | endian (g : Given Endian)
  | order (g : Given Order)
  | num (e : Expr)
  deriving DecidableEq, Repr

/-- An argument as it is passed. -/
inductive Arg
  | endian (e : Endian)
  | bits (n : Nat)
  | bytes (n : Nat)
  | order (o : Order)
  | num (e : Expr)
  deriving DecidableEq, Repr

/-- The type of an argument in the `ctx` of a type. -/
inductive Param
  | endian
  | order
  | num
  deriving DecidableEq, Repr

def Given.endian (env : List Arg) : Given Endian → Option Endian
  | .lit e => some e
  | .arg i => match env[i]? with | some (.endian e) => some e | _ => none

def Given.order (env : List Arg) : Given Order → Option Order
  | .lit o => some o
  | .arg i => match env[i]? with | some (.order o) => some o | _ => none

def CtxArg.eval (env : List Arg) : CtxArg → Option Arg
  | .endian g => (g.endian env).map .endian
  | .order g => (g.order env).map .order
  | .num e => some (.num e)

/-- `x` if the attribute is there. An attribute that cannot be evaluated does not compile. -/
def evalOpt {α β : Type} (f : α → Option β) : Option α → Option (Option β)
  | none => some none
  | some a => (f a).map some

/-- `gen_field_args` (deku-derive/src/macros/mod.rs:289-321): the arguments given, in this order. `gen_id_args`
(mod.rs:252-283) is the same without `ctx`. -/
def fieldArgs (endian : Option Endian) (bits bytes : Option Nat) (order : Option Order) (ctx : List Arg) : List Arg :=
  (endian.map Arg.endian).toList ++ (bits.map Arg.bits).toList ++ (bytes.map Arg.bytes).toList ++
    (order.map Arg.order).toList ++ ctx

/-- The implementations of the traits for integers, one for each of these types of context (src/impls/primitive.rs:
384-785; `(ByteSize, Order)` is not among them). -/
def intArgs : List Arg → Option IntCtx
  | [] => some .unit
  | [.endian e] => some (.endian e)
  | [.bits n] => some (.bits n)
  | [.bytes n] => some (.bytes n)
  | [.order o] => some (.order o)
  | [.endian e, .order o] => some (.endianOrder e o)
  | [.endian e, .bits n] => some (.endianBits e n)
  | [.endian e, .bytes n] => some (.endianBytes e n)
  | [.bits n, .order o] => some (.bitsOrder n o)
  | [.endian e, .bits n, .order o] => some (.endianBitsOrder e n o)
  | [.endian e, .bytes n, .order o] => some (.endianBytesOrder e n o)
  | _ => none

/-- The implementations for `NonZero` types (src/impls/nonzero.rs:39-60): not all of those for integers. -/
def nonzeroArgs : List Arg → Option IntCtx
  | [] => some .unit
  | [.endian e] => some (.endian e)
  | [.endian e, .bits n] => some (.endianBits e n)
  | [.endian e, .bytes n] => some (.endianBytes e n)
  | [.endian e, .bits n, .order o] => some (.endianBitsOrder e n o)
  | [.endian e, .bytes n, .order o] => some (.endianBytesOrder e n o)
  | _ => none

/-- Types with their own implementations; `W` is the size of the integer in bytes. -/
inductive Base
  | uint (W : Nat)
  | sint (W : Nat)
  | nonzero (W : Nat)
  | nonzeroSigned (W : Nat)
  | bool
  | cstring
  | unit
  deriving DecidableEq, Repr

namespace Base

/-- `bool` takes any context that `u8` takes (src/impls/bool.rs:7-40), a `CString` is read without a context or with a
`ByteSize` (src/impls/cstring.rs:24-80), `()` takes everything (src/impls/unit.rs). -/
def leaf (args : List Arg) : Base → Option Leaf
  | .uint W => (intArgs args).map (.uint W)
  | .sint W => (intArgs args).map (.sint W)
  | .nonzero W => (nonzeroArgs args).map (.nonzero W)
  | .nonzeroSigned W => (nonzeroArgs args).map (.nonzeroSigned W)
  | .bool => (intArgs args).map .bool
  | .cstring => match args with | [] => some .cstring | [.bytes n] => some (.cstringSized n) | _ => none
  | .unit => some .unit

/-- `SIZE_BITS` of the type (src/impls/primitive.rs, src/impls/bool.rs). -/
def size : Base → Option Nat
  | .uint W => some (8 * W)
  | .sint W => some (8 * W)
  | .bool => some 8
  | _ => none

/-- `Default::default()`. -/
def default : Base → Option Val
  | .uint _ => some (.num 0)
  | .sint _ => some (.num 0)
  | .bool => some (.num 0)
  | .cstring => some .nil
  | .unit => some .nil
  | _ => none

end Base

/-- The attributes of a field (`FieldData`, deku-derive/src/lib.rs:613-710). -/
structure SAttrs where
  endian : Option (Given Endian) := none
  order : Option (Given Order) := none
  bits : Option Nat := none
  bytes : Option Nat := none
  ctx : List CtxArg := []
  count : Option Expr := none
  bytesRead : Option Expr := none
  bitsRead : Option Expr := none
  untilEq : Option Int := none
  readAll : Bool := false
  magic : List Byte := []
  padBitsBefore : Option Nat := none
  padBytesBefore : Option Nat := none
  padBitsAfter : Option Nat := none
  padBytesAfter : Option Nat := none
  skip : Option SkipMode := none
  cond : Option Cond := none
  default : Option Val := none
  assertEq : Option Expr := none
  /-- `temp` with `temp_value`. -/
  temp : Option Temp := none

namespace SAttrs

/-- `FieldData::validate` (deku-derive/src/lib.rs:821-893). -/
def validate (a : SAttrs) : Bool :=
  !(a.bitsRead.isSome && a.bytesRead.isSome) &&
  !(a.count.isSome && (a.bitsRead.isSome || a.bytesRead.isSome)) &&
  !(a.bits.isSome && a.bytes.isSome) &&
  !(a.default.isSome && (a.skip.isNone && a.cond.isNone)) &&
  !(a.readAll && (a.untilEq.isSome || a.count.isSome || (a.bitsRead.isSome || a.bytesRead.isSome)))

/-- `FieldData::any_field_set` (deku-derive/src/lib.rs:713-771): `default` is not among them. -/
def anySet (a : SAttrs) : Bool :=
  a.endian.isSome || a.bits.isSome || a.bytes.isSome || a.count.isSome || a.bitsRead.isSome || a.bytesRead.isSome ||
  a.untilEq.isSome || decide (a.ctx ≠ []) || a.padBitsBefore.isSome || a.padBytesBefore.isSome || a.padBitsAfter.isSome ||
  a.padBytesAfter.isSome || a.temp.isSome || a.cond.isSome || a.assertEq.isSome || a.order.isSome ||
  decide (a.magic ≠ []) || a.readAll || a.skip.isSome

/-- The limit, if the emitted code has one (deku_read.rs:817-918): the first of these attributes. -/
def limit (a : SAttrs) : Option Lim :=
  match a.count with
  | some e => some (.count e)
  | none =>
    match a.bytesRead with
    | some e => some (.bytes e)
    | none =>
      match a.untilEq with
      | some n => some (.until n)
      | none => if a.readAll then some .all else a.bitsRead.map .bits

end SAttrs

/-- `pad_bits` (deku-derive/src/macros/mod.rs:380-395). -/
def padOf (bits bytes : Option Nat) : Option Nat :=
  match bits, bytes with
  | some n, some k => some (n + k * 8)
  | some n, none => some n
  | none, some k => some (k * 8)
  | none, none => none

/-- The attributes of a struct or an enum that concern all its fields (`DekuData`, deku-derive/src/lib.rs:216-278). -/
structure Container where
  /-- `ctx`. -/
  params : List Param := []
  ctxDefault : Option (List CtxArg) := none
  endian : Option (Given Endian) := none
  order : Option (Given Order) := none
  magic : List Byte := []

def Arg.fits : Arg → Param → Bool
  | .endian _, .endian => true
  | .order _, .order => true
  | .num _, .num => true
  | _, _ => false

/-- An expression in `ctx_default`, which nothing is in scope of. -/
def CtxArg.closed : CtxArg → Option Arg
  | .num (.lit n) => some (.num (.lit n))
  | .num _ => none
  | a => a.eval []

/-- The arguments of the context of a type: the impl for `ctx` takes exactly these, and with `ctx_default` there is
an impl for `()` as well (`gen_ctx_types_and_arg`, mod.rs:175-200; `wrap_default_ctx`, mod.rs:351-368). -/
def Container.bind (c : Container) (args : List Arg) : Option (List Arg) :=
  if args.length = c.params.length ∧ (args.zip c.params).all fun p => p.1.fits p.2 then some args
  else match args, c.ctxDefault with
    | [], some l => l.mapM CtxArg.closed
    | _, _ => none

/-- The numbers among the arguments are values at run time; the others are known here. -/
def Arg.expr : Arg → Expr
  | .num e => e
  | _ => .lit 0

/-- The id of an enum. -/
inductive SId
  /-- `id_type` with `id_endian`, `bits` and `bytes`. -/
  | typed (W : Nat) (endian : Option (Given Endian)) (bits bytes : Option Nat)
  /-- `id`. -/
  | ctx (e : Expr)

/-- `DekuData::validate` for enums (deku-derive/src/lib.rs:448-490): not both `bits` and `bytes`. -/
def SId.validate : SId → Bool
  | .typed _ _ bits bytes => !(bits.isSome && bytes.isSome)
  | .ctx _ => true

mutual

inductive STy
  | base (b : Base)
  | option (t : STy)
  | array (n : Nat) (t : STy)
  | pair (a b : STy)
  /-- `Vec<T>`; `zst`: the elements have size 0. -/
  | vec (zst : Bool) (t : STy)
  | struct (c : Container) (fs : SFields)
  | enum (c : Container) (id : SId) (vs : SVariants)

inductive SFields
  | nil
  | cons (a : SAttrs) (t : STy) (rest : SFields)

inductive SVariants
  | nil
  | cons (a : DVAttrs) (fs : SFields) (rest : SVariants)

end

/-- The type is `Vec<u8>` (deku_read.rs:818-835). -/
def STy.isVecU8 : STy → Bool
  | .vec _ (.base (.uint 1)) => true
  | _ => false

mutual

/-- `Default::default()`, derived for structs. -/
def STy.default : STy → Option Val
  | .base b => b.default
  | .option _ => some .none
  | .array n t => do let v ← t.default; pure (.ofList (List.replicate n v))
  | .pair a b => do let x ← a.default; let y ← b.default; pure (.cons x (.cons y .nil))
  | .vec _ _ => some .nil
  | .struct _ fs => fs.default
  | .enum _ _ _ => none

def SFields.default : SFields → Option Val
  | .nil => some .nil
  | .cons a t rest => do
    let vs ← rest.default
    if a.temp.isSome then pure vs
    else do
      let v ← t.default
      pure (.cons v vs)

end

/-- The number of variants marked `default` (deku_read.rs:342-350: more than one is rejected). -/
def SVariants.defaults : SVariants → Nat
  | .nil => 0
  | .cons a _ rest => (if a.default then 1 else 0) + rest.defaults

/-- Some variant is given by a pattern, so that there is code that writes a stored id. -/
def SVariants.anyPat : SVariants → Bool
  | .nil => false
  | .cons a _ rest => a.kind.isPat || rest.anyPat

/-- The value a field has if it is not read: `default`, otherwise `Default::default()`, which is needed only if the
code uses it (deku_read.rs:947-988). -/
def SAttrs.defaultValue (a : SAttrs) (t : Option Val) : Option Val :=
  match a.default, a.skip, a.cond with
  | some v, _, _ => some v
  | none, some .write, _ => some (.num 0)
  | none, none, none => some (.num 0)
  | none, _, _ => t

/-- The attributes that do not belong to the type. -/
def SAttrs.rest (a : SAttrs) (order : Option Order) (default : Val) : DAttrs :=
  { magic := a.magic, padBefore := padOf a.padBitsBefore a.padBytesBefore,
    padAfter := padOf a.padBitsAfter a.padBytesAfter, padOrder := order, skip := a.skip, cond := a.cond,
    default := default, assertEq := a.assertEq,
    sizeAttr := match a.bits with | some n => some n | none => a.bytes.map (8 * ·) }

/-- The id of an enum is read with `gen_id_args`: `id_endian`, otherwise `endian` (mod.rs:252-283). The field that
stores it is written with `id_endian` only (deku_write.rs:612-638); there is code for that only if there is a variant
given by a pattern, and otherwise the second context here is the first. -/
def SId.elab (c : Container) (env : List Arg) (anyPat : Bool) : SId → Option DId
  | .ctx e => some (.arg e)
  | .typed W idEndian bits bytes => do
    let endian ← evalOpt (·.endian env) (idEndian.or c.endian)
    let order ← evalOpt (·.order env) c.order
    let ctx ← intArgs (fieldArgs endian bits bytes order [])
    let stored ← evalOpt (·.endian env) (if anyPat then idEndian else idEndian.or c.endian)
    let store ← intArgs (fieldArgs stored bits bytes order [])
    pure (.typed (some (match bits with | some n => n | none => match bytes with | some k => 8 * k | none => 8 * W))
      W ctx store)

/-- The size of `id_type`. -/
def SId.size : SId → Option Nat
  | .typed W _ _ _ => some W
  | .ctx _ => none

/-- A `Vec<u8>` with a `count` is read with `ReadExact`, and written with the arguments (deku_read.rs:817-844). -/
def SAttrs.fast (a : SAttrs) (isVecU8 : Bool) (args : List Arg) (d : Option Def) : Option Def :=
  match a.count, isVecU8 with
  | some n, true => (intArgs args).map (.bytes n)
  | _, _ => d

/-- The field, if the macro accepts its attributes. -/
def SAttrs.emit (a : SAttrs) (da : DAttrs) (d : Def) (rest : DFields) : Option DFields :=
  match a.validate, a.temp with
  | true, none => some (.cons da d rest)
  | true, some v => some (.temp da d v rest)
  | false, _ => none

mutual

/-- The definition that the type with this limit and these arguments stands for. `Option`, arrays and pairs pass on
what they get, the limit included; a `Vec` needs a limit and does not pass it on (src/impls/option.rs:5, slice.rs:9,
tuple.rs:40, vec.rs:112). -/
def STy.elab (lim : Option Lim) (args : List Arg) : STy → Option Def
  | .base b =>
    if lim.isSome ∧ b ≠ .unit then none else do
      let l ← b.leaf args
      pure (.leaf b.size l)
  | .option t => do let d ← t.elab lim args; pure (.option d)
  | .array n t => do let d ← t.elab lim args; pure (.array n d)
  | .pair a b => do let x ← a.elab lim args; let y ← b.elab lim args; pure (.pair x y)
  | .vec zst t =>
    match lim with
    | none => none
    | some l => do let d ← t.elab none args; pure (.vec zst l d)
  | .struct c fs =>
    if lim.isSome then none else do
      let env ← c.bind args
      let ds ← fs.elab c env
      pure (.struct (env.map Arg.expr) c.magic ds)
  | .enum c id vs =>
    if lim.isSome ∨ id.validate = false ∨ 1 < vs.defaults then none else do
      let env ← c.bind args
      let did ← id.elab c env vs.anyPat
      let ds ← vs.elab c env id.size
      pure (.enum (env.map Arg.expr) c.magic did ds)

/-- `emit_field_read` and `emit_field_write`: `endian` and `bit_order` of the field, otherwise of the type
(deku_read.rs:662-663, deku_write.rs:641-642). -/
def SFields.elab (c : Container) (env : List Arg) : SFields → Option DFields
  | .nil => some .nil
  | .cons a t rest => do
    let endian ← evalOpt (·.endian env) (a.endian.or c.endian)
    let order ← evalOpt (·.order env) (a.order.or c.order)
    let ctx ← a.ctx.mapM (·.eval env)
    let args := fieldArgs endian a.bits a.bytes order ctx
    let dflt ← a.defaultValue t.default
    let d ← a.fast t.isVecU8 args (t.elab a.limit args)
    let ds ← rest.elab c env
    a.emit (a.rest order dflt) d ds

/-- The first field of an `id_pat` variant of an enum with an `id_type` of `W` bytes has this type and no attributes
(deku_read.rs:806-816). -/
def SFields.elabStored (c : Container) (env : List Arg) (typed : Option Nat) : SFields → Option DFields
  | .nil => none
  | .cons a t rest =>
    match typed, t with
    | some W, .base (.uint W') =>
      if a.anySet = false ∧ W' = W then do
        let ds ← rest.elab c env
        pure (.cons {} (.leaf (some (8 * W)) (.uint W .unit)) ds)
      else none
    | _, _ => none

def SVariants.elab (c : Container) (env : List Arg) (typed : Option Nat) : SVariants → Option DVariants
  | .nil => some .nil
  | .cons a fs rest => do
    let ds ← if a.kind.isPat then fs.elabStored c env typed else fs.elab c env
    let vs ← rest.elab c env typed
    pure (.cons a ds vs)

end

/-- A type that is parsed by `from_bytes` and written by `to_bytes`: its context is `()`. -/
def STy.compile (t : STy) : Option Def := t.elab none []

end Deku
