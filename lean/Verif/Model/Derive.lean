import Verif.Model.Containers
import Verif.Model.Toplevel

/-!
# Derived code (deku-derive)

The derive macros emit one `from_reader_with_ctx` and one `to_writer` per struct or enum. Here a
definition is data (`Ty`, `Fields`, `Variants`: the types with their `#[deku(..)]` attributes) and
`Ty.read`, `Ty.write`, `Ty.size` are the emitted code.

Attribute expressions are arbitrary (total, pure) functions of what is in scope: the `ctx` arguments,
the fields before, and `deku::bit_offset`. Their own panics (an overflow inside the expression) are
not modelled.

Values of all types are of one type `Val`; a value that is not of the right shape does not exist in
Rust, and writing it is a panic in the model.
-/

namespace Deku

/-- Values of the types that are read and written. -/
inductive Val
  /-- An integer, a bool (0 or 1), a character, the bits of a float. -/
  | num (n : Int)
  | none
  | some (v : Val)
  /-- `Vec`, arrays, tuples and the fields of a struct are lists. -/
  | nil
  | cons (v : Val) (vs : Val)
  /-- Variant number `i` of an enum with its fields. -/
  | variant (i : Nat) (fs : Val)
  deriving DecidableEq, Repr

namespace Val

def ofList : List Val → Val
  | [] => .nil
  | v :: vs => .cons v (ofList vs)

/-- The elements of a list value. -/
def elems : Val → List Val
  | .cons v vs => v :: elems vs
  | _ => []

def isList : Val → Bool
  | .nil => true
  | .cons _ vs => isList vs
  | _ => false

def ofByte (b : Byte) : Val := .num b.toNat

def toByte : Val → Byte
  | .num n => BitVec.ofInt 8 n
  | _ => 0

/-- A list of bytes. -/
def isBytes (v : Val) : Bool := v.isList && v.elems.all fun x => decide (x = ofByte (toByte x))

end Val

/-- What attribute expressions can refer to: the `ctx` arguments of the type, the fields before (the
last one first), and `deku::bit_offset`. -/
structure Env where
  ctx : List Val := []
  vars : List Val := []
  off : Nat := 0

namespace Env

/-- `let field = &__deku_field;` -/
def push (env : Env) (v : Val) : Env := { env with vars := v :: env.vars }

/-- `let __deku_bit_offset = ..;` -/
def «at» (env : Env) (off : Nat) : Env := { env with off := off }

end Env

/-- The implementations of `DekuReader` and `DekuWriter` of a type, for one context argument; also a
pair of `reader` and `writer` attributes. -/
structure Codec where
  read : M Reader Val
  write : Val → M Writer Unit

/-- The machine: its endianness and the number of elements a collection can hold. -/
structure Machine where
  native : Endian
  mem : Nat

/-- `usize::try_from(x)?`: `TryFromIntError` becomes `Parse` (src/error.rs:129-133). -/
def toUsize {σ : Type} (n : Int) : M σ Nat :=
  if 0 ≤ n ∧ n < 2 ^ 64 then pure n.toNat else M.throw .parse

/-- `SkipMode` (deku-derive/src/lib.rs:160-167). -/
inductive SkipMode
  | all
  | read
  | write
  deriving DecidableEq

/-- The attributes of a field that do not belong to its type. The attributes `count`, `until`,
`bytes_read`, `bits_read`, `read_all`, `endian`, `bits`, `bytes`, `bit_order`, `ctx` are part of the
`Ty` of the field. -/
structure Attrs where
  /-- `seek_*`; `none` is a number that does not fit, on which the emitted code panics. -/
  seek : Option (Env → Option SeekFrom) := none
  /-- `magic`; the empty one is the same as none. -/
  magic : List Byte := []
  /-- `pad_bits_before` plus eight times `pad_bytes_before`. -/
  padBefore : Option (Env → Int) := none
  padAfter : Option (Env → Int) := none
  /-- `bit_order` of the field or of the type. -/
  padOrder : Option Order := none
  /-- One of the attributes mentions `deku::bit_offset` or `deku::byte_offset`. -/
  usesOffset : Bool := false
  skip : Option SkipMode := none
  cond : Option (Env → Bool) := none
  default : Env → Val := fun _ => .num 0
  /-- `map`: without it `Ok`. -/
  map : Env → Val → Except DekuError Val := fun _ v => .ok v
  /-- A `writer` which first converts the value back to what `map` was applied to. -/
  unmap : Env → Val → Val := fun _ v => v
  assert : Env → Val → Bool := fun _ _ => true
  assertEq : Env → Option Val := fun _ => none
  /-- `update`: the value of the field from all fields of the type, with `try_into()?`. -/
  update : Option (Val → Except DekuError Val) := none
  /-- `bits`, or eight times `bytes`: counted in `SIZE_BITS` in place of the size of the type. -/
  sizeAttr : Option Nat := none

/-! ## Pieces of emitted code -/

/-- `emit_magic_read_lit` (deku_read.rs:531-542). -/
def magicRead (native : Endian) : List Byte → M Reader Unit
  | [] => pure ()
  | b :: bs => do
    let v ← Coll.u8Read native
    if b ≠ v then M.throw .parse else magicRead native bs

/-- `emit_magic_write` (deku_write.rs:455-464) and the field's `magic_write` (deku_write.rs:643-649):
`to_writer` of the `&[u8; N]`. -/
def magicWrite (native : Endian) (magic : List Byte) : M Writer Unit :=
  Coll.writeAll (Coll.u8Write native .unit) magic

/-- `usize::try_from(pad).map_err(|e| InvalidParam)?` (deku_read.rs:611-613, 621-623;
deku_write.rs:553-555, 568-570). -/
def padSize {σ : Type} (n : Int) : M σ Nat :=
  if 0 ≤ n ∧ n < 2 ^ 64 then pure n.toNat else M.throw .invalidParam

/-- `emit_padding` (deku_read.rs:604-628). -/
def padRead (order : Option Order) (pad : Option (Env → Int)) (env : Env) : M Reader Unit :=
  match pad with
  | none => pure ()
  | some f => do
    let n ← padSize (f env)
    Reader.skipBits n (order.getD .msb0)

/-- `PAD_ARRAY_SIZE * 8` (deku-derive/src/lib.rs:51, deku_write.rs:547). -/
def padChunk : Nat := 64 * 8

/-- The loop `while __deku_pad > 0` (deku_write.rs:557-561, 572-576); every iteration writes at least
one bit, so `n` iterations are always enough. -/
def padLoop (order : Order) : Nat → Nat → M Writer Unit
  | 0, _ => pure ()
  | fuel + 1, n =>
    if n = 0 then pure ()
    else do
      Writer.writeBitsOrder (List.replicate (min padChunk n) false) order
      padLoop order fuel (n - min padChunk n)

/-- `emit_padding` (deku_write.rs:545-580). `write_bits` is `write_bits_order` with Msb0. -/
def padWrite (order : Option Order) (pad : Option (Env → Int)) (env : Env) : M Writer Unit :=
  match pad with
  | none => pure ()
  | some f => do
    let n ← padSize (f env)
    padLoop (order.getD .msb0) n n

/-- `if let Err(e) = __deku_reader.seek(..) { return Err(Io(e.kind())) }` (deku_read.rs:46-90,
683-724); the `unwrap`/`expect` of the conversion panics. -/
def seekRead (s : Option (Env → Option SeekFrom)) (env : Env) : M Reader Unit :=
  match s with
  | none => pure ()
  | some f =>
    match f env with
    | none => M.panic
    | some p => do
      match ← Reader.seek p with
      | .ok _ => pure ()
      | .error e => M.throw (.io e)

/-- The same on the writer (deku_write.rs:36-80, 651-692). -/
def seekWrite (s : Option (Env → Option SeekFrom)) (env : Env) : M Writer Unit :=
  match s with
  | none => pure ()
  | some f =>
    match f env with
    | none => M.panic
    | some p => do
      match ← Writer.seek p with
      | .ok _ => pure ()
      | .error e => M.throw (.io e)

namespace Attrs

/-- `assert` and `assert_eq` (deku_read.rs:741-759, deku_write.rs:710-730). -/
def check {σ : Type} (a : Attrs) (env : Env) (v : Val) : M σ Unit :=
  if a.assert env v = false then M.throw .assertion
  else match a.assertEq env with
    | none => pure ()
    | some x => if v ≠ x then M.throw .assertion else pure ()

/-- `field_map(value)?` (deku_read.rs:728-734, 943). -/
def applyMap (a : Attrs) (env : Env) (raw : Val) : M Reader Val :=
  match a.map env raw with
  | .ok v => pure v
  | .error e => M.throw e

/-- Whether the field is read (the matrix of `skip` and `cond`, deku_read.rs:949-988). -/
def isRead (a : Attrs) (env : Env) : Bool :=
  match a.skip, a.cond with
  | some .all, some c => !c env
  | some .read, some c => !c env
  | some .all, none => false
  | some .read, none => false
  | some .write, _ => true
  | none, some c => c env
  | none, none => true

/-- Whether the field is written (deku_write.rs:814-842). -/
def isWritten (a : Attrs) (env : Env) : Bool :=
  match a.skip, a.cond with
  | some .all, some c => !c env
  | some .write, some c => !c env
  | some .all, none => false
  | some .write, none => false
  | some .read, _ => true
  | none, _ => true

/-- `field_read_tokens` (deku_read.rs:941-988). -/
def value (a : Attrs) (rd : Env → M Reader Val) (env : Env) : M Reader Val :=
  if a.isRead env then do
    let raw ← rd env
    a.applyMap env raw
  else pure (a.default env)

/-- `emit_field_read` (deku_read.rs:652-1011): seek, magic, padding, offsets, value, assertions,
padding. The value is in scope for the padding after it. -/
def read (a : Attrs) (native : Endian) (rd : Env → M Reader Val) (env : Env) : M Reader Val := do
  seekRead a.seek env
  magicRead native a.magic
  padRead a.padOrder a.padBefore env
  let r ← M.get
  let env := env.at (if a.usesOffset then r.bitsRead else 0)
  let v ← a.value rd env
  a.check env v
  padRead a.padOrder a.padAfter (env.push v)
  pure v

/-- `field_write_tokens` (deku_write.rs:814-842). -/
def put (a : Attrs) (wr : Env → Val → M Writer Unit) (env : Env) (v : Val) : M Writer Unit :=
  if a.isWritten env then wr env (a.unmap env v) else pure ()

/-- `emit_field_write` (deku_write.rs:604-862): seek, magic, padding, offsets, assertions, value,
padding. -/
def write (a : Attrs) (native : Endian) (wr : Env → Val → M Writer Unit) (env : Env) (v : Val) :
    M Writer Unit := do
  seekWrite a.seek env
  magicWrite native a.magic
  padWrite a.padOrder a.padBefore env
  let w ← M.get
  let env := env.at (if a.usesOffset then w.bitsWritten else 0)
  a.check env v
  a.put wr env v
  padWrite a.padOrder a.padAfter (env.push v)

end Attrs

/-! ## Definitions -/

/-- The limit of a `Vec` field; the predicate of `until` sees the elements read so far, the last one
first. -/
inductive LimitE
  | count (n : Env → Int)
  | until (p : Env → List Val → Bool)
  | bytes (n : Env → Int)
  | bits (n : Env → Int)
  | «end»

/-- The value for `ctx::Limit` in the emitted code (deku_read.rs:836-918). -/
def LimitE.eval (env : Env) : LimitE → M Reader (Limit Val (List Val))
  | .count n => do let k ← toUsize (n env); pure (.count k)
  | .until p => pure (.until (fun v seen => (p env (v :: seen), v :: seen)) [])
  | .bytes n => do let k ← toUsize (n env); pure (.bytes k)
  | .bits n => do let k ← toUsize (n env); pure (.bits k)
  | .end => pure .end

/-- Where the id of an enum comes from. -/
inductive IdSrc
  /-- `id = "expr"`: from the context. -/
  | ctx (e : Env → Val)
  /-- `id_type`, read and written with `id_args`. -/
  | typed (size : Option Nat) (c : Env → Codec)

/-- Attributes of a variant. -/
structure VAttrs where
  /-- The pattern the id is matched with: `id`, `id_pat` or the discriminant. -/
  pat : Env → Val → Bool
  /-- What is written for the id: `id` or the discriminant; nothing if the first field stores it. -/
  id : Option Val
  /-- The variant has an `id_pat`. -/
  idPat : Bool := false
  /-- The variant has no `id`; `id` above is its discriminant. -/
  discr : Bool := false
  /-- `default`. -/
  default : Bool := false

mutual

/-- Types of fields with their attributes. -/
inductive Ty
  /-- A type with its own implementation of the traits; `size` is the contribution to `SIZE_BITS`
  (the size given by `bits` or `bytes`, otherwise `SIZE_BITS` of the type). -/
  | prim (size : Option Nat) (c : Env → Codec)
  | option (t : Ty)
  | array (n : Nat) (t : Ty)
  | pair (a b : Ty)
  /-- `Vec<T>` with a limit; `size` is `mem::size_of::<T>()`. -/
  | vec (size : Nat) (l : LimitE) (t : Ty)
  /-- `Vec<u8>` with a count, which is read by `ReadExact` (deku_read.rs:817-845). -/
  | bytes (n : Env → Int) (ctx : Env → IntCtx)
  /-- A derived struct: the context arguments passed, `seek_*`, `magic`, the fields. -/
  | struct (args : Env → List Val) (seek : Option (Env → Option SeekFrom)) (magic : List Byte)
      (fs : Fields)
  /-- A derived enum. `store` writes the first field of an `id_pat` variant: with `id_endian`, `bits`,
  `bytes` and `bit_order` of the enum (deku_write.rs:615-638). It depends on the number of the variant:
  if the id comes from the context, the first fields of the variants can have different types. -/
  | enum (args : Env → List Val) (magic : List Byte) (id : IdSrc)
      (store : Nat → Env → Val → M Writer Unit) (vs : Variants)

inductive Fields
  | nil
  | cons (a : Attrs) (t : Ty) (rest : Fields)
  /-- A `temp` field, with its `temp_value` as a function of the fields of the struct. -/
  | temp (a : Attrs) (t : Ty) (value : Option (Val → Val)) (rest : Fields)

inductive Variants
  | nil
  | cons (a : VAttrs) (fs : Fields) (rest : Variants)

end

namespace Variants

/-- The first variant whose pattern matches, counted from `i`. -/
def firstMatch (env : Env) (id : Val) : Variants → Nat → Option Nat
  | .nil, _ => none
  | .cons a _ rest, i => if a.pat env id then some i else firstMatch env id rest (i + 1)

/-- The variant marked `default` (at most one, deku_read.rs:342-350). -/
def defaultAt : Variants → Nat → Option Nat
  | .nil, _ => none
  | .cons a _ rest, i => if a.default then some i else defaultAt rest (i + 1)

/-- The arms of the `match` (deku_read.rs:352-377): the variants in source order, then the default
one. A variant with the pattern `_` matches everything, so that the default arm is not reached, as in
the emitted code, where it is left out. -/
def select (env : Env) (id : Val) (vs : Variants) : Option Nat :=
  match vs.firstMatch env id 0 with
  | some i => some i
  | none => vs.defaultAt 0

end Variants

/-! ## Reading -/

/-- The arm of the variant selected (deku_read.rs:303-340), or the error (deku_read.rs:359-366). -/
def dispatch (sel : Option Nat) (arm : Nat → M Reader Val) : M Reader Val :=
  match sel with
  | none => M.throw .parse
  | some i => do
    let fs ← arm i
    pure (.variant i fs)

mutual

/-- `from_reader_with_ctx` of a type. -/
def Ty.read (m : Machine) : Ty → Env → M Reader Val
  | .prim _ c, env => (c env).read
  | .option t, env => do
    let v ← t.read m env
    pure (.some v)
  | .array n t, env => do
    let vs ← Coll.arrayRead (t.read m env) n
    pure (.ofList vs)
  | .pair a b, env => do
    let x ← a.read m env
    let y ← b.read m env
    pure (.cons x (.cons y .nil))
  | .vec size l t, env => do
    let lim ← l.eval env
    let vs ← Coll.vecRead m.mem size (t.read m env) lim
    pure (.ofList vs)
  | .bytes n _, env => do
    let k ← toUsize (n env)
    let bs ← Coll.readExact k
    pure (.ofList (bs.map .ofByte))
  | .struct args seek magic fs, env => do
    let env := { ctx := args env }
    seekRead seek env
    magicRead m.native magic
    fs.read m env
  | .enum args magic id _ vs, env => do
    let env := { ctx := args env }
    magicRead m.native magic
    match id with
    | .ctx e => dispatch (vs.select env (e env)) (vs.readAt m env (e env) false)
    | .typed _ c => do
      let x ← (c env).read
      dispatch (vs.select env x) (vs.readAt m env x true)

/-- `emit_field_reads` (deku_read.rs:549-571) and the initialisation of the struct, which leaves out
the temporary fields (deku_read.rs:103-111). -/
def Fields.read (m : Machine) : Fields → Env → M Reader Val
  | .nil, _ => pure .nil
  | .cons a t rest, env => do
    let v ← a.read m.native (t.read m) env
    let vs ← rest.read m (env.push v)
    pure (.cons v vs)
  | .temp a t _ rest, env => do
    let v ← a.read m.native (t.read m) env
    rest.read m (env.push v)

/-- The fields of an `id_pat` variant: the first one is the id read before; other attributes on it do
not compile (deku_read.rs:806-816). -/
def Fields.readStored (m : Machine) : Fields → Env → Val → M Reader Val
  | .nil, _, _ => pure .nil
  | .cons _ _ rest, env, id => do
    let vs ← rest.read m (env.push id)
    pure (.cons id vs)
  | .temp _ _ _ rest, env, id => rest.read m (env.push id)

/-- The fields of variant number `i`; `typed` says that the id was read and not taken from the
context. -/
def Variants.readAt (m : Machine) : Variants → Env → Val → Bool → Nat → M Reader Val
  | .nil, _, _, _, _ => M.panic
  | .cons a fs _, env, id, typed, 0 =>
    if a.idPat && typed then fs.readStored m env id else fs.read m env
  | .cons _ _ rest, env, id, typed, i + 1 => rest.readAt m env id typed i

end

/-! ## Writing -/

mutual

/-- `to_writer` of a type. -/
def Ty.write (m : Machine) : Ty → Env → Val → M Writer Unit
  | .prim _ c, env, v => (c env).write v
  | .option t, env, v =>
    match v with
    | .none => pure ()
    | .some x => t.write m env x
    | _ => M.panic
  | .array n t, env, v =>
    if v.isList ∧ v.elems.length = n then Coll.writeAll (t.write m env) v.elems else M.panic
  | .pair a b, env, v =>
    match v with
    | .cons x (.cons y .nil) => do
      a.write m env x
      b.write m env y
    | _ => M.panic
  | .vec _ _ t, env, v => if v.isList then Coll.writeAll (t.write m env) v.elems else M.panic
  | .bytes _ ctx, env, v =>
    if v.isBytes then Coll.writeAll (Coll.u8Write m.native (ctx env)) (v.elems.map Val.toByte)
    else M.panic
  | .struct args seek magic fs, env, v => do
    let env := { ctx := args env }
    seekWrite seek env
    magicWrite m.native magic
    fs.write m env v v
  | .enum args magic id store vs, env, v =>
    match v with
    | .variant i fs => do
      let env := { ctx := args env }
      magicWrite m.native magic
      vs.writeAt m env id (store i) i fs
    | _ => M.panic

/-- `emit_field_writes` (deku_write.rs:466-479). `all` are the fields of the value, which `temp_value`
refers to; the last argument are the fields still to be written. A temporary field without a
`temp_value` writes no value (deku_write.rs:754-761). -/
def Fields.write (m : Machine) : Fields → Env → Val → Val → M Writer Unit
  | .nil, _, _, v => if v = .nil then pure () else M.panic
  | .cons a t rest, env, all, v =>
    match v with
    | .cons x xs => do
      a.write m.native (t.write m) env x
      rest.write m (env.push x) all xs
    | _ => M.panic
  | .temp a t value rest, env, all, v =>
    match value with
    | some f => do
      a.write m.native (t.write m) env (f all)
      rest.write m (env.push (f all)) all v
    | none => do
      a.write m.native (fun _ _ => pure ()) env .none
      rest.write m (env.push .none) all v

/-- The fields of an `id_pat` variant: the first one is written by `store`, without its attributes
(deku_write.rs:612-638). A temporary first field does not compile. -/
def Fields.writeStored (m : Machine) (store : Env → Val → M Writer Unit) :
    Fields → Env → Val → M Writer Unit
  | .nil, _, v => if v = .nil then pure () else M.panic
  | .cons _ _ rest, env, v =>
    match v with
    | .cons x xs => do
      store env x
      rest.write m (env.push x) v xs
    | _ => M.panic
  | .temp _ _ _ _, _, _ => M.panic

/-- The arm of variant number `i` (deku_write.rs:239-341): its id unless the id comes from the context,
then its fields. -/
def Variants.writeAt (m : Machine) :
    Variants → Env → IdSrc → (Env → Val → M Writer Unit) → Nat → Val → M Writer Unit
  | .nil, _, _, _, _, _ => M.panic
  | .cons a fs _, env, id, store, 0, v => do
    match id, a.id with
    | .typed _ c, some x => (c env).write x
    | _, _ => pure ()
    if a.idPat then fs.writeStored m store env v else fs.write m env v v
  | .cons _ _ rest, env, id, store, i + 1, v => rest.writeAt m env id store i v

end

/-! ## `deku_id` -/

/-- `VariantData`'s check (deku-derive/src/lib.rs:964-969): not both `id` and `id_pat`. -/
def VAttrs.Valid (a : VAttrs) : Prop := a.idPat = true → a.id = none ∨ a.discr = true

/-- The arm of variant number `i` in `deku_id`: there is one if the variant has `id`
(deku_read.rs:323-333), all others give an error (deku_read.rs:500-513). -/
def Variants.dekuIdAt : Variants → Nat → Res Val
  | .nil, _ => .panic
  | .cons a _ _, 0 =>
    match a.discr, a.id with
    | false, some x => .ok x
    | _, _ => .err .idVariantNotFound
  | .cons _ _ rest, i + 1 => rest.dekuIdAt i

/-- `DekuEnumExt::deku_id` (src/lib.rs:787-790, deku_read.rs:489-517). It is implemented for enums without
type parameters whose id has a type or is one of the arguments of the context. Panic: not a value of an
enum. -/
def Ty.dekuId : Ty → Val → Res Val
  | .enum _ _ _ _ vs, .variant i _ => vs.dekuIdAt i
  | _, _ => .panic

/-! ## `SIZE_BITS` -/

/-- `calculate_padding_size` (deku_size.rs:127-137). The expression is evaluated in a constant, so it
refers to nothing. -/
def padConst (pad : Option (Env → Int)) : Nat :=
  match pad with
  | none => 0
  | some f => (f {}).toNat

/-- `calculate_discriminant_size` (deku_size.rs:180-207). -/
def IdSrc.size : IdSrc → Option Nat
  | .ctx _ => some 0
  | .typed size _ => size

mutual

/-- `SIZE_BITS`; `none` if `DekuSize` is not implemented. -/
def Ty.size : Ty → Option Nat
  | .prim size _ => size
  | .option _ => none
  | .array n t => do let k ← t.size; pure (n * k)
  | .pair a b => do let k ← a.size; let l ← b.size; pure (k + l)
  | .vec _ _ _ => none
  | .bytes _ _ => none
  | .struct _ seek magic fs =>
    if seek.isSome then none else do let k ← fs.size; pure (8 * magic.length + k)
  | .enum _ magic id _ vs => do
    let d ← id.size
    let k ← vs.size (match id with | .ctx _ => false | .typed _ _ => true)
    pure (8 * magic.length + d + k)

/-- `calculate_fields_size` (deku_size.rs:23-101): temporary fields are left out, and the size given by
`bits` or `bytes` is counted once, whatever the type of the field (deku_size.rs:62-69). -/
def Fields.size : Fields → Option Nat
  | .nil => some 0
  | .cons a t rest =>
    if a.seek.isSome then none
    else do
      let k ← match a.sizeAttr with | some k => some k | none => t.size
      let l ← rest.size
      pure (8 * a.magic.length + padConst a.padBefore + k + padConst a.padAfter + l)
  | .temp a _ _ rest => if a.seek.isSome then none else rest.size

/-- The same with `skip_first` (deku_size.rs:30-33). -/
def Fields.sizeStored : Fields → Option Nat
  | .nil => some 0
  | .cons _ _ rest => rest.size
  | .temp _ _ _ rest => rest.size

/-- The maximum over the variants (deku_size.rs:308-329). -/
def Variants.size : Variants → Bool → Option Nat
  | .nil, _ => some 0
  | .cons a fs rest, typed => do
    let k ← if a.idPat && typed then fs.sizeStored else fs.size
    let l ← rest.size typed
    pure (max k l)

end

/-! ## Integers and their context arguments -/

/-- The context argument for an integer, from the attributes `endian`, `bits`, `bytes`, `bit_order`, in
this order (`gen_id_args`, deku-derive/src/macros/mod.rs:268-282, and `gen_field_args`, the same
without `ctx`). `none` if there is no implementation for the combination. -/
def intCtx (endian : Option Endian) (bits bytes : Option Nat) (order : Option Order) : Option IntCtx :=
  match endian, bits, bytes, order with
  | none, none, none, none => some .unit
  | some e, none, none, none => some (.endian e)
  | none, some n, none, none => some (.bits n)
  | none, none, some k, none => some (.bytes k)
  | none, none, none, some o => some (.order o)
  | some e, none, none, some o => some (.endianOrder e o)
  | some e, some n, none, none => some (.endianBits e n)
  | some e, none, some k, none => some (.endianBytes e k)
  | none, some n, none, some o => some (.bitsOrder n o)
  | some e, some n, none, some o => some (.endianBitsOrder e n o)
  | some e, none, some k, some o => some (.endianBytesOrder e k o)
  | _, _, _, _ => none

/-- The attributes of an enum that concern its id. -/
structure IdAttrs where
  endian : Option Endian := none
  idEndian : Option Endian := none
  bits : Option Nat := none
  bytes : Option Nat := none
  order : Option Order := none

/-- The arguments for reading the id, and for writing it if it is not stored (`gen_id_args`,
deku-derive/src/macros/mod.rs:252-283): `id_endian`, otherwise `endian`. -/
def IdAttrs.idCtx (a : IdAttrs) : Option IntCtx :=
  intCtx (match a.idEndian with | some e => some e | none => a.endian) a.bits a.bytes a.order

/-- The arguments for writing the field of an `id_pat` variant that stores the id
(deku_write.rs:615-631): `id_endian` only. -/
def IdAttrs.storeCtx (a : IdAttrs) : Option IntCtx := intCtx a.idEndian a.bits a.bytes a.order

/-- An unsigned integer type of `W` bytes as the type of a field. A value out of the range of the type
does not exist. -/
def uintCodec (native : Endian) (W : Nat) (ctx : IntCtx) : Codec where
  read := do
    let n ← Prim.readUnsigned native W ctx
    pure (.num n)
  write v :=
    match v with
    | .num n => if 0 ≤ n ∧ n < 256 ^ W then Prim.writeUnsigned native W ctx n.toNat else M.panic
    | _ => M.panic

/-! ## `update` -/

namespace Val

/-- The list value with element number `i` replaced. -/
def set : Val → Nat → Val → Val
  | .cons _ vs, 0, x => .cons x vs
  | .cons v vs, i + 1, x => .cons v (set vs i x)
  | v, _, _ => v

end Val

/-- `emit_field_updates` (deku_write.rs:481-512): one assignment after the other, on the fields as they
are then; `i` is the number of the next field. The state is the value updated. -/
def Fields.update : Fields → Nat → M Val Unit
  | .nil, _ => pure ()
  | .cons a _ rest, i =>
    match a.update with
    | none => rest.update (i + 1)
    | some f => do
      let all ← M.get
      match f all with
      | .error e => M.throw e
      | .ok x => do
        M.modify fun _ => all.set i x
        rest.update (i + 1)
  | .temp _ _ _ rest, i => rest.update i

end Deku
