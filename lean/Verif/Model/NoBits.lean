import Verif.Model.Source
import Verif.Model.Toplevel

/-!
# Without feature `bits`

Feature `bits` is on by default. If it is switched off, `BitSize`, the attributes `bits`, `bits_read`, `pad_bits_before`
and `pad_bits_after` and everything that handles single bits are gone. Most of what is left is the same text as before:
`read_bytes` and `read_bytes_const` lose the arm for `Leftover::Bits` (src/reader.rs:513, 612, 652), `write_bytes` loses
the arm for pending bits (src/writer.rs:371-397). Readers and writers are therefore those of `Model.Reader` and
`Model.Writer`, which in this configuration never have a `Leftover::Bits` or pending bits: nothing below makes them.

What differs is the padding, which reads and writes bytes instead of skipping and writing bits, `skip_bits`, which
panics, and `finalize`, which does nothing. The functions of `Model.Derive` that pads occur in are given again here with
the code for padding as a parameter; with that of `Model.Derive` they are the same (`Ty.readP_eq`, `Ty.writeP_eq`).
-/

namespace Deku

/-- The loop `while __deku_pad > 0` of `emit_padding_bytes` (deku_read.rs:642-647): chunks of at most `PAD_ARRAY_SIZE`
bytes; every iteration reads at least one byte, so `n` iterations are always enough. -/
def padReadLoop : Nat → Nat → M Reader Unit
  | 0, _ => pure ()
  | fuel + 1, n =>
    if n = 0 then pure ()
    else do
      let _ ← Reader.readBytes (min 64 n) .msb0
      padReadLoop fuel (n - min 64 n)

/-- `pad_bytes` (deku-derive/src/macros/mod.rs:397-406) with `emit_padding_bytes` (deku_read.rs:631-650). The padding is
given in bits as in `Attrs`, and is eight times the `pad_bytes_before` or `pad_bytes_after` written in the source. -/
def padReadBytes (_ : Option Order) (pad : Option (Env → Int)) (env : Env) : M Reader Unit :=
  match pad with
  | none => pure ()
  | some f => do
    let n ← padSize (f env / 8)
    padReadLoop n n

/-- The loop of `emit_padding_bytes` (deku_write.rs:594-599). -/
def padWriteLoop : Nat → Nat → M Writer Unit
  | 0, _ => pure ()
  | fuel + 1, n =>
    if n = 0 then pure ()
    else do
      Writer.writeBytes (List.replicate (min 64 n) 0)
      padWriteLoop fuel (n - min 64 n)

/-- `pad_bytes` with `emit_padding_bytes` (deku_write.rs:583-602). -/
def padWriteBytes (_ : Option Order) (pad : Option (Env → Int)) (env : Env) : M Writer Unit :=
  match pad with
  | none => pure ()
  | some f => do
    let n ← padSize (f env / 8)
    padWriteLoop n n

/-- The code for padding. -/
structure Pads where
  read : Option Order → Option (Env → Int) → Env → M Reader Unit
  write : Option Order → Option (Env → Int) → Env → M Writer Unit

/-- Feature `bits` on. -/
def withBits : Pads := ⟨padRead, padWrite⟩

/-- Feature `bits` off. -/
def withoutBits : Pads := ⟨padReadBytes, padWriteBytes⟩

/-- `emit_field_read` (deku_read.rs:652-1011), as `Attrs.read`. -/
def Attrs.readP (p : Pads) (a : Attrs) (native : Endian) (rd : Env → M Reader Val) (env : Env) : M Reader Val := do
  seekRead a.seek env
  magicRead native a.magic
  p.read a.padOrder a.padBefore env
  let r ← M.get
  let env := env.at (if a.usesOffset then r.bitsRead else 0)
  let v ← a.value rd env
  a.check env v
  p.read a.padOrder a.padAfter (env.push v)
  pure v

/-- `emit_field_write` (deku_write.rs:604-862), as `Attrs.write`. -/
def Attrs.writeP (p : Pads) (a : Attrs) (native : Endian) (wr : Env → Val → M Writer Unit) (env : Env) (v : Val) :
    M Writer Unit := do
  seekWrite a.seek env
  magicWrite native a.magic
  p.write a.padOrder a.padBefore env
  let w ← M.get
  let env := env.at (if a.usesOffset then w.bitsWritten else 0)
  a.check env v
  a.put wr env v
  p.write a.padOrder a.padAfter (env.push v)

mutual

/-- `from_reader_with_ctx` of a type, as `Ty.read`. -/
def Ty.readP (p : Pads) (m : Machine) : Ty → Env → M Reader Val
  | .prim _ c, env => (c env).read
  | .option t, env => do
    let v ← t.readP p m env
    pure (.some v)
  | .array n t, env => do
    let vs ← Coll.arrayRead (t.readP p m env) n
    pure (.ofList vs)
  | .pair a b, env => do
    let x ← a.readP p m env
    let y ← b.readP p m env
    pure (.cons x (.cons y .nil))
  | .vec size l t, env => do
    let lim ← l.eval env
    let vs ← Coll.vecRead m.mem size (t.readP p m env) lim
    pure (.ofList vs)
  | .bytes n _, env => do
    let k ← toUsize (n env)
    let bs ← Coll.readExact k
    pure (.ofList (bs.map .ofByte))
  | .struct args seek magic fs, env => do
    let env := { ctx := args env }
    seekRead seek env
    magicRead m.native magic
    fs.readP p m env
  | .enum args magic id _ vs, env => do
    let env := { ctx := args env }
    magicRead m.native magic
    match id with
    | .ctx e => dispatch (vs.select env (e env)) (vs.readAtP p m env (e env) false)
    | .typed _ c => do
      let x ← (c env).read
      dispatch (vs.select env x) (vs.readAtP p m env x true)

/-- As `Fields.read`. -/
def Fields.readP (p : Pads) (m : Machine) : Fields → Env → M Reader Val
  | .nil, _ => pure .nil
  | .cons a t rest, env => do
    let v ← a.readP p m.native (t.readP p m) env
    let vs ← rest.readP p m (env.push v)
    pure (.cons v vs)
  | .temp a t _ rest, env => do
    let v ← a.readP p m.native (t.readP p m) env
    rest.readP p m (env.push v)

/-- As `Fields.readStored`. -/
def Fields.readStoredP (p : Pads) (m : Machine) : Fields → Env → Val → M Reader Val
  | .nil, _, _ => pure .nil
  | .cons _ _ rest, env, id => do
    let vs ← rest.readP p m (env.push id)
    pure (.cons id vs)
  | .temp _ _ _ rest, env, id => rest.readP p m (env.push id)

/-- As `Variants.readAt`. -/
def Variants.readAtP (p : Pads) (m : Machine) : Variants → Env → Val → Bool → Nat → M Reader Val
  | .nil, _, _, _, _ => M.panic
  | .cons a fs _, env, id, typed, 0 =>
    if a.idPat && typed then fs.readStoredP p m env id else fs.readP p m env
  | .cons _ _ rest, env, id, typed, i + 1 => rest.readAtP p m env id typed i

end

mutual

/-- `to_writer` of a type, as `Ty.write`. -/
def Ty.writeP (p : Pads) (m : Machine) : Ty → Env → Val → M Writer Unit
  | .prim _ c, env, v => (c env).write v
  | .option t, env, v =>
    match v with
    | .none => pure ()
    | .some x => t.writeP p m env x
    | _ => M.panic
  | .array n t, env, v =>
    if v.isList ∧ v.elems.length = n then Coll.writeAll (t.writeP p m env) v.elems else M.panic
  | .pair a b, env, v =>
    match v with
    | .cons x (.cons y .nil) => do
      a.writeP p m env x
      b.writeP p m env y
    | _ => M.panic
  | .vec _ _ t, env, v => if v.isList then Coll.writeAll (t.writeP p m env) v.elems else M.panic
  | .bytes _ ctx, env, v =>
    if v.isBytes then Coll.writeAll (Coll.u8Write m.native (ctx env)) (v.elems.map Val.toByte)
    else M.panic
  | .struct args seek magic fs, env, v => do
    let env := { ctx := args env }
    seekWrite seek env
    magicWrite m.native magic
    fs.writeP p m env v v
  | .enum args magic id store vs, env, v =>
    match v with
    | .variant i fs => do
      let env := { ctx := args env }
      magicWrite m.native magic
      vs.writeAtP p m env id (store i) i fs
    | _ => M.panic

/-- As `Fields.write`. -/
def Fields.writeP (p : Pads) (m : Machine) : Fields → Env → Val → Val → M Writer Unit
  | .nil, _, _, v => if v = .nil then pure () else M.panic
  | .cons a t rest, env, all, v =>
    match v with
    | .cons x xs => do
      a.writeP p m.native (t.writeP p m) env x
      rest.writeP p m (env.push x) all xs
    | _ => M.panic
  | .temp a t value rest, env, all, v =>
    match value with
    | some f => do
      a.writeP p m.native (t.writeP p m) env (f all)
      rest.writeP p m (env.push (f all)) all v
    | none => do
      a.writeP p m.native (fun _ _ => pure ()) env .none
      rest.writeP p m (env.push .none) all v

/-- As `Fields.writeStored`. -/
def Fields.writeStoredP (p : Pads) (m : Machine) (store : Env → Val → M Writer Unit) :
    Fields → Env → Val → M Writer Unit
  | .nil, _, v => if v = .nil then pure () else M.panic
  | .cons _ _ rest, env, v =>
    match v with
    | .cons x xs => do
      store env x
      rest.writeP p m (env.push x) v xs
    | _ => M.panic
  | .temp _ _ _ _, _, _ => M.panic

/-- As `Variants.writeAt`. -/
def Variants.writeAtP (p : Pads) (m : Machine) :
    Variants → Env → IdSrc → (Env → Val → M Writer Unit) → Nat → Val → M Writer Unit
  | .nil, _, _, _, _, _ => M.panic
  | .cons a fs _, env, id, store, 0, v => do
    match id, a.id with
    | .typed _ c, some x => (c env).write x
    | _, _ => pure ()
    if a.idPat then fs.writeStoredP p m store env v else fs.writeP p m env v v
  | .cons _ _ rest, env, id, store, i + 1, v => rest.writeAtP p m env id store i v

end

/-- `to_bytes` (src/lib.rs:708-715), where `finalize` does nothing (src/writer.rs:404-413). -/
def toBytesNoBits (write : M Writer Unit) : Res (List Byte) :=
  match write (Writer.new {}) with
  | (.ok _, w) => .ok w.inner.data
  | (.err e, _) => .err e
  | (.panic, _) => .panic

/-- `FieldData::validate` (deku-derive/src/lib.rs:821-893) with the checks that are compiled in: the one of `read_all`
is not. -/
def SAttrs.validateNoBits (a : SAttrs) : Bool :=
  !(a.count.isSome && a.bytesRead.isSome) && !(a.default.isSome && (a.skip.isNone && a.cond.isNone))

/-- The start of `from_reader` and `from_bytes`: `skip_bits` panics (src/reader.rs:212-217). -/
def readFromNoBits {α : Type} (read : M Reader α) (off : Nat) : M Reader α := do
  if off ≠ 0 then M.panic
  read

/-- `from_reader` (deku_read.rs:115-126). -/
def fromReaderNoBits {α : Type} (read : M Reader α) (src : Src) (off : Nat) : Res (Nat × α) :=
  match readFromNoBits read off (Reader.new src) with
  | (.ok v, r) => .ok (r.bitsRead, v)
  | (.err e, _) => .err e
  | (.panic, _) => .panic

/-- `from_bytes` (deku_read.rs:128-148). -/
def fromBytesNoBits {α : Type} (read : M Reader α) (data : List Byte) (off : Nat) :
    Res ((List Byte × Nat) × α) :=
  match readFromNoBits read off (Reader.new { data := data }) with
  | (.ok v, r) =>
    if r.bitsRead / 8 ≤ data.length then
      .ok ((data.drop (r.bitsRead / 8), r.bitsRead % 8), v)
    else .err (.incomplete (8 * (r.bitsRead / 8 - data.length)))
  | (.err e, _) => .err e
  | (.panic, _) => .panic

/-- `TryFrom<&[u8]>` (deku_read.rs:1042-1071). -/
def tryFromNoBits {α : Type} (read : M Reader α) (data : List Byte) : Res α :=
  match fromReaderNoBits read { data := data } 0 with
  | .ok (n, v) =>
    if n / 8 < data.length then .err .parse
    else if n / 8 > data.length then .err (.incomplete (n - data.length * 8))
    else .ok v
  | .err e => .err e
  | .panic => .panic

end Deku
