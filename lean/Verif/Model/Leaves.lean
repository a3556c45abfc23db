import Verif.Model.Derive

/-!
# Further types with their own implementation of the traits, as the types of fields

Unsigned integers are in `Model.Derive`. `Ipv4Addr` and `Ipv6Addr` (src/impls/ipaddr.rs) are read and
written as `u32` and `u128` with the same context, and floats (src/impls/primitive.rs) as their bits, so
they are `uintCodec` too.
-/

namespace Deku

/-- A signed integer type of `W` bytes. -/
def sintCodec (native : Endian) (W : Nat) (ctx : IntCtx) : Codec where
  read := do
    let n ← Prim.readSigned native W ctx
    pure (.num n)
  write v :=
    match v with
    | .num n =>
      if -(256 ^ W) ≤ 2 * n ∧ 2 * n < 256 ^ W then Prim.writeSigned native W ctx n else M.panic
    | _ => M.panic

/-- `bool` (src/impls/bool.rs:7-48), with any context of `u8`. -/
def boolCodec (native : Endian) (ctx : IntCtx) : Codec where
  read := do
    let b ← Coll.boolRead (Prim.readUnsigned native 1 ctx)
    pure (.num (if b then 1 else 0))
  write v :=
    if v = .num 1 then Coll.boolWrite (Prim.writeUnsigned native 1 ctx) true
    else if v = .num 0 then Coll.boolWrite (Prim.writeUnsigned native 1 ctx) false
    else M.panic

/-- `NonZeroU8` and so on (src/impls/nonzero.rs:7-52). -/
def nonzeroCodec (native : Endian) (W : Nat) (ctx : IntCtx) : Codec where
  read := do
    let n ← Coll.nonzeroRead (Prim.readUnsigned native W ctx)
    pure (.num n)
  write v := if v = .num 0 then M.panic else (uintCodec native W ctx).write v

/-- `NonZeroI8` and so on. -/
def nonzeroSignedCodec (native : Endian) (W : Nat) (ctx : IntCtx) : Codec where
  read := do
    let n ← Coll.nonzeroRead (Prim.readSigned native W ctx)
    pure (.num n)
  write v := if v = .num 0 then M.panic else (sintCodec native W ctx).write v

/-- The bytes of a `CString`, without the NUL at the end. A string with a NUL in it does not exist. -/
def Val.isCString (v : Val) : Bool := v.isBytes && v.elems.all fun x => decide (x ≠ .num 0)

/-- `CString` without a context (src/impls/cstring.rs:11-44). -/
def cstringCodec (native : Endian) (mem : Nat) : Codec where
  read := do
    let bs ← Coll.cstringRead native mem
    pure (.ofList (bs.map .ofByte))
  write v := if v.isCString then Coll.cstringWrite native .unit (v.elems.map Val.toByte) else M.panic

/-- `CString` with `bytes` (src/impls/cstring.rs:11-23, 46-67). -/
def cstringSizedCodec (native : Endian) (mem n : Nat) : Codec where
  read := do
    let bs ← Coll.cstringReadSized native mem n
    pure (.ofList (bs.map .ofByte))
  write v := if v.isCString then Coll.cstringWrite native (.bytes n) (v.elems.map Val.toByte) else M.panic

/-- `()` (src/impls/unit.rs), with any context. -/
def unitCodec : Codec where
  read := pure .nil
  write v := if v = .nil then pure () else M.panic

end Deku
