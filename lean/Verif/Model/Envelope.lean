import Verif.Model.Toplevel
import Verif.Model.Containers

/-!
# A message inside another one

A program of a user, of the kind that `reader` and `writer` (src/attributes.rs, "reader/writer"; deku_read.rs:775-776,
deku_write.rs:740-741) are for: a field that holds a message of another type behind the number of its bytes.

```
struct Envelope {
    #[deku(temp, endian = "..", temp_value = "inner.to_bytes()?.len().try_into()?")]
    len: u16,
    #[deku(reader = "open(deku::reader, len as usize)", writer = "close(deku::writer, inner)")]
    inner: Inner,
}
fn open<R: Read + Seek>(reader: &mut Reader<R>, n: usize) -> Result<Inner, DekuError> {
    let bytes = Vec::<u8>::from_reader_with_ctx(reader, ReadExact(n))?;
    judge(Inner::try_from(bytes.as_slice()))
}
fn close<W: Write + Seek>(writer: &mut Writer<W>, inner: &Inner) -> Result<(), DekuError> {
    writer.write_bytes(&inner.to_bytes()?)
}
```

`judge` is what the user does with the answer for the payload. The number may have any number of bytes.
-/

namespace Deku.Envelope

variable {α β : Type}

/-- A result as a value; a panic is none. -/
def handed (judge : Except DekuError α → Except DekuError β) : Res α → Res β
  | .ok v => match judge (.ok v) with
    | .ok w => .ok w
    | .error e => .err e
  | .err e => match judge (.error e) with
    | .ok w => .ok w
    | .error e => .err e
  | .panic => .panic

/-- The reading half: the number (src/impls/primitive.rs, `from_reader_with_ctx` with an `Endian`), then `open` above:
`ReadExact` (src/impls/vec.rs:13-45) and `TryFrom<&[u8]>` (deku_read.rs:1042-1071) on a reader of its own. -/
def read (native : Endian) (W : Nat) (e : Endian) (inner : M Reader α) (judge : Except DekuError α → Except DekuError β) :
    M Reader β := do
  let n ← Prim.readUnsigned native W (.endian e)
  let bytes ← Coll.readExact n
  match handed judge (tryFrom inner bytes) with
  | .ok v => pure v
  | .err x => M.throw x
  | .panic => M.panic

/-- The writing half: `to_bytes` (src/lib.rs:708-715) with a writer of its own, its length in the number's type
(`try_into`, whose error is `Parse`: src/error.rs:129-133), then the bytes (src/writer.rs:371-399). -/
def write (native : Endian) (W : Nat) (e : Endian) (inner : M Writer Unit) : M Writer Unit :=
  match toBytes inner with
  | .ok bytes =>
    if bytes.length < 256 ^ W then do
      Prim.writeUnsigned native W (.endian e) bytes.length
      Writer.writeBytes bytes
    else M.throw .parse
  | .err x => M.throw x
  | .panic => M.panic

/-- `judge` for `?`: an error of the payload is an error of the envelope. -/
def passOn : Except DekuError α → Except DekuError α := id

/-- `judge` for `.map_err(|_| DekuError::Parse(..))?`. -/
def refuse : Except DekuError α → Except DekuError α
  | .ok v => .ok v
  | .error _ => .error .parse

/-- `judge` for a field of the type `Result<Inner, DekuError>`: what is wrong with the payload is for the user to see, and
no matter for the envelope. -/
def keep : Except DekuError α → Except DekuError (Except DekuError α) := .ok

/-- Envelopes in envelopes. -/
def readNested (native : Endian) (W : Nat) (e : Endian) (inner : M Reader α)
    (judge : Except DekuError α → Except DekuError α) : Nat → M Reader α
  | 0 => inner
  | n + 1 => read native W e (readNested native W e inner judge n) judge

/-- Envelopes in envelopes. -/
def writeNested (native : Endian) (W : Nat) (e : Endian) (inner : M Writer Unit) : Nat → M Writer Unit
  | 0 => inner
  | n + 1 => write native W e (writeNested native W e inner n)

end Deku.Envelope
