import Verif.Model.Reader
import Verif.Model.Writer

/-!
# `DekuContainerWrite` (src/lib.rs:684-778) and `DekuContainerRead`

The trait methods are generic in the type; here its `to_writer` and `from_reader_with_ctx` are
parameters.
-/

namespace Deku

/-- `to_bytes` (src/lib.rs:708-715). -/
def toBytes (write : M Writer Unit) : Res (List Byte) :=
  match (do write; Writer.finalize : M Writer Unit) (Writer.new {}) with
  | (.ok _, w) => .ok w.inner.data
  | (.err e, _) => .err e
  | (.panic, _) => .panic

/-- `to_slice` (src/lib.rs:736-743): the result and the buffer afterwards. -/
def toSlice (write : M Writer Unit) (buf : List Byte) : Res Nat × List Byte :=
  match (do write; Writer.finalize : M Writer Unit)
      (Writer.new { data := buf, cap := some buf.length }) with
  | (.ok _, w) => (.ok (w.bitsWritten / 8), w.inner.data)
  | (.err e, w) => (.err e, w.inner.data)
  | (.panic, w) => (.panic, w.inner.data)

/-- `to_bits` (src/lib.rs:768-777). -/
def toBits (write : M Writer Unit) : Res (List Bool) :=
  match write (Writer.new {}) with
  | (.ok _, w) => .ok (bytesBits w.inner.data ++ w.leftover)
  | (.err e, _) => .err e
  | (.panic, _) => .panic

/-- The start of `from_reader` and `from_bytes` (deku_read.rs:118-123, 132-137, the same for enums
407-412, 421-426): the offset is always skipped in Msb0 order. -/
def readFrom {α : Type} (read : M Reader α) (off : Nat) : M Reader α := do
  if off ≠ 0 then Reader.skipBits off .msb0
  read

/-- `from_reader` (deku_read.rs:115-126): the bits read and the value. -/
def fromReader {α : Type} (read : M Reader α) (src : Src) (off : Nat) : Res (Nat × α) :=
  match readFrom read off (Reader.new src) with
  | (.ok v, r) => .ok (r.bitsRead, v)
  | (.err e, _) => .err e
  | (.panic, _) => .panic

/-- The same with the stream afterwards: `from_reader` borrows it, so the caller goes on with it. -/
def fromReaderOn {α : Type} (read : M Reader α) (src : Src) (off : Nat) : Res (Nat × α) × Src :=
  match readFrom read off (Reader.new src) with
  | (.ok v, r) => (.ok (r.bitsRead, v), r.inner)
  | (.err e, r) => (.err e, r.inner)
  | (.panic, r) => (.panic, r.inner)

/-- `to_writer` with a new `Writer` on a sink of the caller (src/writer.rs:49-56) and `finalize`
(src/writer.rs:404-413), as in `to_slice`: the result and the sink afterwards. -/
def writeTo (write : M Writer Unit) (sink : Sink) : Res Unit × Sink :=
  match (do write; Writer.finalize : M Writer Unit) (Writer.new sink) with
  | (x, w) => (x, w.inner)

/-- `from_bytes` (deku_read.rs:128-148): the rest, the bit offset in it, and the value. -/
def fromBytes {α : Type} (read : M Reader α) (data : List Byte) (off : Nat) :
    Res ((List Byte × Nat) × α) :=
  match readFrom read off (Reader.new { data := data }) with
  | (.ok v, r) =>
    if r.bitsRead / 8 ≤ data.length then
      .ok ((data.drop (r.bitsRead / 8), r.bitsRead % 8), v)
    else .err (.incomplete (8 * (r.bitsRead / 8 - data.length)))
  | (.err e, _) => .err e
  | (.panic, _) => .panic

/-- `TryFrom<&[u8]>` (deku_read.rs:1042-1071). -/
def tryFrom {α : Type} (read : M Reader α) (data : List Byte) : Res α :=
  match fromReader read { data := data } 0 with
  | .ok (n, v) =>
    if n / 8 < data.length then .err .parse
    else if n / 8 > data.length then .err (.incomplete (n - data.length * 8))
    else .ok v
  | .err e => .err e
  | .panic => .panic

end Deku
