import Verif.Model.Reader

/-!
# `Writer` (src/writer.rs)
-/

namespace Deku

/-- `Writer` (src/writer.rs:21-28). `leftover: (BoundedBitVec<[u8; 1], Msb0>, Order)` is split into
the list of its `len()` bits and its order tag. -/
structure Writer where
  inner : Sink
  leftover : List Bool := []
  tag : Order := .msb0
  bitsWritten : Nat := 0

namespace Writer

/-- `Writer::new` (src/writer.rs:49-56). -/
def new (s : Sink) : Writer := { inner := s }

/-- `Writer::rest` (src/writer.rs:61-63). -/
def rest (w : Writer) : List Bool := w.leftover

/-- `self.inner.write_all(bs)?`: the error is converted by `From<io::Error> for DekuError`
(src/error.rs:214-218) to `Io(kind)`. -/
def writeAll (bs : List Byte) : M Writer Unit := fun w =>
  match w.inner.writeAll bs with
  | (.ok _, s) => (.ok (), { w with inner := s })
  | (.error e, s) => (.err (.io e), { w with inner := s })

/-- `self.leftover.0.extend_from_bitslice(bits)` (src/lib.rs:959-966) with its capacity assertion. -/
def extend (bits : List Bool) : M Writer Unit := do
  let w ← M.get
  M.assert (decide (w.leftover.length + bits.length ≤ 8))
  M.modify (fun w => { w with leftover := w.leftover ++ bits })

/-- `if self.leftover.0.is_full() { write_all(raw)?; bits_written += 8; leftover = (new, Msb0) }`
(e.g. src/writer.rs:143-147). -/
def flushFull : M Writer Unit := do
  let w ← M.get
  if w.leftover.length = 8 then
    writeAll [byteOf w.leftover]
    M.modify (fun w => { w with bitsWritten := w.bitsWritten + w.leftover.length,
                                leftover := [], tag := .msb0 })
  else
    pure ()

/-- `for byte in iter { self.inner.write_all(&[byte.load_be()])?; }`. -/
def writeChunks : List (List Bool) → M Writer Unit
  | [] => pure ()
  | c :: cs => do
    writeAll [byteOf c]
    writeChunks cs

/-- Writes the chunks and counts them: `bits_written += len - remainder.len()` happens after the
loop (e.g. src/writer.rs:153-157). -/
def writeBulk (chunks : List (List Bool)) (counted : Nat) : M Writer Unit := do
  writeChunks chunks
  M.modify (fun w => { w with bitsWritten := w.bitsWritten + counted })

/-- `core::mem::swap(&mut self.leftover, &mut (BoundedBitVec::new(), Msb0))`. -/
def takeLeftover : M Writer (List Bool) := do
  let w ← M.get
  M.modify (fun w => { w with leftover := [], tag := .msb0 })
  pure w.leftover

/-- `chunks_exact(8).remainder()`: what is left behind the last whole group. -/
def fwdRemainder (l : List Bool) : List Bool := l.drop (8 * (l.length / 8))

/-- `rchunks_exact(8).remainder()`: what is left in front of the first whole group. -/
def bwdRemainder (l : List Bool) : List Bool := l.take (l.length % 8)

/-- `write_bits_order_msb_msb` (src/writer.rs:112-162). -/
def msbMsb (bits : List Bool) : M Writer Unit := do
  let w ← M.get
  M.assert (decide (w.leftover.length < 8))
  let lo ← takeLeftover
  let rest ←
    if lo.isEmpty then
      pure bits
    else do
      let c := min (8 - lo.length) bits.length
      extend lo
      extend (bits.take c)
      let w ← M.get
      M.assert (decide (w.leftover.length = 8) || (bits.drop c).isEmpty)
      flushFull
      pure (bits.drop c)
  writeBulk (chunks8 (rest.length / 8) rest) (rest.length - (fwdRemainder rest).length)
  extend (fwdRemainder rest)
  M.modify (fun w => { w with tag := .msb0 })

/-- `write_bits_order_msb_lsb` (src/writer.rs:165-234). -/
def msbLsb (bits : List Bool) : M Writer Unit := do
  let w ← M.get
  M.assert (decide (w.leftover.length < 8))
  let lo ← takeLeftover
  let (first, complement, bulk, last) :=
    if lo.isEmpty then
      (([] : List Bool), ([] : List Bool), bits, ([] : List Bool))
    else
      let c := min (8 - bits.length % 8) lo.length
      let front := min bits.length (8 - c)
      (lo.take c, bits.take front, bits.drop front, lo.drop c)
  extend first
  extend complement
  flushFull
  writeBulk (chunks8 (bulk.length / 8) bulk) (bulk.length - (fwdRemainder bulk).length)
  let w ← M.get
  let remainder := fwdRemainder bulk
  M.assert (decide (w.leftover.length + remainder.length ≤ 8))
  let c := min (8 - remainder.length) last.length
  extend remainder
  extend (last.take c)
  let w ← M.get
  M.assert (decide (w.leftover.length = 8) || (last.drop c).isEmpty)
  flushFull
  extend (last.drop c)
  M.modify (fun w => { w with tag := .lsb0 })

/-- `write_bits_order_lsb_msb` (src/writer.rs:237-287). -/
def lsbMsb (bits : List Bool) : M Writer Unit := do
  let w ← M.get
  M.assert (decide (w.leftover.length < 8))
  let lo ← takeLeftover
  let (complement, rest) :=
    if lo.isEmpty then
      (([] : List Bool), ([] : List Bool))
    else
      let c := min (8 - bits.length % 8) lo.length
      (lo.take c, lo.drop c)
  let remainder := bwdRemainder bits
  writeBulk (rchunks8 (bits.length / 8) bits) (bits.length - remainder.length)
  extend remainder
  extend complement
  M.modify (fun w => { w with tag := .msb0 })
  let w ← M.get
  M.assert (decide (w.leftover.length = 8) || rest.isEmpty)
  flushFull
  extend rest

/-- `write_bits_order_lsb_lsb` (src/writer.rs:290-339). -/
def lsbLsb (bits : List Bool) : M Writer Unit := do
  let w ← M.get
  M.assert (decide (w.leftover.length < 8))
  let lo ← takeLeftover
  let rest ←
    if lo.isEmpty then
      pure bits
    else do
      let c := min (8 - lo.length) bits.length
      let k := bits.length - c
      extend (bits.drop k)
      extend lo
      let w ← M.get
      M.assert (decide (w.leftover.length = 8) || (bits.take k).isEmpty)
      flushFull
      pure (bits.take k)
  writeBulk (rchunks8 (rest.length / 8) rest) (rest.length - (bwdRemainder rest).length)
  extend (bwdRemainder rest)
  M.modify (fun w => { w with tag := .lsb0 })

/-- `write_bits_order` (src/writer.rs:344-359). -/
def writeBitsOrder (bits : List Bool) (order : Order) : M Writer Unit := do
  let w ← M.get
  match w.tag, order with
  | .msb0, .msb0 => msbMsb bits
  | .msb0, .lsb0 => msbLsb bits
  | .lsb0, .msb0 => lsbMsb bits
  | .lsb0, .lsb0 => lsbLsb bits

/-- `write_bits` (src/writer.rs:364-366). -/
def writeBits (bits : List Bool) : M Writer Unit := writeBitsOrder bits .msb0

/-- `write_bytes` (src/writer.rs:371-399). -/
def writeBytes (bs : List Byte) : M Writer Unit := do
  let w ← M.get
  if w.leftover.isEmpty then
    writeAll bs
    M.modify (fun w => { w with bitsWritten := w.bitsWritten + bs.length * 8 })
  else
    writeBits (bytesBits bs)

/-- `write_bits_uint_msb0` (src/writer.rs:75-109). `acc` is a natural number instead of a `u128`:
at most 71 bits are accumulated. `amt` outside `1..=64` fails the debug assertion. -/
def writeBitsUintMsb0 (value amt : Nat) : M Writer Unit := do
  let w ← M.get
  M.assert (decide (1 ≤ amt) && decide (amt ≤ 64))
  M.assert (decide (w.tag = .msb0))
  let acc := ofBits w.leftover * 2 ^ amt + value % 2 ^ amt
  let have_ := w.leftover.length + amt
  let whole := have_ / 8
  let rest := have_ % 8
  if whole ≠ 0 then
    writeAll (toBE whole (acc / 2 ^ rest))
    M.modify (fun w => { w with bitsWritten := w.bitsWritten + whole * 8 })
  M.modify (fun w => { w with leftover := bitsBE rest acc, tag := .msb0 })

/-- `finalize` (src/writer.rs:404-413). -/
def finalize : M Writer Unit := do
  let w ← M.get
  M.assert (decide (w.leftover.length < 8))
  writeBitsOrder (List.replicate ((8 - w.leftover.length) % 8) false) w.tag

/-- `Seek for Writer` (src/writer.rs:30-44): pending bits are dropped, `bits_written` is kept. -/
def seek (p : SeekFrom) : M Writer (Except IoKind Nat) := fun w =>
  let (x, s) := w.inner.seek p
  (.ok x, { w with leftover := [], tag := .msb0, inner := s })

end Writer

end Deku
