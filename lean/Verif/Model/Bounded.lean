import Verif.Model.Reader
import Verif.Model.Writer

/-!
# `BoundedBitVec`, and the reader and writer that store their pending bits in it

`Verif/Model/Reader.lean` and `Verif/Model/Writer.lean` hold pending bits in a list and compute with
numbers of any size. Here the same functions are transcribed with what the code has: a storage of fixed
size with a length, of which a part may be stale, and machine words. The theorems of C58 show that the
former are a faithful picture of the latter.
-/

namespace Deku

/-- `core::option::Option::unwrap` and other steps that panic on failure. -/
def M.unwrap {σ α : Type} : Option α → M σ α
  | some a => M.pure a
  | none => M.panic

/-- `BoundedBitVec<A, Msb0>` (src/lib.rs:840-848): the bits of the array `A`, of which the first `size`
are in use. -/
structure BBV where
  store : List Bool
  size : Nat
  deriving DecidableEq, Repr

namespace BBV

/-- `new` (src/lib.rs:929-934) for an array of `cap` bits. -/
def new (cap : Nat) : BBV := { store := List.replicate cap false, size := 0 }

/-- `BitSlice::copy_from_bitslice` onto the part of `l` that starts at `at`. -/
def overwrite (l : List Bool) (start : Nat) (bits : List Bool) : List Bool :=
  l.take start ++ bits ++ l.drop (start + bits.length)

/-- `as_bitslice` (src/lib.rs:936-939). -/
def asBitslice (b : BBV) : Option (List Bool) := if b.size ≤ b.store.length then some (b.store.take b.size) else none

/-- `as_raw_slice` (src/lib.rs:946-948). -/
def asRawSlice (b : BBV) : List Byte := (chunks8 (b.store.length / 8) b.store).map byteOf

/-- `clear` (src/lib.rs:954-956): the storage is left as it is. -/
def clear (b : BBV) : BBV := { b with size := 0 }

/-- `extend_from_bitslice` (src/lib.rs:958-965). -/
def extend (b : BBV) (bits : List Bool) : Option BBV :=
  if b.size + bits.length ≤ b.store.length then
    some { store := overwrite b.store b.size bits, size := b.size + bits.length }
  else none

/-- `insert` (src/lib.rs:979-986): everything from `index` on, stale bits too, moves up by one, and the
last bit of the storage is lost. -/
def insert (b : BBV) (index : Nat) (v : Bool) : Option BBV :=
  if b.size < b.store.length ∧ index < b.size then
    some { store := b.store.take index ++ v :: (b.store.drop index).dropLast, size := b.size + 1 }
  else none

/-- `push` (src/lib.rs:988-992). -/
def push (b : BBV) (v : Bool) : Option BBV :=
  if b.size < b.store.length then some { store := overwrite b.store b.size [v], size := b.size + 1 } else none

/-- `split_off` (src/lib.rs:994-1000): the first part keeps its storage, the second is copied to a new
one. -/
def splitOff (b : BBV) (index : Nat) : Option (BBV × BBV) :=
  if index < b.size ∧ b.size ≤ b.store.length then do
    let right ← (new b.store.length).extend ((b.store.take b.size).drop index)
    some ({ b with size := index }, right)
  else none

/-- `From<BitArray>` (src/lib.rs:851-862), for `[byte]`. -/
def ofByte (byte : Byte) : BBV := { store := byteBits byte, size := 8 }

/-- `From<&BitSlice>` and `From<&mut BitSlice>` (src/lib.rs:864-894) for `[u8; 1]`. -/
def ofSlice (bits : List Bool) : Option BBV := (new 8).extend bits

/-- `from_msb0_byte` (src/lib.rs:1011-1017). -/
def fromMsb0Byte (byte : Byte) (size : Nat) : Option BBV :=
  if size ≤ 8 then some { store := byteBits byte, size := size } else none

/-- `as_msb0_byte` (src/lib.rs:1021-1023). -/
def asMsb0Byte (b : BBV) : Byte × Nat := (b.asRawSlice.headD 0, b.size)

end BBV

/-- `Leftover` (src/reader.rs:28-34). -/
inductive RawLeftover
  | byte (b : Byte)
  | bits (b : BBV)
  deriving DecidableEq, Repr

/-- `Reader` (src/reader.rs:37-43). -/
structure RawReader where
  inner : Src
  leftover : Option RawLeftover := none
  bitsRead : Nat := 0

namespace RawReader

/-- As `Reader.ioRead`. -/
def ioRead (n : Nat) : M RawReader (Except IoKind (List Byte)) := fun r =>
  let (x, s) := r.inner.readExact n
  (.ok x, { r with inner := s })

/-- As `Reader.seek` (src/reader.rs:45-60). -/
def seek (p : SeekFrom) : M RawReader (Except IoKind Nat) := fun r =>
  match r.inner.seek p with
  | (.ok n, s) => (.ok (.ok n), { r with leftover := none, inner := s, bitsRead := n * 8 })
  | (.error e, s) => (.ok (.error e), { r with leftover := none, inner := s })

/-- `rest` (src/reader.rs:129-145). -/
def rest : M RawReader (List Bool) := do
  let r ← M.get
  match r.leftover with
  | none => pure []
  | some (.byte b) => pure (byteBits b)
  | some (.bits b) => do
    M.assert (decide (b.size ≤ 8))
    M.unwrap b.asBitslice

/-- `end` (src/reader.rs:152-173). -/
def «end» : M RawReader Bool := do
  let r ← M.get
  if r.leftover.isSome then
    pure false
  else
    match ← ioRead 1 with
    | .error .unexpectedEof => pure true
    | .error _ => M.modify (fun r => { r with leftover := some (.byte 0) }); pure false
    | .ok bs => M.modify (fun r => { r with leftover := some (.byte (bs.headD 0)) }); pure false

/-- As `Reader.readSlots` (src/reader.rs:309-318, 322-331). -/
def readSlots (dstLen : Nat) : Nat → M RawReader (List Byte)
  | 0 => pure []
  | k + 1 => do
    let b ← (do
      match ← ioRead 1 with
      | .error .unexpectedEof => M.throw (.incomplete dstLen)
      | .error _ => pure (0 : Byte)
      | .ok bs => pure (bs.headD 0))
    let bs ← readSlots dstLen k
    pure (b :: bs)

/-- As `Reader.readPartial` (src/reader.rs:336-343, 354-362). -/
def readPartial (dstLen : Nat) : M RawReader Byte := do
  match ← ioRead 1 with
  | .error .unexpectedEof => M.throw (.incomplete dstLen)
  | .error e => M.throw (.io e)
  | .ok bs => pure (bs.headD 0)

/-- `self.leftover = Some(Leftover::Bits(b))`. -/
def keep (b : BBV) : M RawReader Unit := M.modify (fun r => { r with leftover := some (.bits b) })

/-- The pending bits as a `BoundedBitVec` (src/reader.rs:248-259), where there are any. -/
def pending : Option RawLeftover → Option BBV
  | none => none
  | some (.byte b) => some (BBV.ofByte b)
  | some (.bits b) => some b

/-- The bits copied to one end of the destination (src/reader.rs:300-303, 349-351), none without a
leftover. -/
def copied : Option BBV → M RawReader (List Bool)
  | none => pure []
  | some b => M.unwrap b.asBitslice

/-- `read_bits_into` (src/reader.rs:236-377). -/
def readBitsInto (n : Nat) (order : Order) : M RawReader (List Bool) := do
  if n = 0 then
    pure []
  else
    let r ← M.get
    let lo := pending r.leftover
    M.modify (fun r => { r with leftover := none })
    let prev := (lo.map BBV.size).getD 0
    let dst ←
      if n < prev then do
        let bits ← M.unwrap lo
        M.assert (decide (bits.size ≤ 8))
        match order with
        | .lsb0 => do
          let (left, used) ← M.unwrap (bits.splitOff (bits.size - n))
          let l ← M.unwrap used.asBitslice
          keep left
          pure l
        | .msb0 => do
          let (left, used) ← M.unwrap (bits.splitOff n)
          let l ← M.unwrap left.asBitslice
          keep used
          pure l
      else if n = prev then do
        let bits ← M.unwrap lo
        M.assert (decide (bits.size ≤ 8))
        M.unwrap bits.asBitslice
      else
        let need := n - prev
        match order with
        | .lsb0 => do
          let bytes ← readSlots n (need / 8)
          let slots := bytesBits bytes.reverse
          if need % 8 = 0 then
            let l ← copied lo
            pure (slots ++ l)
          else
            let b ← readPartial n
            let rest ← M.unwrap (BBV.ofSlice ((byteBits b).take (8 - need % 8)))
            keep rest
            let l ← copied lo
            pure ((byteBits b).drop (8 - need % 8) ++ slots ++ l)
        | .msb0 => do
          let l ← copied lo
          let bytes ← readSlots n (need / 8)
          let slots := bytesBits bytes
          if need % 8 = 0 then
            pure (l ++ slots)
          else
            let b ← readPartial n
            let rest ← M.unwrap (BBV.ofSlice ((byteBits b).drop (need % 8)))
            keep rest
            pure (l ++ slots ++ (byteBits b).take (need % 8))
    M.modify (fun r => { r with bitsRead := r.bitsRead + n })
    pure dst

/-- The loop `while have < amt` (src/reader.rs:419-429) on a `u128`. -/
def uintLoop (amt : Nat) : Nat → BitVec 128 → Nat → M RawReader (BitVec 128 × Nat)
  | 0, acc, have_ => pure (acc, have_)
  | fuel + 1, acc, have_ =>
    if have_ < amt then do
      match ← ioRead 1 with
      | .error .unexpectedEof => M.throw (.incomplete amt)
      | .error e => M.throw (.io e)
      | .ok bs => uintLoop amt fuel (acc <<< 8 ||| (bs.headD 0).setWidth 128) (have_ + 8)
    else pure (acc, have_)

/-- `x >> n` on a word, which panics if `n` is not less than its width. -/
def shr {w : Nat} (x : BitVec w) (n : Nat) : Option (BitVec w) := if n < w then some (x >>> n) else none

/-- `x << n` on a word. -/
def shl {w : Nat} (x : BitVec w) (n : Nat) : Option (BitVec w) := if n < w then some (x <<< n) else none

/-- `a - b` on `usize`. -/
def sub (a b : Nat) : Option Nat := if b ≤ a then some (a - b) else none

/-- The start of `read_bits_uint_msb0` (src/reader.rs:397-411): the pending bits at the low end of a
`u128`, and their number. -/
def lead : Option RawLeftover → Option (BitVec 128 × Nat)
  | none => some (0, 0)
  | some (.byte byte) => some (byte.setWidth 128, 8)
  | some (.bits bits) =>
    let (byte, size) := bits.asMsb0Byte
    if size ≠ 0 then do
      let x ← shr byte (← sub 8 size)
      some (x.setWidth 128, size)
    else some (0, 0)

/-- `read_bits_uint_msb0` (src/reader.rs:393-443). -/
def readBitsUintMsb0 (amt : Nat) : M RawReader (BitVec 64) := do
  M.assert (decide (1 ≤ amt) && decide (amt ≤ 64))
  let r ← M.get
  M.modify (fun r => { r with leftover := none })
  let (acc0, have0) ← M.unwrap (lead r.leftover)
  let (acc, have_) ← uintLoop amt amt acc0 have0
  let rest ← M.unwrap (sub have_ amt)
  let x ← M.unwrap (shr acc rest)
  let mask ← M.unwrap (shr (BitVec.allOnes 64) (64 - amt))
  let value := x.setWidth 64 &&& mask
  if rest ≠ 0 then
    let one ← M.unwrap (shl (1 : BitVec 128) rest)
    let tail := (acc &&& (one - 1)).setWidth 8
    let byte ← M.unwrap (shl tail (8 - rest))
    let b ← M.unwrap (BBV.fromMsb0Byte byte rest)
    keep b
  M.modify (fun r => { r with bitsRead := r.bitsRead + amt })
  pure value

/-- As `Reader.readBytesLeftover` (src/reader.rs:526-565, 665-706). -/
def readBytesLeftover (byte : Byte) (amt : Nat) : M RawReader (List Byte) := do
  if amt = 0 then
    M.panic
  else
    M.modify (fun r => { r with leftover := none })
    let remaining := amt - 1
    if remaining = 0 then
      M.modify (fun r => { r with bitsRead := r.bitsRead + amt * 8 })
      pure [byte]
    else
      match ← ioRead remaining with
      | .error .unexpectedEof => M.throw (.incomplete (remaining * 8))
      | .error e => M.throw (.io e)
      | .ok bs =>
        M.modify (fun r => { r with bitsRead := r.bitsRead + amt * 8 })
        pure (byte :: bs)

/-- `read_bytes` (src/reader.rs:475-524); `read_bytes_const` and `read_bytes_const_into`
(src/reader.rs:574-663) take the same steps. -/
def readBytes (amt : Nat) (order : Order) : M RawReader (List Byte) := do
  let r ← M.get
  match r.leftover with
  | none =>
    match ← ioRead amt with
    | .error .unexpectedEof => M.throw (.incomplete (amt * 8))
    | .error e => M.throw (.io e)
    | .ok bs =>
      M.modify (fun r => { r with bitsRead := r.bitsRead + amt * 8 })
      pure bs
  | some (.byte b) => readBytesLeftover b amt
  | some (.bits _) => do
    let bits ← readBitsInto (amt * 8) order
    let buf := Reader.packBytes amt bits
    match order with
    | .lsb0 => pure buf.reverse
    | .msb0 => pure buf

/-- `skip_bits` (src/reader.rs:181-219). -/
def skipBits (amt : Nat) (order : Order) : M RawReader Unit := do
  let r ← M.get
  let amt ← match r.leftover with
    | some (.bits b) => do
      let needed := min amt b.size
      let _ ← readBitsInto needed order
      pure (amt - needed)
    | _ => pure amt
  let bytesAmt := amt / 8
  let bitsAmt := amt % 8
  if bytesAmt ≠ 0 then
    let r ← M.get
    M.assert (decide (r.bitsRead % 8 = 0))
    match ← seek (.current bytesAmt) with
    | .error e => M.throw (.io e)
    | .ok _ => pure ()
  let _ ← readBitsInto bitsAmt order
  pure ()

end RawReader

/-- `Writer` (src/writer.rs:21-28). -/
structure RawWriter where
  inner : Sink
  leftover : BBV := BBV.new 8
  tag : Order := .msb0
  bitsWritten : Nat := 0

namespace RawWriter

open RawReader (shr shl sub)

/-- `rest` (src/writer.rs:61-63). -/
def rest : M RawWriter (List Bool) := do
  let w ← M.get
  M.unwrap w.leftover.asBitslice

/-- As `Writer.writeAll`. -/
def writeAll (bs : List Byte) : M RawWriter Unit := fun w =>
  match w.inner.writeAll bs with
  | (.ok _, s) => (.ok (), { w with inner := s })
  | (.error e, s) => (.err (.io e), { w with inner := s })

/-- `self.leftover.0.extend_from_bitslice(bits)`. -/
def extend (bits : List Bool) : M RawWriter Unit := do
  let w ← M.get
  let b ← M.unwrap (w.leftover.extend bits)
  M.modify (fun w => { w with leftover := b })

/-- As `Writer.flushFull` (e.g. src/writer.rs:143-147), with `is_full` and `as_raw_slice`. -/
def flushFull : M RawWriter Unit := do
  let w ← M.get
  if w.leftover.size = w.leftover.store.length then
    writeAll w.leftover.asRawSlice
    M.modify (fun w => { w with bitsWritten := w.bitsWritten + w.leftover.size,
                                leftover := BBV.new 8, tag := .msb0 })
  else
    pure ()

/-- As `Writer.writeChunks`. -/
def writeChunks : List (List Bool) → M RawWriter Unit
  | [] => pure ()
  | c :: cs => do
    writeAll [byteOf c]
    writeChunks cs

/-- As `Writer.writeBulk`. -/
def writeBulk (chunks : List (List Bool)) (counted : Nat) : M RawWriter Unit := do
  writeChunks chunks
  M.modify (fun w => { w with bitsWritten := w.bitsWritten + counted })

/-- The assertion and `core::mem::swap` at the start of the four functions below, and the bits of the
old leftover. -/
def takeLeftover : M RawWriter (List Bool) := do
  let w ← M.get
  M.assert (decide (w.leftover.size < w.leftover.store.length))
  M.modify (fun w => { w with leftover := BBV.new 8, tag := .msb0 })
  M.unwrap w.leftover.asBitslice

/-- `debug_assert!(self.leftover.0.is_full() || rest.is_empty())`. -/
def assertFull (rest : List Bool) : M RawWriter Unit := do
  let w ← M.get
  M.assert (decide (w.leftover.size = w.leftover.store.length) || rest.isEmpty)

/-- `debug_assert!(self.leftover.0.len() + remainder.len() <= self.leftover.0.capacity())`; where
`extend_from_bitslice(remainder)` follows, its own assertion stands for both. -/
def assertRoom (remainder : List Bool) : M RawWriter Unit := do
  let w ← M.get
  M.assert (decide (w.leftover.size + remainder.length ≤ w.leftover.store.length))

/-- `write_bits_order_msb_msb` (src/writer.rs:112-162). -/
def msbMsb (bits : List Bool) : M RawWriter Unit := do
  let lo ← takeLeftover
  let rest ←
    if lo.isEmpty then
      pure bits
    else do
      let c := min (8 - lo.length) bits.length
      extend lo
      extend (bits.take c)
      assertFull (bits.drop c)
      flushFull
      pure (bits.drop c)
  writeBulk (chunks8 (rest.length / 8) rest) (rest.length - (Writer.fwdRemainder rest).length)
  extend (Writer.fwdRemainder rest)
  M.modify (fun w => { w with tag := .msb0 })

/-- `write_bits_order_msb_lsb` (src/writer.rs:165-234). -/
def msbLsb (bits : List Bool) : M RawWriter Unit := do
  let lo ← takeLeftover
  let (first, complement, bulk, last) :=
    if lo.isEmpty then
      (([] : List Bool), ([] : List Bool), bits, ([] : List Bool))
    else
      let c := min (8 - bits.length % 8) lo.length
      let front := min bits.length (8 - c)
      (lo.take c, bits.take front, bits.drop front, lo.drop c)
  extend first
  extend complement
  flushFull
  writeBulk (chunks8 (bulk.length / 8) bulk) (bulk.length - (Writer.fwdRemainder bulk).length)
  let remainder := Writer.fwdRemainder bulk
  assertRoom remainder
  let c := min (8 - remainder.length) last.length
  extend remainder
  extend (last.take c)
  assertFull (last.drop c)
  flushFull
  extend (last.drop c)
  M.modify (fun w => { w with tag := .lsb0 })

/-- `write_bits_order_lsb_msb` (src/writer.rs:237-287). -/
def lsbMsb (bits : List Bool) : M RawWriter Unit := do
  let lo ← takeLeftover
  let (complement, rest) :=
    if lo.isEmpty then
      (([] : List Bool), ([] : List Bool))
    else
      let c := min (8 - bits.length % 8) lo.length
      (lo.take c, lo.drop c)
  let remainder := Writer.bwdRemainder bits
  writeBulk (rchunks8 (bits.length / 8) bits) (bits.length - remainder.length)
  extend remainder
  extend complement
  M.modify (fun w => { w with tag := .msb0 })
  assertFull rest
  flushFull
  extend rest

/-- `write_bits_order_lsb_lsb` (src/writer.rs:290-339). -/
def lsbLsb (bits : List Bool) : M RawWriter Unit := do
  let lo ← takeLeftover
  let rest ←
    if lo.isEmpty then
      pure bits
    else do
      let c := min (8 - lo.length) bits.length
      let k := bits.length - c
      extend (bits.drop k)
      extend lo
      assertFull (bits.take k)
      flushFull
      pure (bits.take k)
  writeBulk (rchunks8 (rest.length / 8) rest) (rest.length - (Writer.bwdRemainder rest).length)
  extend (Writer.bwdRemainder rest)
  M.modify (fun w => { w with tag := .lsb0 })

/-- `write_bits_order` (src/writer.rs:344-359). -/
def writeBitsOrder (bits : List Bool) (order : Order) : M RawWriter Unit := do
  let w ← M.get
  match w.tag, order with
  | .msb0, .msb0 => msbMsb bits
  | .msb0, .lsb0 => msbLsb bits
  | .lsb0, .msb0 => lsbMsb bits
  | .lsb0, .lsb0 => lsbLsb bits

/-- `write_bytes` (src/writer.rs:371-399). -/
def writeBytes (bs : List Byte) : M RawWriter Unit := do
  let w ← M.get
  if w.leftover.size = 0 then
    writeAll bs
    M.modify (fun w => { w with bitsWritten := w.bitsWritten + bs.length * 8 })
  else
    writeBitsOrder (bytesBits bs) .msb0

/-- The bytes of `aligned` put into the buffer of 9 bytes (src/writer.rs:93-97), of which `whole` are
used. -/
def fill (aligned : BitVec 128) (whole : Nat) : Option (List Byte) :=
  if whole ≤ 9 then
    (List.range whole).mapM fun i => do
      let x ← shr aligned ((whole - 1 - i) * 8)
      some (x.setWidth 8)
  else none

/-- `write_bits_uint_msb0` (src/writer.rs:75-109). -/
def writeBitsUintMsb0 (value : BitVec 64) (amt : Nat) : M RawWriter Unit := do
  let w ← M.get
  M.assert (decide (1 ≤ amt) && decide (amt ≤ 64))
  M.assert (decide (w.tag = .msb0))
  let (lead, leadLen) := w.leftover.asMsb0Byte
  let acc0 ← (if leadLen = 0 then pure 0 else do
    let n ← M.unwrap (sub 8 leadLen)
    let x ← M.unwrap (shr lead n)
    pure (x.setWidth 128) : M RawWriter (BitVec 128))
  let hi ← M.unwrap (shl acc0 amt)
  let mask ← M.unwrap (shr (BitVec.allOnes 64) (64 - amt))
  let acc := hi ||| (value &&& mask).setWidth 128
  let have_ := leadLen + amt
  let whole := have_ / 8
  let rest := have_ % 8
  if whole ≠ 0 then
    let aligned ← M.unwrap (shr acc rest)
    let buf ← M.unwrap (fill aligned whole)
    writeAll buf
    M.modify (fun w => { w with bitsWritten := w.bitsWritten + whole * 8 })
  if rest = 0 then
    M.modify (fun w => { w with leftover := w.leftover.clear })
  else
    let one ← M.unwrap (shl (1 : BitVec 128) rest)
    let tail := (acc &&& (one - 1)).setWidth 8
    let byte ← M.unwrap (shl tail (8 - rest))
    let b ← M.unwrap (BBV.fromMsb0Byte byte rest)
    M.modify (fun w => { w with leftover := b })
  M.modify (fun w => { w with tag := .msb0 })

/-- `finalize` (src/writer.rs:404-413). -/
def finalize : M RawWriter Unit := do
  let w ← M.get
  M.assert (decide (w.leftover.size < 8))
  writeBitsOrder (List.replicate ((8 - w.leftover.size) % 8) false) w.tag

/-- `Seek for Writer` (src/writer.rs:30-44). -/
def seek (p : SeekFrom) : M RawWriter (Except IoKind Nat) := fun w =>
  let (x, s) := w.inner.seek p
  (.ok x, { w with leftover := w.leftover.clear, tag := .msb0, inner := s })

end RawWriter

end Deku
