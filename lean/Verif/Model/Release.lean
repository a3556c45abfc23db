import Verif.Model.Core
import Verif.Model.Toplevel

/-!
# A release build

The other modules model a debug build. In a release build (`debug-assertions` and `overflow-checks` off, the default of
`cargo build --release`) a `debug_assert!` is no code, an arithmetic operation that overflows wraps around, and a shift
by the width of the type or more is a shift by the amount modulo the width. `assert!`, `assert_eq!`, slice bounds,
`unwrap`, `expect` and failing allocations panic as before.

Every function in which this makes a difference, and every function that calls such a one, is given again here in
namespace `Rel`; functions that are not here are the same in both builds. Where an assertion can be seen to hold from the
code next to it, so that the function as a whole is the same in both builds, the function is not repeated:
`read_bits_uint_msb0` is only called with `1..=64` (src/impls/primitive.rs:395, 428), so `Reader.readBitsUintMsb0` stays.
As in a debug build the overflow of the counters `bits_read` and `bits_written` is not modelled.
-/

namespace Deku

namespace Rel

/-! ## Reader -/

/-- `skip_bits` (src/reader.rs:181-219) without `debug_assert_eq!(self.bits_read % 8, 0)`. -/
def skipBits (amt : Nat) (order : Order) : M Reader Unit := do
  let r ← M.get
  let amt ← match r.leftover with
    | some (.bits l) => do
      let needed := min amt l.length
      let _ ← Reader.readBitsInto needed order
      pure (amt - needed)
    | _ => pure amt
  let bytesAmt := amt / 8
  let bitsAmt := amt % 8
  if bytesAmt ≠ 0 then
    match ← Reader.seek (.current bytesAmt) with
    | .error e => M.throw (.io e)
    | .ok _ => pure ()
  let _ ← Reader.readBitsInto bitsAmt order
  pure ()

/-! ## Writer -/

/-- `write_bits_order_msb_msb` (src/writer.rs:112-162) without its `debug_assert!`s. -/
def msbMsb (bits : List Bool) : M Writer Unit := do
  let lo ← Writer.takeLeftover
  let rest ←
    if lo.isEmpty then
      pure bits
    else do
      let c := min (8 - lo.length) bits.length
      Writer.extend lo
      Writer.extend (bits.take c)
      Writer.flushFull
      pure (bits.drop c)
  Writer.writeBulk (chunks8 (rest.length / 8) rest) (rest.length - (Writer.fwdRemainder rest).length)
  Writer.extend (Writer.fwdRemainder rest)
  M.modify (fun w => { w with tag := .msb0 })

/-- `write_bits_order_msb_lsb` (src/writer.rs:165-234) without its `debug_assert!`s. -/
def msbLsb (bits : List Bool) : M Writer Unit := do
  let lo ← Writer.takeLeftover
  let (first, complement, bulk, last) :=
    if lo.isEmpty then
      (([] : List Bool), ([] : List Bool), bits, ([] : List Bool))
    else
      let c := min (8 - bits.length % 8) lo.length
      let front := min bits.length (8 - c)
      (lo.take c, bits.take front, bits.drop front, lo.drop c)
  Writer.extend first
  Writer.extend complement
  Writer.flushFull
  Writer.writeBulk (chunks8 (bulk.length / 8) bulk) (bulk.length - (Writer.fwdRemainder bulk).length)
  let remainder := Writer.fwdRemainder bulk
  let c := min (8 - remainder.length) last.length
  Writer.extend remainder
  Writer.extend (last.take c)
  Writer.flushFull
  Writer.extend (last.drop c)
  M.modify (fun w => { w with tag := .lsb0 })

/-- `write_bits_order_lsb_msb` (src/writer.rs:237-287) without its `debug_assert!`s. -/
def lsbMsb (bits : List Bool) : M Writer Unit := do
  let lo ← Writer.takeLeftover
  let (complement, rest) :=
    if lo.isEmpty then
      (([] : List Bool), ([] : List Bool))
    else
      let c := min (8 - bits.length % 8) lo.length
      (lo.take c, lo.drop c)
  let remainder := Writer.bwdRemainder bits
  Writer.writeBulk (rchunks8 (bits.length / 8) bits) (bits.length - remainder.length)
  Writer.extend remainder
  Writer.extend complement
  M.modify (fun w => { w with tag := .msb0 })
  Writer.flushFull
  Writer.extend rest

/-- `write_bits_order_lsb_lsb` (src/writer.rs:290-339) without its `debug_assert!`s. -/
def lsbLsb (bits : List Bool) : M Writer Unit := do
  let lo ← Writer.takeLeftover
  let rest ←
    if lo.isEmpty then
      pure bits
    else do
      let c := min (8 - lo.length) bits.length
      let k := bits.length - c
      Writer.extend (bits.drop k)
      Writer.extend lo
      Writer.flushFull
      pure (bits.take k)
  Writer.writeBulk (rchunks8 (rest.length / 8) rest) (rest.length - (Writer.bwdRemainder rest).length)
  Writer.extend (Writer.bwdRemainder rest)
  M.modify (fun w => { w with tag := .lsb0 })

/-- `write_bits_order` (src/writer.rs:344-359). -/
def writeBitsOrder (bits : List Bool) (order : Order) : M Writer Unit := do
  let w ← M.get
  match w.tag, order with
  | .msb0, .msb0 => msbMsb bits
  | .msb0, .lsb0 => msbLsb bits
  | .lsb0, .msb0 => lsbMsb bits
  | .lsb0, .lsb0 => lsbLsb bits

/-- `write_bytes` (src/writer.rs:371-399). -/
def writerBytes (bs : List Byte) : M Writer Unit := do
  let w ← M.get
  if w.leftover.isEmpty then
    Writer.writeAll bs
    M.modify (fun w => { w with bitsWritten := w.bitsWritten + bs.length * 8 })
  else
    writeBitsOrder (bytesBits bs) .msb0

/-- `write_bits_uint_msb0` (src/writer.rs:75-109) without its `debug_assert!`s. For `amt = 0` the mask
`u64::MAX >> (64 - amt)` is `u64::MAX >> 0`, so that the value is not masked; it is 0 then, because the callers have
checked that it fits (src/impls/primitive.rs:93-101, 907-919). -/
def writeBitsUintMsb0 (value amt : Nat) : M Writer Unit := do
  let w ← M.get
  let acc := ofBits w.leftover * 2 ^ amt + (if amt = 0 then value else value % 2 ^ amt)
  let have_ := w.leftover.length + amt
  let whole := have_ / 8
  let rest := have_ % 8
  if whole ≠ 0 then
    Writer.writeAll (toBE whole (acc / 2 ^ rest))
    M.modify (fun w => { w with bitsWritten := w.bitsWritten + whole * 8 })
  M.modify (fun w => { w with leftover := bitsBE rest acc, tag := .msb0 })

/-- `finalize` (src/writer.rs:404-413) without its `debug_assert!`. -/
def finalize : M Writer Unit := do
  let w ← M.get
  writeBitsOrder (List.replicate ((8 - w.leftover.length) % 8) false) w.tag

/-! ## Integers -/

/-- `DekuRead<(Endian, BitSize, Order)>::read` (src/impls/primitive.rs:168-298): `bits.len() - (8 - pad)` wraps around
for an empty slice and the index is not used then, because `pad` is 0. -/
def readSliceOrd (W : Nat) (e : Endian) (o : Order) (bits : List Bool) : M Reader Nat := do
  let len := bits.length
  let pad := 8 * ((len + 7) / 8) - len
  if pad = 0 ∧ len = 8 * W ∧ o ≠ .lsb0 then
    pure (endianNat e (Reader.packBytes W bits))
  else if e = .big ∧ o = .msb0 ∧ 0 < len then
    pure (ofBits bits)
  else
    match o with
    | .lsb0 => do
      let padded ← Prim.insertZeros (8 * W) 0 pad bits
      let skip := match e with
        | .little => 0
        | .big => W - (len + 7) / 8
      let slots := (rchunks8 (padded.length / 8) padded).map byteOf
      let buf := (List.replicate skip 0 ++ slots ++ List.replicate W 0).take W
      pure (endianNat e buf)
    | .msb0 => do
      let index := match e with
        | .little => if len < 8 - pad then 2 ^ 64 - (8 - pad - len) else len - (8 - pad)
        | .big => 0
      let padded ← Prim.insertZeros (8 * W) index pad bits
      let full ← match e with
        | .little => pure (padded ++ List.replicate (8 * W - padded.length) false)
        | .big => Prim.insertZeros (8 * W) 0 (8 * W - padded.length) padded
      pure (endianNat e (Reader.packBytes W full))

/-- `DekuRead<(Endian, BitSize)>::read` (src/impls/primitive.rs:301-381). -/
def readSlice (W : Nat) (e : Endian) (bits : List Bool) : M Reader Nat := do
  let len := bits.length
  let pad := 8 * ((len + 7) / 8) - len
  if pad = 0 ∧ len = 8 * W then
    pure (endianNat e (Reader.packBytes W bits))
  else if e = .big ∧ 0 < len then
    pure (ofBits bits)
  else do
    let index := match e with
      | .little => if len < 8 - pad then 2 ^ 64 - (8 - pad - len) else len - (8 - pad)
      | .big => 0
    let padded ← Prim.insertZeros (8 * W) index pad bits
    let full ← match e with
      | .little => pure (padded ++ List.replicate (8 * W - padded.length) false)
      | .big => Prim.insertZeros (8 * W) 0 (8 * W - padded.length) padded
    pure (endianNat e (Reader.packBytes W full))

/-- `DekuReader<(Endian, BitSize)>` for unsigned types (src/impls/primitive.rs:384-412). -/
def readBits (W : Nat) (e : Endian) (n : Nat) : M Reader Nat := do
  if n > 8 * W then
    M.throw .parse
  else if e = .big ∧ 0 < n ∧ n ≤ 64 then do
    let v ← Reader.readBitsUintMsb0 n
    pure (v % 256 ^ W)
  else do
    let bits ← Reader.readBitsInto n .msb0
    readSlice W e bits

/-- `DekuReader<(Endian, BitSize, Order)>` for unsigned types (src/impls/primitive.rs:415-444). -/
def readBitsOrd (W : Nat) (e : Endian) (n : Nat) (o : Order) : M Reader Nat := do
  if n > 8 * W then
    M.throw .parse
  else if e = .big ∧ o = .msb0 ∧ 0 < n ∧ n ≤ 64 then do
    let v ← Reader.readBitsUintMsb0 n
    pure (v % 256 ^ W)
  else do
    let bits ← Reader.readBitsInto n o
    readSliceOrd W e o bits

/-- `DekuRead<(Endian, BitSize, Order)>::read` for signed types (src/impls/primitive.rs:541-559). For an empty slice the
shift amount is the width of the type, so that nothing is shifted. -/
def readSliceSigned (W : Nat) (e : Endian) (o : Order) (bits : List Bool) : M Reader Int := do
  let p ← readSliceOrd W e o bits
  if bits.length = 0 then
    pure (signed W p)
  else
    pure (signExtend W bits.length p)

/-- `DekuReader<(Endian, BitSize, Order)>` for signed types (src/impls/primitive.rs:610-634). -/
def readSignedBitsOrd (W : Nat) (e : Endian) (n : Nat) (o : Order) : M Reader Int := do
  if n > 8 * W then
    M.throw .parse
  else do
    let bits ← Reader.readBitsInto n o
    readSliceSigned W e o bits

/-- `from_reader_with_ctx` of an unsigned type, as `Prim.readUnsigned`. -/
def readUnsigned (native : Endian) (W : Nat) : IntCtx → M Reader Nat
  | .unit => Prim.readWhole W native
  | .endian e => Prim.readWhole W e
  | .bits n => if n % 8 = 0 then Prim.readUBytesOrd W native (n / 8) .msb0 else readBits W native n
  | .bytes k => Prim.readUBytesOrd W native k .msb0
  | .order o => Prim.readUBytesOrd W native W o
  | .endianOrder e o => Prim.readUBytesOrd W e W o
  | .endianBits e n => readBits W e n
  | .endianBytes e k => Prim.readUBytesOrd W e k .msb0
  | .bitsOrder n o =>
    if n % 8 = 0 then Prim.readUBytesOrd W native (n / 8) o else readBitsOrd W native n o
  | .endianBitsOrder e n o => readBitsOrd W e n o
  | .endianBytesOrder e k o => Prim.readUBytesOrd W e k o

/-- `from_reader_with_ctx` of a signed type, as `Prim.readSigned`. -/
def readSigned (native : Endian) (W : Nat) : IntCtx → M Reader Int
  | .unit => Prim.readSignedWhole W native
  | .endian e => Prim.readSignedWhole W e
  | .bits n =>
    if n % 8 = 0 then Prim.readSignedBytesOrd W native (n / 8) .msb0 else readSignedBitsOrd W native n .msb0
  | .bytes k => Prim.readSignedBytesOrd W native k .msb0
  | .order o => Prim.readSignedBytesOrd W native W o
  | .endianOrder e o => Prim.readSignedBytesOrd W e W o
  | .endianBits e n => readSignedBitsOrd W e n .msb0
  | .endianBytes e k => Prim.readSignedBytesOrd W e k .msb0
  | .bitsOrder n o =>
    if n % 8 = 0 then Prim.readSignedBytesOrd W native (n / 8) o else readSignedBitsOrd W native n o
  | .endianBitsOrder e n o => readSignedBitsOrd W e n o
  | .endianBytesOrder e k o => Prim.readSignedBytesOrd W e k o

/-- The loop over `input_bits.chunks(8)` (e.g. src/impls/primitive.rs:842-855). -/
def writeLoop (o : Order) : List Byte → Nat → M Writer Unit
  | [], _ => pure ()
  | c :: cs, remaining =>
    if 8 > remaining then
      writeBitsOrder ((byteBits c).drop (8 - remaining)) o
    else do
      writeBitsOrder (byteBits c) o
      writeLoop o cs (remaining - 8)

/-- `DekuWriter<(Endian, BitSize, Order)>` (src/impls/primitive.rs:800-953). -/
def writeBitsOrd (W : Nat) (e : Endian) (n : Nat) (o : Order) (v : Nat) : M Writer Unit := do
  let input := endianBytes W e v
  let inputBits := bytesBits input
  if n > inputBits.length then
    M.throw .invalidParam
  else
    match e, o with
    | .little, _ => do
      Prim.checkLast 1 n (lastOne (bytesBitsLsb input))
      writeLoop o input n
    | .big, .lsb0 => do
      Prim.checkFirst (8 * W - n) (firstOne inputBits)
      if n ≤ 8 then
        writeBitsOrder (inputBits.drop (inputBits.length - n)) o
      else
        writeLoop o input n
    | .big, .msb0 => do
      let w ← M.get
      if n ≤ 64 ∧ w.tag = .msb0 then
        if Prim.significant input > n then
          M.throw .invalidParam
        else
          writeBitsUintMsb0 (beNat (input.drop (input.length - 8))) n
      else do
        Prim.checkFirst (8 * W - n) (firstOne inputBits)
        writeBitsOrder (inputBits.drop (inputBits.length - n)) .msb0

/-- `DekuWriter<(Endian, BitSize, Order)> for u8` (src/impls/primitive.rs:78-133). -/
def writeU8BitsOrd (n : Nat) (o : Order) (v : Nat) : M Writer Unit := do
  let w ← M.get
  if o = .msb0 ∧ w.tag = .msb0 ∧ n ≤ 8 then
    if n < 8 ∧ v / 2 ^ n ≠ 0 then
      M.throw .invalidParam
    else
      writeBitsUintMsb0 v n
  else
    let inputBits := bytesBits (toLE 1 v)
    if n > inputBits.length then
      M.throw .invalidParam
    else do
      Prim.checkFirst (8 - n) (firstOne inputBits)
      writeBitsOrder (inputBits.drop (inputBits.length - n)) o

/-- `DekuWriter<(Endian, BitSize)>` for unsigned types other than `u8` (src/impls/primitive.rs:1006-1086). -/
def writeBits (W : Nat) (e : Endian) (n : Nat) (v : Nat) : M Writer Unit := do
  let input := endianBytes W e v
  let inputBits := bytesBits input
  if n > inputBits.length then
    M.throw .invalidParam
  else
    match e with
    | .little => do
      Prim.checkLast 1 n (lastOne (bytesBitsLsb input))
      writeLoop .msb0 input n
    | .big => do
      Prim.checkFirst (8 * W - n) (firstOne inputBits)
      writeBitsOrder (inputBits.drop (inputBits.length - n)) .msb0

/-- `DekuWriter<(Endian, BitSize)>` for signed types (src/impls/primitive.rs:1087-1199). -/
def writeSignedBits (W : Nat) (e : Endian) (n : Nat) (v : Int) : M Writer Unit := do
  let input := endianBytes W e (pattern W v)
  let inputBits := bytesBits input
  if n > inputBits.length then
    M.throw .invalidParam
  else
    match e with
    | .little => do
      Prim.checkLast 2 n
        (if 0 ≤ v then lastOne (bytesBitsLsb input) else lastZero (bytesBitsLsb input))
      writeLoop .msb0 input n
    | .big => do
      Prim.checkFirst ((8 * W - n) + 1)
        (if 0 ≤ v then firstOne inputBits else firstZero inputBits)
      writeBitsOrder (inputBits.drop (inputBits.length - n)) .msb0

/-- `DekuWriter<(Endian, ByteSize)>` and `DekuWriter<(Endian, ByteSize, Order)>` (src/impls/primitive.rs:957-1001). -/
def writeBytes (W : Nat) (e : Endian) (k : Nat) (v : Nat) : M Writer Unit := do
  let input := endianBytes W e v
  if k > W then
    M.throw .invalidParam
  else
    match e with
    | .big => writerBytes (input.drop (W - k))
    | .little => writerBytes (input.take k)

/-- `DekuWriter<Endian>` (src/impls/primitive.rs:1202-1220). -/
def writeWhole (W : Nat) (e : Endian) (v : Nat) : M Writer Unit := writerBytes (endianBytes W e v)

/-- `(Endian, BitSize, Order)`, for all unsigned types. -/
def writeUBitsOrd (W : Nat) (e : Endian) (n : Nat) (o : Order) (v : Nat) : M Writer Unit :=
  if W = 1 then writeU8BitsOrd n o v else writeBitsOrd W e n o v

/-- `(Endian, BitSize)`, for all unsigned types (src/impls/primitive.rs:63-75). -/
def writeUBits (W : Nat) (e : Endian) (n : Nat) (v : Nat) : M Writer Unit :=
  if W = 1 then writeU8BitsOrd n .msb0 v else writeBits W e n v

/-- `(Endian, ByteSize)`, for all unsigned types (for `u8` src/impls/primitive.rs:135-163). -/
def writeUBytes (W : Nat) (e : Endian) (k : Nat) (v : Nat) : M Writer Unit :=
  if W = 1 then writerBytes (toLE 1 v) else writeBytes W e k v

/-- `to_writer` of an unsigned type, as `Prim.writeUnsigned`. -/
def writeUnsigned (native : Endian) (W : Nat) : IntCtx → Nat → M Writer Unit
  | .unit => writeWhole W native
  | .endian e => writeWhole W e
  | .bits n => writeUBits W native n
  | .bytes k => writeUBytes W native k
  | .order _ => writeUBytes W native W
  | .endianOrder e _ => writeUBytes W e W
  | .endianBits e n => writeUBits W e n
  | .endianBytes e k => writeUBytes W e k
  | .bitsOrder n o => writeUBitsOrd W native n o
  | .endianBitsOrder e n o => writeUBitsOrd W e n o
  | .endianBytesOrder e k _ => writeUBytes W e k

/-- `to_writer` of a signed type, as `Prim.writeSigned`. -/
def writeSigned (native : Endian) (W : Nat) : IntCtx → Int → M Writer Unit
  | .unit => fun v => writeWhole W native (pattern W v)
  | .endian e => fun v => writeWhole W e (pattern W v)
  | .bits n => writeSignedBits W native n
  | .bytes k => fun v => writeBytes W native k (pattern W v)
  | .order _ => fun v => writeBytes W native W (pattern W v)
  | .endianOrder e _ => fun v => writeBytes W e W (pattern W v)
  | .endianBits e n => writeSignedBits W e n
  | .endianBytes e k => fun v => writeBytes W e k (pattern W v)
  | .bitsOrder n o => fun v => writeBitsOrd W native n o (pattern W v)
  | .endianBitsOrder e n o => fun v => writeBitsOrd W e n o (pattern W v)
  | .endianBytesOrder e k _ => fun v => writeBytes W e k (pattern W v)

/-! ## Collections -/

section

variable {α σ : Type}

/-- `reader.bits_read - start_read` wraps around if an element moved the reader back. -/
def bitsSince (start now : Nat) : Nat := if start ≤ now then now - start else 2 ^ 64 - (start - now)

/-- The loop of `reader_vec_with_predicate` (src/impls/vec.rs:72-83). -/
def vecLoop (read : M Reader α) (pred : Nat → α → σ → Bool × σ) (start : Nat) :
    Nat → σ → M Reader (List α)
  | 0, _ => do
    let _ ← read
    M.panic
  | mem + 1, st => do
    let v ← read
    let r ← M.get
    if (pred (bitsSince start r.bitsRead) v st).1 then
      pure [v]
    else do
      let vs ← vecLoop read pred start mem (pred (bitsSince start r.bitsRead) v st).2
      pure (v :: vs)

/-- `reader_vec_with_predicate` (src/impls/vec.rs:52-84). -/
def vecWithPredicate (mem size : Nat) (capacity : Option Nat) (read : M Reader α)
    (pred : Nat → α → σ → Bool × σ) (init : σ) : M Reader (List α) := do
  if size = 0 then
    pure []
  else do
    Coll.withCapacity mem capacity
    let r ← M.get
    vecLoop read pred r.bitsRead mem init

/-- `DekuReader<(Limit, Ctx)> for Vec<T>` (src/impls/vec.rs:112-176): `size.0 * 8` wraps around. -/
def vecRead (mem size : Nat) (read : M Reader α) : Limit α σ → M Reader (List α)
  | .count n =>
    if n = 0 then pure [] else vecWithPredicate mem size (some n) read Coll.countPred n
  | .until pred init => vecWithPredicate mem size none read (fun _ v st => pred v st) init
  | .bits n =>
    if n = 0 then pure [] else vecWithPredicate mem size none read (Coll.sizePred n) ()
  | .bytes n =>
    if n * 8 % 2 ^ 64 = 0 then pure []
    else vecWithPredicate mem size none read (Coll.sizePred (n * 8 % 2 ^ 64)) ()
  | .end => Coll.vecToEnd mem size read

end

/-- `DekuReader<ReadExact> for Vec<u8>` (src/impls/vec.rs:13-43). Behind the end of the data `end - pos` wraps around to
a large number, and then `vec![0; n]` is what fails if there is no memory for it. -/
def readExact (mem n : Nat) : M Reader (List Byte) := do
  let pos ← Coll.srcCall Src.streamPosition
  let stop ← Coll.srcCall (fun s => s.seek (.end 0))
  let _ ← Coll.srcCall (fun s => s.seek (.start pos))
  if bitsSince pos stop < n then
    M.throw (.incomplete (n * 8 % 2 ^ 64))
  else do
    M.assert (decide (pos ≤ stop) || decide (n ≤ mem))
    Reader.readBytes n .lsb0

/-- `u8::to_writer`. -/
def u8Write (native : Endian) (ctx : IntCtx) (b : Byte) : M Writer Unit := writeUnsigned native 1 ctx b.toNat

/-! ## Leaves -/

/-- As `uintCodec`. -/
def uintCodec (native : Endian) (W : Nat) (ctx : IntCtx) : Codec where
  read := do
    let n ← readUnsigned native W ctx
    pure (.num n)
  write v :=
    match v with
    | .num n => if 0 ≤ n ∧ n < 256 ^ W then writeUnsigned native W ctx n.toNat else M.panic
    | _ => M.panic

/-- As `sintCodec`. -/
def sintCodec (native : Endian) (W : Nat) (ctx : IntCtx) : Codec where
  read := do
    let n ← readSigned native W ctx
    pure (.num n)
  write v :=
    match v with
    | .num n => if -(256 ^ W) ≤ 2 * n ∧ 2 * n < 256 ^ W then writeSigned native W ctx n else M.panic
    | _ => M.panic

/-- As `boolCodec`. -/
def boolCodec (native : Endian) (ctx : IntCtx) : Codec where
  read := do
    let b ← Coll.boolRead (readUnsigned native 1 ctx)
    pure (.num (if b then 1 else 0))
  write v :=
    if v = .num 1 then Coll.boolWrite (writeUnsigned native 1 ctx) true
    else if v = .num 0 then Coll.boolWrite (writeUnsigned native 1 ctx) false
    else M.panic

/-- As `nonzeroCodec`. -/
def nonzeroCodec (native : Endian) (W : Nat) (ctx : IntCtx) : Codec where
  read := do
    let n ← Coll.nonzeroRead (readUnsigned native W ctx)
    pure (.num n)
  write v := if v = .num 0 then M.panic else (uintCodec native W ctx).write v

/-- As `nonzeroSignedCodec`. -/
def nonzeroSignedCodec (native : Endian) (W : Nat) (ctx : IntCtx) : Codec where
  read := do
    let n ← Coll.nonzeroRead (readSigned native W ctx)
    pure (.num n)
  write v := if v = .num 0 then M.panic else (sintCodec native W ctx).write v

/-- `CString` (src/impls/cstring.rs:11-67), as `cstringCodec` and `cstringSizedCodec`. -/
def cstringWrite (native : Endian) (ctx : IntCtx) (s : List Byte) : M Writer Unit :=
  Coll.writeAll (u8Write native ctx) (s ++ [0])

/-- As `cstringCodec`. -/
def cstringCodec (native : Endian) (mem : Nat) : Codec where
  read := do
    let bs ← vecRead mem 1 (Coll.u8Read native) (.until (fun b (_ : Unit) => (b == 0, ())) ())
    let s ← Coll.cstringOf bs
    pure (.ofList (s.map .ofByte))
  write v := if v.isCString then cstringWrite native .unit (v.elems.map Val.toByte) else M.panic

/-- As `cstringSizedCodec`. -/
def cstringSizedCodec (native : Endian) (mem n : Nat) : Codec where
  read := do
    let bs ← vecRead (σ := Unit) mem 1 (Coll.u8Read native) (.count n)
    let s ← Coll.cstringOf bs
    pure (.ofList (s.map .ofByte))
  write v := if v.isCString then cstringWrite native (.bytes n) (v.elems.map Val.toByte) else M.panic

/-- As `Leaf.codec`. -/
def codec (m : Machine) : Leaf → Codec
  | .uint W ctx => uintCodec m.native W ctx
  | .sint W ctx => sintCodec m.native W ctx
  | .nonzero W ctx => nonzeroCodec m.native W ctx
  | .nonzeroSigned W ctx => nonzeroSignedCodec m.native W ctx
  | .bool ctx => boolCodec m.native ctx
  | .cstring => cstringCodec m.native m.mem
  | .cstringSized n => cstringSizedCodec m.native m.mem n
  | .unit => unitCodec

/-! ## Derived code -/

/-- `emit_magic_write` (deku_write.rs:455-464, 643-649). -/
def magicWrite (native : Endian) (magic : List Byte) : M Writer Unit := Coll.writeAll (u8Write native .unit) magic

/-- `emit_padding` (deku_read.rs:604-628). -/
def padRead (order : Option Order) (pad : Option (Env → Int)) (env : Env) : M Reader Unit :=
  match pad with
  | none => pure ()
  | some f => do
    let n ← padSize (f env)
    skipBits n (order.getD .msb0)

/-- The loop `while __deku_pad > 0` (deku_write.rs:557-561, 572-576). -/
def padLoop (order : Order) : Nat → Nat → M Writer Unit
  | 0, _ => pure ()
  | fuel + 1, n =>
    if n = 0 then pure ()
    else do
      writeBitsOrder (List.replicate (min padChunk n) false) order
      padLoop order fuel (n - min padChunk n)

/-- `emit_padding` (deku_write.rs:545-580). -/
def padWrite (order : Option Order) (pad : Option (Env → Int)) (env : Env) : M Writer Unit :=
  match pad with
  | none => pure ()
  | some f => do
    let n ← padSize (f env)
    padLoop (order.getD .msb0) n n

/-- `emit_field_read` (deku_read.rs:652-1011), as `Attrs.read`. -/
def attrsRead (a : Attrs) (native : Endian) (rd : Env → M Reader Val) (env : Env) : M Reader Val := do
  seekRead a.seek env
  magicRead native a.magic
  padRead a.padOrder a.padBefore env
  let r ← M.get
  let env := env.at (if a.usesOffset then r.bitsRead else 0)
  let v ← a.value rd env
  a.check env v
  padRead a.padOrder a.padAfter (env.push v)
  pure v

/-- `emit_field_write` (deku_write.rs:604-862), as `Attrs.write`. -/
def attrsWrite (a : Attrs) (native : Endian) (wr : Env → Val → M Writer Unit) (env : Env) (v : Val) :
    M Writer Unit := do
  seekWrite a.seek env
  magicWrite native a.magic
  padWrite a.padOrder a.padBefore env
  let w ← M.get
  let env := env.at (if a.usesOffset then w.bitsWritten else 0)
  a.check env v
  a.put wr env v
  padWrite a.padOrder a.padAfter (env.push v)

mutual

/-- As `Ty.read`; the leaves are those of the `Ty`. -/
def read (m : Machine) : Ty → Env → M Reader Val
  | .prim _ c, env => (c env).read
  | .option t, env => do
    let v ← read m t env
    pure (.some v)
  | .array n t, env => do
    let vs ← Coll.arrayRead (read m t env) n
    pure (.ofList vs)
  | .pair a b, env => do
    let x ← read m a env
    let y ← read m b env
    pure (.cons x (.cons y .nil))
  | .vec size l t, env => do
    let lim ← l.eval env
    let vs ← vecRead m.mem size (read m t env) lim
    pure (.ofList vs)
  | .bytes n _, env => do
    let k ← toUsize (n env)
    let bs ← readExact m.mem k
    pure (.ofList (bs.map .ofByte))
  | .struct args seek magic fs, env => do
    let env := { ctx := args env }
    seekRead seek env
    magicRead m.native magic
    readFields m fs env
  | .enum args magic id _ vs, env => do
    let env := { ctx := args env }
    magicRead m.native magic
    match id with
    | .ctx e => dispatch (vs.select env (e env)) (readAt m vs env (e env) false)
    | .typed _ c => do
      let x ← (c env).read
      dispatch (vs.select env x) (readAt m vs env x true)

/-- As `Fields.read`. -/
def readFields (m : Machine) : Fields → Env → M Reader Val
  | .nil, _ => pure .nil
  | .cons a t rest, env => do
    let v ← attrsRead a m.native (read m t) env
    let vs ← readFields m rest (env.push v)
    pure (.cons v vs)
  | .temp a t _ rest, env => do
    let v ← attrsRead a m.native (read m t) env
    readFields m rest (env.push v)

/-- As `Fields.readStored`. -/
def readStored (m : Machine) : Fields → Env → Val → M Reader Val
  | .nil, _, _ => pure .nil
  | .cons _ _ rest, env, id => do
    let vs ← readFields m rest (env.push id)
    pure (.cons id vs)
  | .temp _ _ _ rest, env, id => readFields m rest (env.push id)

/-- As `Variants.readAt`. -/
def readAt (m : Machine) : Variants → Env → Val → Bool → Nat → M Reader Val
  | .nil, _, _, _, _ => M.panic
  | .cons a fs _, env, id, typed, 0 =>
    if a.idPat && typed then readStored m fs env id else readFields m fs env
  | .cons _ _ rest, env, id, typed, i + 1 => readAt m rest env id typed i

end

mutual

/-- As `Ty.write`. -/
def write (m : Machine) : Ty → Env → Val → M Writer Unit
  | .prim _ c, env, v => (c env).write v
  | .option t, env, v =>
    match v with
    | .none => pure ()
    | .some x => write m t env x
    | _ => M.panic
  | .array n t, env, v =>
    if v.isList ∧ v.elems.length = n then Coll.writeAll (write m t env) v.elems else M.panic
  | .pair a b, env, v =>
    match v with
    | .cons x (.cons y .nil) => do
      write m a env x
      write m b env y
    | _ => M.panic
  | .vec _ _ t, env, v => if v.isList then Coll.writeAll (write m t env) v.elems else M.panic
  | .bytes _ ctx, env, v =>
    if v.isBytes then Coll.writeAll (u8Write m.native (ctx env)) (v.elems.map Val.toByte)
    else M.panic
  | .struct args seek magic fs, env, v => do
    let env := { ctx := args env }
    seekWrite seek env
    magicWrite m.native magic
    writeFields m fs env v v
  | .enum args magic id store vs, env, v =>
    match v with
    | .variant i fs => do
      let env := { ctx := args env }
      magicWrite m.native magic
      writeAt m vs env id (store i) i fs
    | _ => M.panic

/-- As `Fields.write`. -/
def writeFields (m : Machine) : Fields → Env → Val → Val → M Writer Unit
  | .nil, _, _, v => if v = .nil then pure () else M.panic
  | .cons a t rest, env, all, v =>
    match v with
    | .cons x xs => do
      attrsWrite a m.native (write m t) env x
      writeFields m rest (env.push x) all xs
    | _ => M.panic
  | .temp a t value rest, env, all, v =>
    match value with
    | some f => do
      attrsWrite a m.native (write m t) env (f all)
      writeFields m rest (env.push (f all)) all v
    | none => do
      attrsWrite a m.native (fun _ _ => pure ()) env .none
      writeFields m rest (env.push .none) all v

/-- As `Fields.writeStored`. -/
def writeStored (m : Machine) (store : Env → Val → M Writer Unit) : Fields → Env → Val → M Writer Unit
  | .nil, _, v => if v = .nil then pure () else M.panic
  | .cons _ _ rest, env, v =>
    match v with
    | .cons x xs => do
      store env x
      writeFields m rest (env.push x) v xs
    | _ => M.panic
  | .temp _ _ _ _, _, _ => M.panic

/-- As `Variants.writeAt`. -/
def writeAt (m : Machine) : Variants → Env → IdSrc → (Env → Val → M Writer Unit) → Nat → Val → M Writer Unit
  | .nil, _, _, _, _, _ => M.panic
  | .cons a fs _, env, id, store, 0, v => do
    match id, a.id with
    | .typed _ c, some x => (c env).write x
    | _, _ => pure ()
    if a.idPat then writeStored m store fs env v else writeFields m fs env v v
  | .cons _ _ rest, env, id, store, i + 1, v => writeAt m rest env id store i v

end

/-- As `DId.toSrc`. -/
def toSrc (m : Machine) : DId → IdSrc
  | .typed size W ctx _ => .typed size fun _ => uintCodec m.native W ctx
  | .arg e => .ctx e.val

/-- As `DId.store`. -/
def store (m : Machine) : DId → Env → Val → M Writer Unit
  | .typed _ W _ ctx, _, x => (uintCodec m.native W ctx).write x
  | .arg _, _, _ => M.panic

mutual

/-- As `Def.toTy`, with the leaves of a release build. -/
def toTy (m : Machine) : Def → Ty
  | .leaf size l => .prim size fun _ => codec m l
  | .option t => .option (toTy m t)
  | .array n t => .array n (toTy m t)
  | .pair a b => .pair (toTy m a) (toTy m b)
  | .vec zst l t => .vec (if zst then 0 else 1) l.toLimit (toTy m t)
  | .bytes n ctx => .bytes n.eval fun _ => ctx
  | .struct args magic fs => .struct (fun env => args.map fun e => e.val env) none magic (toFields m fs)
  | .enum args magic id vs =>
    .enum (fun env => args.map fun e => e.val env) magic (toSrc m id) (fun _ => store m id) (toVariants m vs)

def toFields (m : Machine) : DFields → Fields
  | .nil => .nil
  | .cons a t rest => .cons a.toAttrs (toTy m t) (toFields m rest)
  | .temp a t value rest => .temp a.toAttrs (toTy m t) (some value.eval) (toFields m rest)

def toVariants (m : Machine) : DVariants → Variants
  | .nil => .nil
  | .cons a fs rest => .cons a.toVAttrs (toFields m fs) (toVariants m rest)

end

/-! ## `DekuContainerRead` and `DekuContainerWrite` -/

/-- `to_bytes` (src/lib.rs:708-715). -/
def toBytes (write : M Writer Unit) : Res (List Byte) :=
  match (do write; finalize : M Writer Unit) (Writer.new {}) with
  | (.ok _, w) => .ok w.inner.data
  | (.err e, _) => .err e
  | (.panic, _) => .panic

/-- `to_slice` (src/lib.rs:736-743). -/
def toSlice (write : M Writer Unit) (buf : List Byte) : Res Nat × List Byte :=
  match (do write; finalize : M Writer Unit) (Writer.new { data := buf, cap := some buf.length }) with
  | (.ok _, w) => (.ok (w.bitsWritten / 8), w.inner.data)
  | (.err e, w) => (.err e, w.inner.data)
  | (.panic, w) => (.panic, w.inner.data)

/-- The start of `from_reader` and `from_bytes` (deku_read.rs:118-123, 132-137). -/
def readFrom {α : Type} (read : M Reader α) (off : Nat) : M Reader α := do
  if off ≠ 0 then skipBits off .msb0
  read

/-- `from_reader` (deku_read.rs:115-126): the bits read and the value, and the stream afterwards. -/
def fromReaderOn {α : Type} (read : M Reader α) (src : Src) (off : Nat) : Res (Nat × α) × Src :=
  match readFrom read off (Reader.new src) with
  | (.ok v, r) => (.ok (r.bitsRead, v), r.inner)
  | (.err e, r) => (.err e, r.inner)
  | (.panic, r) => (.panic, r.inner)

/-- `to_writer` with a new `Writer` on a sink of the caller and `finalize`. -/
def writeTo (write : M Writer Unit) (sink : Sink) : Res Unit × Sink :=
  match (do write; finalize : M Writer Unit) (Writer.new sink) with
  | (x, w) => (x, w.inner)

/-- `from_bytes` (deku_read.rs:128-148). -/
def fromBytes {α : Type} (read : M Reader α) (data : List Byte) (off : Nat) :
    Res ((List Byte × Nat) × α) :=
  match readFrom read off (Reader.new { data := data }) with
  | (.ok v, r) =>
    if r.bitsRead / 8 ≤ data.length then
      .ok ((data.drop (r.bitsRead / 8), r.bitsRead % 8), v)
    else .err (.incomplete (8 * (r.bitsRead / 8 - data.length)))
  | (.err e, _) => .err e
  | (.panic, _) => .panic

/-- `TryFrom<&[u8]>` (deku_read.rs:1042-1071). -/
def tryFrom {α : Type} (read : M Reader α) (data : List Byte) : Res α :=
  match (fromReaderOn read { data := data } 0).1 with
  | .ok (n, v) =>
    if n / 8 < data.length then .err .parse
    else if n / 8 > data.length then .err (.incomplete (n - data.length * 8))
    else .ok v
  | .err e => .err e
  | .panic => .panic

end Rel

end Deku
