import Verif.Model.Writer

/-!
# Integers (src/impls/primitive.rs)

`W` is the size of the type in bytes (1, 2, 4, 8, 16; `usize` is 8). An unsigned integer is a natural
number below `256 ^ W`, a float is its bit pattern, a signed integer is an `Int` in the range of the
type. `inner` of the macros is the type itself or, for floats and signed integers, the unsigned type
of the same size.
-/

namespace Deku

/-- `BitSlice::first_one`. -/
def firstOne (l : List Bool) : Option Nat := l.findIdx? id

/-- `BitSlice::first_zero`. -/
def firstZero (l : List Bool) : Option Nat := l.findIdx? (!·)

/-- `BitSlice::last_one`. -/
def lastOne (l : List Bool) : Option Nat := (l.reverse.findIdx? id).map (fun i => l.length - 1 - i)

/-- `BitSlice::last_zero`. -/
def lastZero (l : List Bool) : Option Nat := (l.reverse.findIdx? (!·)).map (fun i => l.length - 1 - i)

/-- `to_le_bytes` or `to_be_bytes`, selected by endianness. -/
def endianBytes (W : Nat) : Endian → Nat → List Byte
  | .little, v => toLE W v
  | .big, v => toBE W v

/-- `from_le_bytes` or `from_be_bytes`, selected by endianness. -/
def endianNat : Endian → List Byte → Nat
  | .little, bs => leNat bs
  | .big, bs => beNat bs

/-- The two's complement bit pattern of a signed value (`as` unsigned). -/
def pattern (W : Nat) (v : Int) : Nat := (v % (256 ^ W : Nat)).toNat

/-- The signed value of a bit pattern (`as` signed). -/
def signed (W : Nat) (p : Nat) : Int :=
  if 2 * p < 256 ^ W then p else (p : Int) - (256 ^ W : Nat)

/-- `(value as $typ) << shift >> shift` with `shift = MAX_TYPE_BITS - bit_size`: an arithmetic shift
right after a shift left that drops the high bits. -/
def signExtend (W n : Nat) (p : Nat) : Int :=
  signed W (p * 2 ^ (8 * W - n) % 256 ^ W) / (2 ^ (8 * W - n) : Nat)

namespace Prim

/-! ## Reading -/

/-- `BoundedBitVec::insert(index, false)` repeated `k` times (src/lib.rs:979-986) on a vector of
capacity `cap`: each insertion asserts `size < cap` and `index < size`. -/
def insertZeros (cap index : Nat) : Nat → List Bool → M Reader (List Bool)
  | 0, l => pure l
  | k + 1, l => do
    M.assert (decide (l.length < cap))
    M.assert (decide (index < l.length))
    insertZeros cap index k (l.take index ++ false :: l.drop index)

/-- `DekuRead<(Endian, BitSize, Order)>::read` of the `ImplDekuReadBits` macro
(src/impls/primitive.rs:168-298). `bits` is the input slice, whose length is `bit_size`. -/
def readSliceOrd (W : Nat) (e : Endian) (o : Order) (bits : List Bool) : M Reader Nat := do
  let len := bits.length
  let pad := 8 * ((len + 7) / 8) - len
  M.assert (decide (len + pad ≤ 8 * W))
  if pad = 0 ∧ len = 8 * W ∧ o ≠ .lsb0 then
    -- everything is aligned, just read the value
    pure (endianNat e (Reader.packBytes W bits))
  else if e = .big ∧ o = .msb0 ∧ 0 < len then
    -- `load_be::<$inner>()`
    pure (ofBits bits)
  else
    match o with
    | .lsb0 => do
      let padded ← insertZeros (8 * W) 0 pad bits
      let skip := match e with
        | .little => 0
        | .big => W - (len + 7) / 8
      let slots := (rchunks8 (padded.length / 8) padded).map byteOf
      -- `zip(buf.iter_mut().skip(skip))`: slots beyond the buffer are not stored
      let buf := (List.replicate skip 0 ++ slots ++ List.replicate W 0).take W
      pure (endianNat e buf)
    | .msb0 => do
      -- `bits.len() - (8 - pad)` underflows for an empty slice
      let index ← match e with
        | .little => if len < 8 - pad then M.panic else pure (len - (8 - pad))
        | .big => pure 0
      let padded ← insertZeros (8 * W) index pad bits
      let full ← match e with
        | .little => pure (padded ++ List.replicate (8 * W - padded.length) false)
        | .big => insertZeros (8 * W) 0 (8 * W - padded.length) padded
      pure (endianNat e (Reader.packBytes W full))

/-- `DekuRead<(Endian, BitSize)>::read` of the `ImplDekuReadBits` macro
(src/impls/primitive.rs:301-381). -/
def readSlice (W : Nat) (e : Endian) (bits : List Bool) : M Reader Nat := do
  let len := bits.length
  let pad := 8 * ((len + 7) / 8) - len
  if pad = 0 ∧ len = 8 * W then
    pure (endianNat e (Reader.packBytes W bits))
  else if e = .big ∧ 0 < len then
    pure (ofBits bits)
  else do
    let index ← match e with
      | .little => if len < 8 - pad then M.panic else pure (len - (8 - pad))
      | .big => pure 0
    let padded ← insertZeros (8 * W) index pad bits
    let full ← match e with
      | .little => pure (padded ++ List.replicate (8 * W - padded.length) false)
      | .big => insertZeros (8 * W) 0 (8 * W - padded.length) padded
    pure (endianNat e (Reader.packBytes W full))

/-- `DekuReader<(Endian, BitSize)>` for unsigned types (src/impls/primitive.rs:384-412). -/
def readBits (W : Nat) (e : Endian) (n : Nat) : M Reader Nat := do
  if n > 8 * W then
    M.throw .parse
  else if e = .big ∧ 0 < n ∧ n ≤ 64 then do
    let v ← Reader.readBitsUintMsb0 n
    pure (v % 256 ^ W)
  else do
    let bits ← Reader.readBitsInto n .msb0
    readSlice W e bits

/-- `DekuReader<(Endian, BitSize, Order)>` for unsigned types (src/impls/primitive.rs:415-444). -/
def readBitsOrd (W : Nat) (e : Endian) (n : Nat) (o : Order) : M Reader Nat := do
  if n > 8 * W then
    M.throw .parse
  else if e = .big ∧ o = .msb0 ∧ 0 < n ∧ n ≤ 64 then do
    let v ← Reader.readBitsUintMsb0 n
    pure (v % 256 ^ W)
  else do
    let bits ← Reader.readBitsInto n o
    readSliceOrd W e o bits

/-- The value of a buffer of `W` bytes whose first `k` bytes were read
(src/impls/primitive.rs:497-508, 655-666): little endian as is, big endian moved to the end. -/
def bufNat (W : Nat) (e : Endian) (bs : List Byte) : Nat :=
  match e with
  | .little => leNat (bs ++ List.replicate (W - bs.length) 0)
  | .big => beNat (List.replicate (W - bs.length) 0 ++ bs)

/-- `DekuReader<(Endian, ByteSize, Order)>` for unsigned types other than `u8`
(src/impls/primitive.rs:478-521). `read_bytes` always answers `ReaderRet::Bytes`, so the branches for
`ReaderRet::Bits` are dead code. -/
def readBytesOrd (W : Nat) (e : Endian) (k : Nat) (o : Order) : M Reader Nat := do
  if k > W then
    M.throw .parse
  else do
    let bs ← Reader.readBytes k o
    pure (bufNat W e bs)

/-- `DekuReader<(Endian, ByteSize, Order)> for u8` (src/impls/primitive.rs:49-61): the size is
ignored. -/
def readU8Bytes (o : Order) : M Reader Nat := do
  let bs ← Reader.readBytesConstInto 1 o
  pure (beNat bs)

/-- `DekuReader<Endian>` (src/impls/primitive.rs:708-724): the bytes of the whole type, Msb0. -/
def readWhole (W : Nat) (e : Endian) : M Reader Nat := do
  let bs ← Reader.readBytesConstInto W .msb0
  pure (endianNat e bs)

/-- `DekuRead<(Endian, BitSize, Order)>::read` for signed types (src/impls/primitive.rs:541-559).
The shift amount `MAX_TYPE_BITS - 0` overflows for an empty slice. -/
def readSliceSigned (W : Nat) (e : Endian) (o : Order) (bits : List Bool) : M Reader Int := do
  let p ← readSliceOrd W e o bits
  if bits.length = 0 then
    M.panic
  else
    pure (signExtend W bits.length p)

/-- `DekuReader<(Endian, BitSize, Order)>` for signed types (src/impls/primitive.rs:610-634). -/
def readSignedBitsOrd (W : Nat) (e : Endian) (n : Nat) (o : Order) : M Reader Int := do
  if n > 8 * W then
    M.throw .parse
  else do
    let bits ← Reader.readBitsInto n o
    readSliceSigned W e o bits

/-- `DekuReader<(Endian, BitSize)>` for signed types (src/impls/primitive.rs:599-607). -/
def readSignedBits (W : Nat) (e : Endian) (n : Nat) : M Reader Int := readSignedBitsOrd W e n .msb0

/-- `DekuReader<(Endian, ByteSize, Order)>` for signed types (src/impls/primitive.rs:636-680): no
sign extension. -/
def readSignedBytesOrd (W : Nat) (e : Endian) (k : Nat) (o : Order) : M Reader Int := do
  if k > W then
    M.throw .parse
  else do
    let bs ← Reader.readBytes k o
    pure (signed W (bufNat W e bs))

/-- `DekuReader<Endian>` for signed types (src/impls/primitive.rs:708-724). -/
def readSignedWhole (W : Nat) (e : Endian) : M Reader Int := do
  let bs ← Reader.readBytesConstInto W .msb0
  pure (signed W (endianNat e bs))

/-! ## Writing -/

/-- The loop over `input_bits.chunks(8)` with `remaining_bits` (e.g. src/impls/primitive.rs:842-855):
whole chunks are written while they fit, the next one contributes its last `remaining` bits (possibly
none) and ends the loop. -/
def writeLoop (o : Order) : List Byte → Nat → M Writer Unit
  | [], _ => pure ()
  | c :: cs, remaining =>
    if 8 > remaining then
      Writer.writeBitsOrder ((byteBits c).drop (8 - remaining)) o
    else do
      Writer.writeBitsOrder (byteBits c) o
      writeLoop o cs (remaining - 8)

/-- Number of significant bits of a big endian byte string
(src/impls/primitive.rs:907-912). -/
def significant (bs : List Byte) : Nat :=
  match bs.findIdx? (· ≠ 0) with
  | some i => (bs.length - i) * 8 - ((byteBits (bs.getD i 0)).takeWhile (!·)).length
  | none => 0

/-- `if let Some(first) = .. { if max > first { return Err(InvalidParam) } }`
(e.g. src/impls/primitive.rs:860-871). -/
def checkFirst (max : Nat) : Option Nat → M Writer Unit
  | some first => if max > first then M.throw .invalidParam else pure ()
  | none => pure ()

/-- `if let Some(last) = .. { let last = last + extra; if last > max { return Err(InvalidParam) } }`
(e.g. src/impls/primitive.rs:828-840). -/
def checkLast (extra max : Nat) : Option Nat → M Writer Unit
  | some last => if last + extra > max then M.throw .invalidParam else pure ()
  | none => pure ()

/-- `DekuWriter<(Endian, BitSize, Order)>` of `ImplDekuWrite` (src/impls/primitive.rs:800-953), used
for all types but `u8`; `v` is the bit pattern. -/
def writeBitsOrd (W : Nat) (e : Endian) (n : Nat) (o : Order) (v : Nat) : M Writer Unit := do
  let input := endianBytes W e v
  let inputBits := bytesBits input
  if n > inputBits.length then
    M.throw .invalidParam
  else
    match e, o with
    | .little, _ => do
      checkLast 1 n (lastOne (bytesBitsLsb input))
      writeLoop o input n
    | .big, .lsb0 => do
      checkFirst (8 * W - n) (firstOne inputBits)
      if n ≤ 8 then
        Writer.writeBitsOrder (inputBits.drop (inputBits.length - n)) o
      else
        writeLoop o input n
    | .big, .msb0 => do
      let w ← M.get
      if n ≤ 64 ∧ w.tag = .msb0 then
        if significant input > n then
          M.throw .invalidParam
        else
          Writer.writeBitsUintMsb0 (beNat (input.drop (input.length - 8))) n
      else do
        checkFirst (8 * W - n) (firstOne inputBits)
        Writer.writeBitsOrder (inputBits.drop (inputBits.length - n)) .msb0

/-- `DekuWriter<(Endian, BitSize, Order)> for u8` (src/impls/primitive.rs:78-133). -/
def writeU8BitsOrd (n : Nat) (o : Order) (v : Nat) : M Writer Unit := do
  let w ← M.get
  if o = .msb0 ∧ w.tag = .msb0 ∧ n ≤ 8 then
    if n < 8 ∧ v / 2 ^ n ≠ 0 then
      M.throw .invalidParam
    else
      Writer.writeBitsUintMsb0 v n
  else
    let inputBits := bytesBits (toLE 1 v)
    if n > inputBits.length then
      M.throw .invalidParam
    else do
      checkFirst (8 - n) (firstOne inputBits)
      Writer.writeBitsOrder (inputBits.drop (inputBits.length - n)) o

/-- `DekuWriter<(Endian, BitSize)>` for unsigned types other than `u8`
(src/impls/primitive.rs:1006-1086). -/
def writeBits (W : Nat) (e : Endian) (n : Nat) (v : Nat) : M Writer Unit := do
  let input := endianBytes W e v
  let inputBits := bytesBits input
  if n > inputBits.length then
    M.throw .invalidParam
  else
    match e with
    | .little => do
      checkLast 1 n (lastOne (bytesBitsLsb input))
      writeLoop .msb0 input n
    | .big => do
      checkFirst (8 * W - n) (firstOne inputBits)
      Writer.writeBits (inputBits.drop (inputBits.length - n))

/-- `DekuWriter<(Endian, BitSize)>` for signed types (src/impls/primitive.rs:1087-1199). -/
def writeSignedBits (W : Nat) (e : Endian) (n : Nat) (v : Int) : M Writer Unit := do
  let input := endianBytes W e (pattern W v)
  let inputBits := bytesBits input
  if n > inputBits.length then
    M.throw .invalidParam
  else
    match e with
    | .little => do
      checkLast 2 n
        (if 0 ≤ v then lastOne (bytesBitsLsb input) else lastZero (bytesBitsLsb input))
      writeLoop .msb0 input n
    | .big => do
      checkFirst ((8 * W - n) + 1)
        (if 0 ≤ v then firstOne inputBits else firstZero inputBits)
      Writer.writeBits (inputBits.drop (inputBits.length - n))

/-- `DekuWriter<(Endian, ByteSize)>` and `DekuWriter<(Endian, ByteSize, Order)>` of `ImplDekuWrite`
(src/impls/primitive.rs:957-1001); `v` is the bit pattern. -/
def writeBytes (W : Nat) (e : Endian) (k : Nat) (v : Nat) : M Writer Unit := do
  let input := endianBytes W e v
  if k > W then
    M.throw .invalidParam
  else
    match e with
    | .big => Writer.writeBytes (input.drop (W - k))
    | .little => Writer.writeBytes (input.take k)

/-- `DekuWriter<(Endian, ByteSize)>` and `DekuWriter<(Endian, ByteSize, Order)> for u8`
(src/impls/primitive.rs:135-163): the size is ignored. -/
def writeU8Bytes (v : Nat) : M Writer Unit := Writer.writeBytes (toLE 1 v)

/-- `DekuWriter<Endian>` (src/impls/primitive.rs:1202-1220). -/
def writeWhole (W : Nat) (e : Endian) (v : Nat) : M Writer Unit :=
  Writer.writeBytes (endianBytes W e v)

end Prim

/-! ## The context arguments -/

/-- The context types integers implement the traits for (`ForwardDekuRead`, `ForwardDekuWrite`,
src/impls/primitive.rs:683-795, 1222-1293). -/
inductive IntCtx
  | unit
  | endian (e : Endian)
  | bits (n : Nat)
  | bytes (k : Nat)
  | order (o : Order)
  | endianOrder (e : Endian) (o : Order)
  | endianBits (e : Endian) (n : Nat)
  | endianBytes (e : Endian) (k : Nat)
  | bitsOrder (n : Nat) (o : Order)
  | endianBitsOrder (e : Endian) (n : Nat) (o : Order)
  | endianBytesOrder (e : Endian) (k : Nat) (o : Order)
  deriving DecidableEq, Repr

namespace Prim

/-- `(Endian, ByteSize, Order)`, for all unsigned types. -/
def readUBytesOrd (W : Nat) (e : Endian) (k : Nat) (o : Order) : M Reader Nat :=
  if W = 1 then readU8Bytes o else readBytesOrd W e k o

/-- `from_reader_with_ctx` of an unsigned type (or float). `native` is `Endian::default()`, the
endianness of the target. -/
def readUnsigned (native : Endian) (W : Nat) : IntCtx → M Reader Nat
  | .unit => readWhole W native
  | .endian e => readWhole W e
  | .bits n => if n % 8 = 0 then readUBytesOrd W native (n / 8) .msb0 else readBits W native n
  | .bytes k => readUBytesOrd W native k .msb0
  | .order o => readUBytesOrd W native W o
  | .endianOrder e o => readUBytesOrd W e W o
  | .endianBits e n => readBits W e n
  | .endianBytes e k => readUBytesOrd W e k .msb0
  | .bitsOrder n o =>
    if n % 8 = 0 then readUBytesOrd W native (n / 8) o else readBitsOrd W native n o
  | .endianBitsOrder e n o => readBitsOrd W e n o
  | .endianBytesOrder e k o => readUBytesOrd W e k o

/-- `from_reader_with_ctx` of a signed type. -/
def readSigned (native : Endian) (W : Nat) : IntCtx → M Reader Int
  | .unit => readSignedWhole W native
  | .endian e => readSignedWhole W e
  | .bits n =>
    if n % 8 = 0 then readSignedBytesOrd W native (n / 8) .msb0 else readSignedBits W native n
  | .bytes k => readSignedBytesOrd W native k .msb0
  | .order o => readSignedBytesOrd W native W o
  | .endianOrder e o => readSignedBytesOrd W e W o
  | .endianBits e n => readSignedBits W e n
  | .endianBytes e k => readSignedBytesOrd W e k .msb0
  | .bitsOrder n o =>
    if n % 8 = 0 then readSignedBytesOrd W native (n / 8) o else readSignedBitsOrd W native n o
  | .endianBitsOrder e n o => readSignedBitsOrd W e n o
  | .endianBytesOrder e k o => readSignedBytesOrd W e k o

/-- `(Endian, BitSize, Order)`, for all unsigned types. -/
def writeUBitsOrd (W : Nat) (e : Endian) (n : Nat) (o : Order) (v : Nat) : M Writer Unit :=
  if W = 1 then writeU8BitsOrd n o v else writeBitsOrd W e n o v

/-- `(Endian, BitSize)`, for all unsigned types; `u8` forwards with `Order::default()`
(src/impls/primitive.rs:63-75). -/
def writeUBits (W : Nat) (e : Endian) (n : Nat) (v : Nat) : M Writer Unit :=
  if W = 1 then writeU8BitsOrd n .msb0 v else writeBits W e n v

/-- `(Endian, ByteSize)`, for all unsigned types. -/
def writeUBytes (W : Nat) (e : Endian) (k : Nat) (v : Nat) : M Writer Unit :=
  if W = 1 then writeU8Bytes v else writeBytes W e k v

/-- `to_writer` of an unsigned type (or float). -/
def writeUnsigned (native : Endian) (W : Nat) : IntCtx → Nat → M Writer Unit
  | .unit => writeWhole W native
  | .endian e => writeWhole W e
  | .bits n => writeUBits W native n
  | .bytes k => writeUBytes W native k
  | .order _ => writeUBytes W native W
  | .endianOrder e _ => writeUBytes W e W
  | .endianBits e n => writeUBits W e n
  | .endianBytes e k => writeUBytes W e k
  | .bitsOrder n o => writeUBitsOrd W native n o
  | .endianBitsOrder e n o => writeUBitsOrd W e n o
  | .endianBytesOrder e k _ => writeUBytes W e k

/-- `to_writer` of a signed type. -/
def writeSigned (native : Endian) (W : Nat) : IntCtx → Int → M Writer Unit
  | .unit => fun v => writeWhole W native (pattern W v)
  | .endian e => fun v => writeWhole W e (pattern W v)
  | .bits n => writeSignedBits W native n
  | .bytes k => fun v => writeBytes W native k (pattern W v)
  | .order _ => fun v => writeBytes W native W (pattern W v)
  | .endianOrder e _ => fun v => writeBytes W e W (pattern W v)
  | .endianBits e n => writeSignedBits W e n
  | .endianBytes e k => fun v => writeBytes W e k (pattern W v)
  | .bitsOrder n o => fun v => writeBitsOrd W native n o (pattern W v)
  | .endianBitsOrder e n o => fun v => writeBitsOrd W e n o (pattern W v)
  | .endianBytesOrder e k _ => fun v => writeBytes W e k (pattern W v)

end Prim

end Deku
