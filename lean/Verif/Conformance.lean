import Verif.Model.Derive
import Verif.Model.Toplevel
import Verif.Model.NoSeek

/-!
# The repository's own tests, replayed on the model

These are tests of the transcription, not proofs of properties: each `example` evaluates the model on
the input of a unit test of /repo and compares with what that test expects. A difference means that
the model does not describe the code. No property refers to this file.
-/

namespace Deku.Conformance

open Deku

def mach : Machine := ⟨.little, 4000⟩

/-- An unsigned integer field. -/
def u (W : Nat) (ctx : IntCtx := .unit) : Ty := .prim (some (8 * W)) fun _ => uintCodec .little W ctx

def fields : List Ty → Fields
  | [] => .nil
  | t :: ts => .cons {} t (fields ts)

def struct (ts : List Ty) : Ty := .struct (fun _ => []) none [] (fields ts)

def structOf (fs : Fields) : Ty := .struct (fun _ => []) none [] fs

def nums (l : List Int) : Val := .ofList (l.map .num)

def read (t : Ty) (data : List Byte) : Res Val := tryFrom (t.read mach {}) data

def write (t : Ty) (v : Val) : Res (List Byte) := toBytes (t.write mach {} v)

def parse (t : Ty) (data : List Byte) (off : Nat := 0) : Res ((List Byte × Nat) × Val) :=
  fromBytes (t.read mach {}) data off

/-- Field number `i`, the last one being number 0. -/
def var (i : Nat) (env : Env) : Int :=
  match env.vars[i]? with
  | some (.num n) => n
  | _ => 0

/-! ## src/reader.rs -/

def bits (l : List Nat) : List Bool := l.map (· ≠ 0)

/-- Several `read_bits`, one after the other. -/
def readSeq : List (Nat × Order) → M Reader (List (List Bool))
  | [] => pure []
  | (n, o) :: l => do
    let b ← Reader.readBits n o
    let bs ← readSeq l
    pure (b :: bs)

def runSeq (data : List Byte) (l : List (Nat × Order)) : Res (List (List Bool)) :=
  (readSeq l (Reader.new { data := data })).1

-- test_bit_order (src/reader.rs)
example : runSeq [0xab] [(4, .lsb0), (4, .lsb0)] = .ok [bits [1, 0, 1, 1], bits [1, 0, 1, 0]] := by
  decide +kernel
example : runSeq [0xab] [(4, .msb0), (4, .msb0)] = .ok [bits [1, 0, 1, 0], bits [1, 0, 1, 1]] := by
  decide +kernel
example : runSeq [0xab, 0xcd] [(4, .lsb0), (4, .lsb0), (4, .lsb0), (4, .lsb0)] =
    .ok [bits [1, 0, 1, 1], bits [1, 0, 1, 0], bits [1, 1, 0, 1], bits [1, 1, 0, 0]] := by
  decide +kernel
example : runSeq [0xab, 0xcd] [(4, .msb0), (4, .msb0), (4, .msb0), (4, .msb0)] =
    .ok [bits [1, 0, 1, 0], bits [1, 0, 1, 1], bits [1, 1, 0, 0], bits [1, 1, 0, 1]] := by
  decide +kernel
example : runSeq [0xab, 0xcd] [(4, .lsb0), (4, .lsb0), (4, .msb0), (4, .msb0)] =
    .ok [bits [1, 0, 1, 1], bits [1, 0, 1, 0], bits [1, 1, 0, 0], bits [1, 1, 0, 1]] := by
  decide +kernel
example : runSeq [0xab, 0xcd] [(4, .msb0), (4, .msb0), (4, .lsb0), (4, .lsb0)] =
    .ok [bits [1, 0, 1, 0], bits [1, 0, 1, 1], bits [1, 1, 0, 1], bits [1, 1, 0, 0]] := by
  decide +kernel
example : runSeq [0xab] [(1, .msb0), (3, .msb0), (4, .msb0)] =
    .ok [bits [1], bits [0, 1, 0], bits [1, 0, 1, 1]] := by decide +kernel
example : runSeq [0xab] [(1, .lsb0), (3, .msb0), (4, .msb0)] =
    .ok [bits [1], bits [1, 0, 1], bits [0, 1, 0, 1]] := by decide +kernel

-- test_regression_msb0, test_regression_lsb0 (src/reader.rs)
example : (Reader.readBits 17 .msb0
    { inner := { data := [0x64, 0x20] }, leftover := some (.bits (bits [1, 0])) }).1 =
    .ok (bits [1, 0, 0, 1, 1, 0, 0, 1, 0, 0, 0, 0, 1, 0, 0, 0, 0]) := by decide +kernel
example : (Reader.readBits 17 .lsb0
    { inner := { data := [0x64, 0x20] }, leftover := some (.bits (bits [1, 0])) }).1 =
    .ok (bits [0, 1, 0, 0, 0, 0, 0, 0, 1, 1, 0, 0, 1, 0, 0, 1, 0]) := by decide +kernel

/-- What `end` says, the bits read and the rest after some reads. -/
def state (data : List Byte) (read : M Reader Unit) : Res Bool × Nat :=
  match (do read; Reader.end : M Reader Bool) (Reader.new { data := data }) with
  | (b, r) => (b, r.bitsRead)

-- test_end (src/reader.rs)
example : state [0xaa, 0xbb] (pure ()) = (.ok false, 0) := by decide +kernel
example : state [0xaa, 0xbb] (do let _ ← Reader.readBytesConst 2 .lsb0; pure ()) = (.ok true, 16) := by
  decide +kernel
example : state [0xaa] (do let _ ← Reader.readBits 4 .lsb0; pure ()) = (.ok false, 4) := by
  decide +kernel
example : state [0xaa] (do let _ ← Reader.readBits 4 .lsb0; let _ ← Reader.readBits 4 .lsb0; pure ()) =
    (.ok true, 8) := by decide +kernel
example : state [0xaa] (do let _ ← Reader.readBytes 1 .lsb0; pure ()) = (.ok true, 8) := by
  decide +kernel

-- test_long_unaligned_bytes_read (src/reader.rs), shortened
example : ((do let _ ← Reader.readBits 1 .lsb0; Reader.readBytes 20 .lsb0 : M Reader (List Byte))
    (Reader.new { data := List.replicate 22 0xff })).1 = .ok (List.replicate 20 0xff) := by
  decide +kernel

/-! ## src/writer.rs -/

def writeSeq : List (List Bool × Order) → M Writer Unit
  | [] => pure ()
  | (b, o) :: l => do
    Writer.writeBitsOrder b o
    writeSeq l

def writeAll (l : List (List Nat × Order)) : Res (List Byte) :=
  toBytes (writeSeq (l.map fun x => (bits x.1, x.2)))

-- test_writer_bits (src/writer.rs)
example : toBytes (do
    Writer.writeBytes [0xaa]
    Writer.writeBits (byteBits 0xbb)
    Writer.writeBits (bits [1, 1, 1, 1])
    Writer.writeBits (bits [0, 0, 0, 1])
    Writer.writeBytes [0xaa]
    Writer.writeBits (bits [0, 0, 0, 1])
    Writer.writeBits (bits [1, 1, 1, 1])
    Writer.writeBits (bits [0, 0, 0, 1])
    Writer.writeBytes [0xaa]
    Writer.writeBits (bits [1, 1, 1, 1])) = .ok [0xaa, 0xbb, 0xf1, 0xaa, 0x1f, 0x1a, 0xaf] := by
  decide +kernel

-- test_bit_order (src/writer.rs)
example : writeAll [([1, 0, 1, 0], .msb0), ([0, 1, 0, 1], .msb0)] = .ok [0b10100101] := by
  decide +kernel
example : writeAll [([1, 0, 1, 0], .lsb0), ([0, 1, 0, 1], .lsb0)] = .ok [0b01011010] := by
  decide +kernel
example : writeAll [([1, 0, 1, 0], .msb0), ([0, 1, 0, 1], .lsb0)] = .ok [0b10100101] := by
  decide +kernel
example : writeAll [([1, 0, 1, 0, 1, 0], .msb0), ([0, 1, 0, 1, 0, 1], .msb0)] =
    .ok [0b10101001, 0b01010000] := by decide +kernel
example : writeAll [([1, 0, 1, 0, 1, 0], .lsb0), ([0, 1, 0, 1, 0, 1], .lsb0)] =
    .ok [0b01101010, 0b00000101] := by decide +kernel
example : writeAll [([1, 0, 1, 0, 1, 0], .lsb0), ([0, 1, 0, 1, 0, 1], .msb0)] =
    .ok [0b01010110, 0b10100000] := by decide +kernel
example : writeAll [([1, 0, 1, 0, 1, 0], .msb0), ([0, 1, 0, 1, 0, 1], .lsb0)] =
    .ok [0b10010101, 0b00001010] := by decide +kernel

/-! ## src/impls/primitive.rs -/

def readU (W : Nat) (ctx : IntCtx) (data : List Byte) : Res Nat × List Bool × List Byte :=
  match Prim.readUnsigned .little W ctx (Reader.new { data := data }) with
  | (v, r) => (v, r.rest, r.inner.data.drop r.inner.pos)

def readI (W : Nat) (ctx : IntCtx) (data : List Byte) : Res Int :=
  (Prim.readSigned .little W ctx (Reader.new { data := data })).1

def writeU (W : Nat) (ctx : IntCtx) (v : Nat) : Res Unit × List Bool × List Byte :=
  match Prim.writeUnsigned .little W ctx v (Writer.new {}) with
  | (v, w) => (v, w.rest, w.inner.data)

def writeI (W : Nat) (ctx : IntCtx) (v : Int) : Res Unit × List Byte :=
  match Prim.writeSigned .little W ctx v (Writer.new {}) with
  | (v, w) => (v, w.inner.data)

-- TestPrimitive (src/impls/primitive.rs)
example : readU 1 (.endian .little) [0xaa] = (.ok 0xaa, [], []) := by decide +kernel
example : writeU 1 (.endian .little) 0xaa = (.ok (), [], [0xaa]) := by decide +kernel
example : readU 2 (.endian .little) [0xab, 0xcd] = (.ok 0xcdab, [], []) := by decide +kernel
example : writeU 2 (.endian .little) 0xcdab = (.ok (), [], [0xab, 0xcd]) := by decide +kernel
example : readU 4 (.endian .little) [0xab, 0xcd, 0xef, 0xbe] = (.ok 0xbeefcdab, [], []) := by
  decide +kernel
example : writeU 4 (.endian .little) 0xbeefcdab = (.ok (), [], [0xab, 0xcd, 0xef, 0xbe]) := by
  decide +kernel
example : readU 8 (.endian .little) [0xab, 0xcd, 0xef, 0xbe, 0xab, 0xcd, 0xfe, 0xc0] =
    (.ok 0xc0fecdabbeefcdab, [], []) := by decide +kernel
example : readU 16 (.endian .little) [0xab, 0xcd, 0xef, 0xbe, 0xab, 0xcd, 0xfe, 0xc0, 0xab, 0xcd, 0xef,
    0xbe, 0xab, 0xcd, 0xfe, 0xc0] = (.ok 0xc0fecdabbeefcdabc0fecdabbeefcdab, [], []) := by
  decide +kernel
example : readI 1 (.endian .little) [0xfb] = .ok (-5) := by decide +kernel
example : writeI 1 (.endian .little) (-5) = (.ok (), [0xfb]) := by decide +kernel
example : readI 2 (.endian .little) [0xfd, 0xfe] = .ok (-259) := by decide +kernel
example : writeI 2 (.endian .little) (-259) = (.ok (), [0xfd, 0xfe]) := by decide +kernel
example : readI 4 (.endian .little) [0x02, 0x3f, 0x01, 0xef] = .ok (-0x10fec0fe) := by decide +kernel
example : writeI 4 (.endian .little) (-0x10fec0fe) = (.ok (), [0x02, 0x3f, 0x01, 0xef]) := by
  decide +kernel
example : readI 8 (.endian .little) [0x02, 0x3f, 0x01, 0xef, 0x01, 0x3f, 0x01, 0xef] =
    .ok (-0x10fec0fe10fec0fe) := by decide +kernel

-- test_bit_read (src/impls/primitive.rs)
example : readU 4 (.endianBits .little 32) [0xdd, 0xcc, 0xbb, 0xaa] = (.ok 0xaabbccdd, [], []) := by
  decide +kernel
example : readU 4 (.endianBits .big 32) [0xdd, 0xcc, 0xbb, 0xaa] = (.ok 0xddccbbaa, [], []) := by
  decide +kernel
example : readU 4 (.endianBits .little 12) [0b10010110, 0b11100000, 0xcc, 0xdd] =
    (.ok 0b111010010110, bits [0, 0, 0, 0], [0xcc, 0xdd]) := by decide +kernel
example : readU 4 (.endianBits .big 12) [0b10010110, 0b11100000, 0xcc, 0xdd] =
    (.ok 0b100101101110, bits [0, 0, 0, 0], [0xcc, 0xdd]) := by decide +kernel
example : readU 4 (.endianBits .little 6) [0b10010110] = (.ok 0b100101, bits [1, 0], []) := by
  decide +kernel
example : (readU 4 (.endianBits .little 32) []).1 = .err (.incomplete 32) := by decide +kernel
example : (readU 4 (.endianBits .little 32) [0xaa, 0xbb]).1 = .err (.incomplete 32) := by
  decide +kernel
example : (readU 4 (.endianBits .little 64) [0xaa, 0xbb, 0xcc, 0xdd, 0xaa, 0xbb, 0xcc, 0xdd]).1 =
    .err .parse := by decide +kernel
example : (readU 4 (.endianBits .little 63) [0xaa, 0xbb, 0xcc, 0xdd, 0xaa, 0xbb, 0xcc, 0xdd]).1 =
    .err .parse := by decide +kernel

-- test_byte_read (src/impls/primitive.rs)
example : readU 4 (.endianBytes .big 4) [0xdd, 0xcc, 0xbb, 0xaa] = (.ok 0xddccbbaa, [], []) := by
  decide +kernel
example : readU 4 (.endianBytes .little 4) [0xdd, 0xcc, 0xbb, 0xaa] = (.ok 0xaabbccdd, [], []) := by
  decide +kernel
example : readU 4 (.endianBytes .big 3) [0xdd, 0xcc, 0xbb, 0xaa] = (.ok 0xddccbb, [], [0xaa]) := by
  decide +kernel
example : readU 4 (.endianBytes .little 3) [0xdd, 0xcc, 0xbb, 0xaa] = (.ok 0xbbccdd, [], [0xaa]) := by
  decide +kernel
example : (readU 4 (.endianBytes .little 4) []).1 = .err (.incomplete 32) := by decide +kernel
example : (readU 4 (.endianBytes .little 4) [0xaa, 0xbb]).1 = .err (.incomplete 32) := by
  decide +kernel
example : (readU 4 (.endianBytes .little 8) [0xaa, 0xbb, 0xcc, 0xdd, 0xaa, 0xbb, 0xcc, 0xdd]).1 =
    .err .parse := by decide +kernel

-- test_bit_writer, test_byte_writer (src/impls/primitive.rs)
example : writeU 4 (.endian .little) 0xddccbbaa = (.ok (), [], [0xaa, 0xbb, 0xcc, 0xdd]) := by
  decide +kernel
example : writeU 4 (.endian .big) 0xddccbbaa = (.ok (), [], [0xdd, 0xcc, 0xbb, 0xaa]) := by
  decide +kernel
example : writeU 4 (.endianBits .big 10) 0x03ab = (.ok (), bits [1, 1], [0b11101010]) := by
  decide +kernel
example : (writeU 4 (.endianBits .little 100) 0x03ab).1 = .err .invalidParam := by decide +kernel
example : (writeU 4 (.endianBits .little 5) 0x03ab).1 = .err .invalidParam := by decide +kernel
example : writeU 4 (.endianBytes .big 2) 0x00ffabaa = (.ok (), [], [0xab, 0xaa]) := by decide +kernel
example : (writeU 4 (.endianBytes .little 10) 0x03ab).1 = .err .invalidParam := by decide +kernel

-- test_bit_read_write (src/impls/primitive.rs)
example : writeU 4 (.endianBits .little 32) 0xaabbccdd = (.ok (), [], [0xdd, 0xcc, 0xbb, 0xaa]) := by
  decide +kernel

-- TestSignExtending, TestSignExtendingPanic (src/impls/primitive.rs)
example : readI 1 (.endianBits .little 5) [0b10101000] = .ok (-11) := by decide +kernel
example : readI 2 (.endianBits .little 5) [0b10101000] = .ok (-11) := by decide +kernel
example : readI 4 (.endianBits .little 5) [0b10101000] = .ok (-11) := by decide +kernel
example : readI 8 (.endianBits .little 5) [0b10101000] = .ok (-11) := by decide +kernel
example : readI 16 (.endianBits .little 5) [0b10101000] = .ok (-11) := by decide +kernel
example : readI 1 (.endianBits .little 9) [0b10101000] = .err .parse := by decide +kernel
example : readI 2 (.endianBits .little 17) [0b10101000] = .err .parse := by decide +kernel
example : readI 16 (.endianBits .little 129) [0b10101000] = .err .parse := by decide +kernel

/-! ## tests/bit_order.rs -/

/-- `bits = n` with `bit_order = "lsb"`. -/
def lsb (W n : Nat) : Ty := u W (.bitsOrder n .lsb0)

/-- A unit-only enum with ids of `n` bits. -/
def unitEnum (ids : List Int) (c : Codec) : Ty :=
  .enum (fun _ => []) [] (.typed none fun _ => c) (fun _ _ v => c.write v)
    (ids.foldr (fun i vs => .cons { pat := fun _ v => decide (v = .num i), id := some (.num i) } .nil vs)
      .nil)

-- test_bit_order_frame (tests/bit_order.rs)
def frame : Ty := struct [lsb 1 4, lsb 1 2, unitEnum [0, 1, 2] (uintCodec .little 1 (.bitsOrder 2 .lsb0)),
  struct (List.replicate 8 (lsb 1 1))]
def frameValue : Val :=
  .ofList [.num 8, .num 0, .variant 2 .nil, nums [1, 0, 0, 0, 0, 0, 1, 0]]
example : read frame [0x88, 0x41] = .ok frameValue := by decide +kernel
example : write frame frameValue = .ok [0x88, 0x41] := by decide +kernel

-- test_bit_order_read_greater (tests/bit_order.rs)
def readGreater : Ty := struct [lsb 1 1, lsb 1 2, lsb 1 4, lsb 1 3, lsb 1 6]
example : read readGreater [0b01111001, 0b11111100] = .ok (nums [1, 0, 15, 0, 63]) := by decide +kernel
example : write readGreater (nums [1, 0, 15, 0, 63]) = .ok [0b01111001, 0b11111100] := by decide +kernel

-- test_bit_order_squashfs, test_bit_order_surrounded (tests/bit_order.rs)
def squashfs : Ty := struct [lsb 1 4, lsb 2 12, u 1 (.order .lsb0), u 1 (.order .lsb0), u 4 (.order .lsb0),
  u 4 (.order .lsb0)]
def squashfsValue : Val := nums [1, 0x123, 4, 5, 6, 7]
example : read squashfs [0x31, 0x12, 4, 5, 6, 0, 0, 0, 7, 0, 0, 0] = .ok squashfsValue := by
  decide +kernel
def surrounded : Ty := struct [u 1, squashfs, u 1, lsb 1 4, u 1 (.bits 4), u 1 (.bits 4), lsb 1 4]
def surroundedValue : Val :=
  .ofList [.num 0xff, squashfsValue, .num 0xff, .num 0xf, .num 0, .num 0, .num 0xf]
def surroundedBytes : List Byte := [0xff, 0x31, 0x12, 4, 5, 6, 0, 0, 0, 7, 0, 0, 0, 0xff, 0x0f, 0x0f]
example : read surrounded surroundedBytes = .ok surroundedValue := by decide +kernel
example : write surrounded surroundedValue = .ok surroundedBytes := by decide +kernel

-- test_bit_order_enums (tests/bit_order.rs)
def enums : Ty := struct [unitEnum [0, 0xf] (uintCodec .little 1 (.bitsOrder 4 .lsb0)),
  unitEnum [0, 0xf] (uintCodec .little 1 (.bitsOrder 4 .lsb0))]
example : read enums [0xf0] = .ok (.ofList [.variant 0 .nil, .variant 1 .nil]) := by decide +kernel
example : write enums (.ofList [.variant 0 .nil, .variant 1 .nil]) = .ok [0xf0] := by decide +kernel

-- test_bit_order_more_first, test_bit_order_lsb_field (tests/bit_order.rs)
def moreFirst : Ty := struct [lsb 2 13, lsb 1 3]
example : read moreFirst [0x40, 0x40] = .ok (nums [0x40, 2]) := by decide +kernel
example : write moreFirst (nums [0x40, 2]) = .ok [0x40, 0x40] := by decide +kernel

-- test_bit_order_custom_reader_writer (tests/bit_order.rs)
def custom : Ty := struct [.pair (lsb 2 13) (u 1 (.bitsOrder 3 .msb0)),
  .pair (u 2 (.bitsOrder 13 .msb0)) (u 1 (.bitsOrder 3 .msb0))]
def customRead : Ty := struct [.pair (lsb 2 13) (u 1 (.bits 3)),
  .pair (u 2 (.bitsOrder 13 .msb0)) (u 1 (.bits 3))]
def customValue : Val := .ofList [nums [0b1111100000000, 1], nums [0b0011001000000, 0]]
def customBytes : List Byte := [0b00000000, 0b00111111, 0b01000000, 0b00110000]
example : read customRead customBytes = .ok customValue := by decide +kernel
example : write custom customValue = .ok customBytes := by decide +kernel

-- test_bit_order_more_first_be, test_idempotency_multi_byte (tests/bit_order.rs)
def moreFirstBe : Ty := struct [u 2 (.endianBitsOrder .big 13 .lsb0), u 1 (.endianBitsOrder .big 3 .lsb0)]
example : read moreFirstBe [0x10, 0x81] = .ok (nums [0x1001, 4]) := by decide +kernel
example : write moreFirstBe (nums [0x1001, 4]) = .ok [0x10, 0x81] := by decide +kernel

-- test_bit_order_little (tests/bit_order.rs)
def bitOrderLittle : Ty := struct ([4, 11, 13, 10, 8, 9, 9, 8, 7, 9].map fun n =>
  u 2 (.endianBitsOrder .little n .lsb0))
def bitOrderLittleBytes : List Byte :=
  [0x8b, 0xf3, 0xdc, 0x7b, 0x94, 0x38, 0x98, 0x42, 0x78, 0xb8, 0x5e]
def bitOrderLittleValue : Val := nums [11, 1848, 6073, 327, 226, 96, 133, 120, 56, 189]
example : read bitOrderLittle bitOrderLittleBytes = .ok bitOrderLittleValue := by decide +kernel
example : write bitOrderLittle bitOrderLittleValue = .ok bitOrderLittleBytes := by decide +kernel

-- test_bit_order_13 (tests/bit_order.rs)
example : read (struct [lsb 2 13, lsb 2 13, lsb 2 6]) [0, 0b10, 0b01000000, 0] =
    .ok (nums [512, 512, 0]) := by decide +kernel

-- test_pad_bits_after, test_pad_bits_before (tests/bit_order.rs)
def padAfterT : Ty := structOf <| .cons {} (u 1 (.order .lsb0)) <|
  .cons { padAfter := some fun _ => 10, padOrder := some .lsb0 } (lsb 2 6) <|
  .cons {} (u 1 (.order .lsb0)) .nil
example : parse padAfterT [0x13, 0b00110101, 0, 0xff] = .ok (([], 0), nums [0x13, 0b110101, 0xff]) := by
  decide +kernel
example : write padAfterT (nums [0x13, 0b110101, 0xff]) = .ok [0x13, 0b00110101, 0, 0xff] := by
  decide +kernel
def padBeforeT : Ty := structOf <| .cons {} (u 1 (.order .lsb0)) <|
  .cons { padBefore := some fun _ => 10, padOrder := some .lsb0 } (lsb 2 6) <|
  .cons {} (u 1 (.order .lsb0)) .nil
example : parse padBeforeT [0x13, 0, 0b01110100, 0xff] = .ok (([], 0), nums [0x13, 0b11101, 0xff]) := by
  decide +kernel
example : write padBeforeT (nums [0x13, 0b11101, 0xff]) = .ok [0x13, 0, 0b01110100, 0xff] := by
  decide +kernel

-- test_three_bits_roundtrip (tests/bit_order.rs); the field's type has hand-written traits
def packetByteArray : Codec where
  read := do
    let a ← Reader.readBits 8 .lsb0
    let b ← Reader.readBits 8 .lsb0
    pure (.ofList [.num (ofBits a), .num (ofBits b)])
  write v := match v with
    | .cons (.num a) (.cons (.num b) .nil) =>
      Writer.writeBitsOrder ((byteBits (BitVec.ofInt 8 b)) ++ byteBits (BitVec.ofInt 8 a)) .lsb0
    | _ => M.panic
def threeBits : Ty := struct [lsb 1 3, .prim none fun _ => packetByteArray]
example : write threeBits (.ofList [.num 0b110, nums [12, 175]]) =
    .ok [0b01100110, 0b01111000, 0b00000101] := by decide +kernel
example : parse threeBits [0b01100110, 0b01111000, 0b00000101] =
    .ok (([0b00000101], 3), .ofList [.num 0b110, nums [12, 175]]) := by decide +kernel

-- test_idempotency (tests/bit_order.rs)
def idempotency : Ty := struct [u 2 (.endianBitsOrder .big 8 .lsb0)]
example : read idempotency [1] = .ok (nums [1]) := by decide +kernel
example : write idempotency (nums [1]) = .ok [1] := by decide +kernel

-- test_invalid_bit_size_1 to 5 (tests/bit_order.rs)
example : write (struct [u 4 (.endianBits .little 31), u 1 (.endianBits .little 1)])
    (nums [0xffffffff, 1]) = .err .invalidParam := by decide +kernel
example : write (struct [u 4 (.endianBitsOrder .little 31 .msb0), u 1 (.endianBits .little 1)])
    (nums [0xffffffff, 1]) = .err .invalidParam := by decide +kernel
example : write (struct [u 4 (.endianBitsOrder .little 31 .lsb0), u 1 (.endianBits .little 1)])
    (nums [0xffffffff, 1]) = .err .invalidParam := by decide +kernel
example : write (struct [u 4 (.endianBitsOrder .big 31 .msb0), u 1 (.endianBits .big 1)])
    (nums [0xffffffff, 1]) = .err .invalidParam := by decide +kernel
example : write (struct [u 4 (.endianBitsOrder .big 31 .lsb0), u 1 (.endianBits .big 1)])
    (nums [0xffffffff, 1]) = .err .invalidParam := by decide +kernel

/-! ## tests/test_lsb_le.rs -/

def lsbLe (l : List (Nat × Nat)) : Ty :=
  struct (l.map fun x => u x.1 (.endianBitsOrder .little x.2 .lsb0))
def rawData : List Byte := [0xad, 0xdc, 0x32, 0xf1]

example : parse (lsbLe [(1, 1), (1, 1), (1, 1), (4, 27), (1, 2)]) rawData =
    .ok (([], 0), nums [1, 0, 1, 0x6265b95, 3]) := by decide +kernel
example : parse (lsbLe [(1, 5), (4, 27)]) rawData = .ok (([], 0), nums [0xd, 0x078996e5]) := by
  decide +kernel
example : parse (lsbLe [(4, 27), (1, 5)]) rawData = .ok (([], 0), nums [0x0132dcad, 0x1e]) := by
  decide +kernel
example : parse (lsbLe [(1, 8), (4, 24)]) rawData = .ok (([], 0), nums [0xad, 0xf132dc]) := by
  decide +kernel
example : parse (lsbLe [(4, 24), (1, 8)]) rawData = .ok (([], 0), nums [0x32dcad, 0xf1]) := by
  decide +kernel
example : parse (lsbLe [(2, 16), (1, 1), (1, 2), (1, 4), (1, 6), (1, 3)]) rawData =
    .ok (([], 0), nums [0xdcad, 0, 1, 6, 0x22, 7]) := by decide +kernel
example : write (lsbLe [(4, 20), (4, 12)]) (nums [0xabc, 0xdef]) = .ok [0xbc, 0x0a, 0xf0, 0xde] := by
  decide +kernel
example : parse (lsbLe [(4, 20), (4, 12)]) [0xbc, 0x0a, 0xf0, 0xde] =
    .ok (([], 0), nums [0xabc, 0xdef]) := by decide +kernel
example : parse (lsbLe [(4, 19), (2, 13)]) (toLE 4 (44 * 2 ^ 19 + 38)) = .ok (([], 0), nums [38, 44]) := by
  decide +kernel
example : write (lsbLe [(4, 19), (2, 13)]) (nums [38, 44]) = .ok (toLE 4 (44 * 2 ^ 19 + 38)) := by
  decide +kernel
-- test_misaligned_pad_bits_aaelf32_flags; a bool is its u8
def padLsb (n : Int) : Attrs := { padBefore := some fun _ => n, padOrder := some .lsb0 }
def flag1 : Ty := u 1 (.endianBitsOrder .little 1 .lsb0)
example : parse (structOf <| .cons (padLsb 9) flag1 <| .cons {} flag1 <| .cons (padLsb 11) flag1 <|
    .cons {} flag1 <| .cons {} (u 1 (.endianOrder .little .lsb0)) .nil) (toLE 4 83886592) =
    .ok (([], 0), nums [1, 0, 0, 0, 5]) := by decide +kernel
-- test_lsb_le_misaligned_3
example : parse (lsbLe [(1, 1), (4, 24)]) [0xff, 0x01, 0, 0] = .ok (([0], 1), nums [1, 0xff]) := by
  decide +kernel

/-! ## tests/test_enum.rs, tests/test_catch_all.rs -/

def isNum (i : Int) : Env → Val → Bool := fun _ v => decide (v = .num i)
def u8c : Codec := uintCodec .little 1 .unit
def u8Id : IdSrc := .typed (some 8) fun _ => u8c

-- test_enum (tests/test_enum.rs)
def testEnum : Ty := .enum (fun _ => []) [] u8Id (fun _ _ => u8c.write) <|
  .cons { pat := isNum 1, id := some (.num 1) } (fields [u 1]) <|
  .cons { pat := isNum 2, id := some (.num 2) } (fields [u 1 (.bits 4), u 1 (.bits 4)]) <|
  .cons { pat := isNum 3, id := some (.num 3) } (fields [u 1, .bytes (var 0) fun _ => .unit]) <|
  .cons { pat := isNum 4, id := some (.num 4) } (fields [u 1, .bytes (var 0) fun _ => .unit]) <|
  .cons { pat := fun _ _ => true, id := none, idPat := true } (fields [u 1, u 1]) .nil
example : read testEnum [1, 0xab] = .ok (.variant 0 (nums [0xab])) := by decide +kernel
example : write testEnum (.variant 0 (nums [0xab])) = .ok [1, 0xab] := by decide +kernel
example : read testEnum [2, 0x69] = .ok (.variant 1 (nums [6, 9])) := by decide +kernel
example : write testEnum (.variant 1 (nums [6, 9])) = .ok [2, 0x69] := by decide +kernel
example : read testEnum [3, 2, 0xaa, 0xbb] = .ok (.variant 2 (.ofList [.num 2, nums [0xaa, 0xbb]])) := by
  decide +kernel
example : write testEnum (.variant 2 (.ofList [.num 2, nums [0xaa, 0xbb]])) = .ok [3, 2, 0xaa, 0xbb] := by
  decide +kernel
example : read testEnum [0xff, 1] = .ok (.variant 4 (nums [0xff, 1])) := by decide +kernel
example : write testEnum (.variant 4 (nums [0xff, 1])) = .ok [0xff, 1] := by decide +kernel
example : read testEnum [0xff, 0xff, 0xff] = .err .parse := by decide +kernel

-- test_enum_error, test_enum_discriminant (tests/test_enum.rs)
example : read (unitEnum [0, 1, 2] u8c) [0] = .ok (.variant 0 .nil) := by decide +kernel
example : read (unitEnum [0, 1, 2] u8c) [2] = .ok (.variant 2 .nil) := by decide +kernel
example : write (unitEnum [0, 1, 2] u8c) (.variant 1 .nil) = .ok [1] := by decide +kernel
example : read (unitEnum [0, 1, 2] u8c) [3] = .err .parse := by decide +kernel

-- test_enum_id_pat_with_discriminant (tests/test_enum.rs)
def discr : Ty := .enum (fun _ => []) [] (.typed (some 3) fun _ => uintCodec .little 1 (.bits 3))
    (fun _ _ => (uintCodec .little 1 (.bits 3)).write) <|
  .cons { pat := isNum 0, id := some (.num 0) } .nil <|
  .cons { pat := isNum 1, id := some (.num 1) } .nil <|
  .cons { pat := fun _ _ => true, id := some (.num 2), idPat := true, discr := true } .nil .nil
def discrT : Ty := structOf (.cons {} discr (.cons { sizeAttr := some 5 } (u 1 (.bits 5)) .nil))
example : discr.size = some 3 ∧ discrT.size = some 8 := by decide +kernel
example : read discrT [0b00100101] = .ok (.ofList [.variant 1 .nil, .num 5]) := by decide +kernel
example : write discrT (.ofList [.variant 1 .nil, .num 5]) = .ok [0b00100101] := by decide +kernel
example : read discrT [0b10100101] = .ok (.ofList [.variant 2 .nil, .num 5]) := by decide +kernel
example : write discrT (.ofList [.variant 2 .nil, .num 5]) = .ok [0b01000101] := by decide +kernel

-- test_enum_id_pat_with_discriminant_and_storage (tests/test_enum.rs)
def discrS : Ty := .enum (fun _ => []) [] (.typed (some 3) fun _ => uintCodec .little 1 (.bits 3))
    (fun _ _ => (uintCodec .little 1 (.bits 3)).write) <|
  .cons { pat := isNum 0, id := some (.num 0) } .nil <|
  .cons { pat := isNum 1, id := some (.num 1) } .nil <|
  .cons { pat := fun _ _ => true, id := none, idPat := true } (fields [u 1]) .nil
def discrST : Ty := structOf (.cons {} discrS (.cons { sizeAttr := some 5 } (u 1 (.bits 5)) .nil))
example : discrS.size = some 3 ∧ discrST.size = some 8 := by decide +kernel
example : read discrST [0b10100101] = .ok (.ofList [.variant 2 (nums [5]), .num 5]) := by decide +kernel
example : write discrST (.ofList [.variant 2 (nums [5]), .num 5]) = .ok [0b10100101] := by decide +kernel

-- test_id_pat_with_id (tests/test_enum.rs)
def numIn (lo hi : Int) : Env → Val → Bool := fun _ v => match v with
  | .num i => decide (lo ≤ i ∧ i ≤ hi)
  | _ => false
def patWithId : Ty := .enum (fun env => env.vars.take 1) [] (.ctx fun env => env.ctx.headD .nil)
    (fun i _ => (uintCodec .little (i + 1) .unit).write) <|
  .cons { pat := numIn 1 2, id := none, idPat := true } (fields [u 1]) <|
  .cons { pat := numIn 4 5, id := none, idPat := true } (fields [u 2]) <|
  .cons { pat := fun _ _ => true, id := none, idPat := true } .nil .nil
def patWithIdT : Ty := struct [u 1, patWithId]
example : patWithId.size = some 16 ∧ patWithIdT.size = some 24 := by decide +kernel
example : read patWithIdT [1, 2] = .ok (.ofList [.num 1, .variant 0 (nums [2])]) := by decide +kernel
example : write patWithIdT (.ofList [.num 1, .variant 0 (nums [2])]) = .ok [1, 2] := by decide +kernel
example : read patWithIdT [4, 2, 0xff] = .ok (.ofList [.num 4, .variant 1 (nums [0xff02])]) := by
  decide +kernel
example : write patWithIdT (.ofList [.num 4, .variant 1 (nums [0xff02])]) = .ok [4, 2, 0xff] := by
  decide +kernel
example : read patWithIdT [6] = .ok (.ofList [.num 6, .variant 2 .nil]) := by decide +kernel
example : write patWithIdT (.ofList [.num 6, .variant 2 .nil]) = .ok [6] := by decide +kernel

-- tests/test_deku_id.rs
def request1 : Ty := .enum (fun _ => []) [] u8Id (fun _ _ _ => M.panic) <|
  .cons { pat := isNum 1, id := some (.num 1) } (fields [u 1]) <|
  .cons { pat := isNum 0x10, id := some (.num 0x10) } (fields [u 1]) .nil
example : request1.dekuId (.variant 0 (nums [0])) = .ok (.num 1) := by decide +kernel
example : request1.dekuId (.variant 1 (nums [0])) = .ok (.num 0x10) := by decide +kernel
def enumId : Ty := .enum (fun env => env.vars.take 1) [] (.ctx fun env => env.ctx.headD .nil) (fun _ _ _ => M.panic) <|
  .cons { pat := isNum 1, id := some (.num 1) } (fields [u 1]) <|
  .cons { pat := isNum 2, id := some (.num 2) } .nil .nil
example : enumId.dekuId (.variant 0 (nums [0])) = .ok (.num 1) := by decide +kernel
def discriminant : Ty := .enum (fun _ => []) [] u8Id (fun _ _ _ => M.panic) <|
  .cons { pat := isNum 1, id := some (.num 1), discr := true } .nil <|
  .cons { pat := isNum 2, id := some (.num 2), discr := true } .nil .nil
example : discriminant.dekuId (.variant 1 .nil) = .err .idVariantNotFound := by decide +kernel

-- test_variable_endian_enum (tests/test_enum.rs)
def variableEndian : Ty := .enum (fun _ => []) [] (.typed (some 16) fun _ => uintCodec .little 2 (.endian .big))
    (fun _ _ => (uintCodec .little 2 (.endian .big)).write) <|
  .cons { pat := isNum 1, id := some (.num 1) } (fields [u 2 (.endian .little)]) <|
  .cons { pat := isNum 2, id := some (.num 2) } (fields [u 2 (.endian .big)]) .nil
example : read variableEndian [0, 1, 1, 0] = .ok (.variant 0 (nums [1])) := by decide +kernel
example : write variableEndian (.variant 0 (nums [1])) = .ok [0, 1, 1, 0] := by decide +kernel
example : read variableEndian [0, 2, 1, 0] = .ok (.variant 1 (nums [256])) := by decide +kernel
example : write variableEndian (.variant 1 (nums [256])) = .ok [0, 2, 1, 0] := by decide +kernel

-- tests/test_catch_all.rs
def remapping : Ty := .enum (fun _ => []) [] u8Id (fun _ _ => u8c.write) <|
  .cons { pat := isNum 1, id := some (.num 1) } .nil <|
  .cons { pat := isNum 2, id := some (.num 2) } .nil <|
  .cons { pat := isNum 3, id := some (.num 3), default := true } .nil .nil
example : read remapping [1] = .ok (.variant 0 .nil) := by decide +kernel
example : write remapping (.variant 0 .nil) = .ok [1] := by decide +kernel
example : read remapping [10] = .ok (.variant 2 .nil) := by decide +kernel
example : write remapping (.variant 2 .nil) = .ok [3] := by decide +kernel

/-! ## tests/test_magic.rs -/

def deku : List Byte := [0x64, 0x65, 0x6b, 0x75]
def magicStruct : Ty := .struct (fun _ => []) none deku .nil
example : read magicStruct deku = .ok .nil := by decide +kernel
example : write magicStruct .nil = .ok deku := by decide +kernel
example : read magicStruct [0x64, 0x65, 0x6b, 0xde] = .err .parse := by decide +kernel
example : read magicStruct [0xef, 0x65, 0x6b, 0x75] = .err .parse := by decide +kernel
example : read magicStruct [0x64, 0x65, 0x6b] = .err (.incomplete 8) := by decide +kernel
def magicEnum : Ty := .enum (fun _ => []) deku u8Id (fun _ _ => u8c.write)
  (.cons { pat := isNum 0, id := some (.num 0) } .nil .nil)
example : read magicEnum (deku ++ [0]) = .ok (.variant 0 .nil) := by decide +kernel
example : write magicEnum (.variant 0 .nil) = .ok (deku ++ [0]) := by decide +kernel
example : read magicEnum [0x64, 0x65, 0x6b, 0] = .err .parse := by decide +kernel
def magicField : Ty := structOf (.cons { magic := deku } (u 1) .nil)
example : read magicField (deku ++ [0]) = .ok (nums [0]) := by decide +kernel
example : write magicField (nums [0]) = .ok (deku ++ [0]) := by decide +kernel

/-! ## tests/test_seek.rs -/

def seek (p : Env → SeekFrom) : Attrs := { seek := some fun env => some (p env) }

def value (t : Ty) (data : List Byte) : Res Val :=
  match fromReader (t.read mach {}) { data := data } 0 with
  | .ok (_, v) => .ok v
  | .err e => .err e
  | .panic => .panic

-- test_seek (tests/test_seek.rs)
def seekT : Ty := structOf <| .cons {} (u 1) <| .cons (seek fun env => .current (var 0 env)) (u 1) <|
  .cons (seek fun _ => .current 0) (u 1) <| .cons (seek fun _ => .start 0) (u 1) <|
  .cons (seek fun _ => .start 2) (u 1) <| .cons (seek fun _ => .end (-1)) (u 1) .nil
example : value seekT [1, 0, 0x20, 0x30] = .ok (nums [1, 0x20, 0x30, 1, 0x20, 0x30]) := by decide +kernel
example : write seekT (nums [1, 0x20, 0x30, 1, 0x20, 0x30]) = .ok [1, 0, 0x20, 0x30] := by decide +kernel
example : value seekT [2, 0, 0, 0x20, 0x30] = .ok (nums [2, 0x20, 0x30, 2, 0, 0x30]) := by decide +kernel
example : write seekT (nums [2, 0x20, 0x30, 2, 0, 0x30]) = .ok [2, 0, 0, 0x20, 0x30] := by decide +kernel
example : value seekT [0, 0xff, 0xaa] = .ok (nums [0, 0xff, 0xaa, 0, 0xaa, 0xaa]) := by decide +kernel
example : write seekT (nums [0, 0xff, 0xaa, 0, 0xaa, 0xaa]) = .ok [0, 0xff, 0xaa] := by decide +kernel

-- test_seek_ctx_before, _start, _end (tests/test_seek.rs)
def seekStruct (p : SeekFrom) : Ty := .struct (fun _ => []) (some fun _ => some p) [] (fields [u 1])
example : value (seekStruct (.current 2)) [0, 0, 4] = .ok (nums [4]) := by decide +kernel
example : write (seekStruct (.current 2)) (nums [4]) = .ok [0, 0, 4] := by decide +kernel
example : value (seekStruct (.start 1)) [0, 3] = .ok (nums [3]) := by decide +kernel
example : write (seekStruct (.start 1)) (nums [3]) = .ok [0, 3] := by decide +kernel
example : value (seekStruct (.end (-2))) [0, 3, 0] = .ok (nums [3]) := by decide +kernel
example : ((seekStruct (.end (-2))).write mach {} (nums [3]) (Writer.new { data := [0, 0, 0] })).2.inner.data
    = [0, 3, 0] := by decide +kernel

-- test_seek_from_start_zero_rewind, _from_end_rewind, _from_current_negative_rewind
example : parse (structOf <| .cons (seek fun _ => .current 1) (u 1) <|
    .cons (seek fun _ => .start 0) (u 1) .nil) [0xaa, 0xbb] = .ok (([0xbb], 0), nums [0xbb, 0xaa]) := by
  decide +kernel
example : parse (structOf <| .cons (seek fun _ => .end (-1)) (u 1) <|
    .cons (seek fun _ => .start 0) (u 1) .nil) [0xaa, 0xbb] = .ok (([0xbb], 0), nums [0xbb, 0xaa]) := by
  decide +kernel
example : parse (structOf <| .cons {} (u 1) <| .cons {} (u 1) <|
    .cons (seek fun _ => .current (-2)) (u 1) .nil) [0xaa, 0xbb] =
    .ok (([0xbb], 0), nums [0xaa, 0xbb, 0xaa]) := by decide +kernel

-- test_seek_error_preserves_bits_read (tests/test_seek.rs)
example : ((do let _ ← Reader.seek (.start 1); Reader.seek (.current (-100)) : M Reader _)
    (Reader.new { data := [0xaa, 0xbb] })).2.bitsRead =
    (Reader.seek (.start 1) (Reader.new { data := [0xaa, 0xbb] })).2.bitsRead := by decide +kernel

/-! ## tests/test_regression.rs -/

-- issue_224
def op1 : Ty := structOf (.cons { sizeAttr := some 2 } (u 1 (.bits 2)) (.cons { sizeAttr := some 4 } (u 1 (.bits 4)) .nil))
def op2 : Ty := structOf (.cons { sizeAttr := some 8 } (u 1 (.bits 8)) (.cons { sizeAttr := some 6 } (u 1 (.bits 6)) .nil))
def one : Ty := .enum (fun _ => []) [] (.typed (some 2) fun _ => uintCodec .little 1 (.bits 2)) (fun _ _ _ => M.panic) <|
  .cons { pat := isNum 0, id := some (.num 0) } .nil <| .cons { pat := isNum 1, id := some (.num 1) } .nil <|
  .cons { pat := isNum 2, id := some (.num 2) } .nil .nil
def two : Ty := .enum (fun _ => []) [] (.typed (some 4) fun _ => uintCodec .little 1 (.bits 4)) (fun _ _ _ => M.panic) <|
  .cons { pat := isNum 0, id := some (.num 0) } (fields [op1]) <| .cons { pat := isNum 1, id := some (.num 1) } (fields [op1]) <|
  .cons { pat := isNum 2, id := some (.num 2) } (fields [op2]) <| .cons { pat := isNum 3, id := some (.num 3) } (fields [op2]) .nil
def packet224 : Ty := struct [struct [one, two]]
example : op1.size = some 6 ∧ op2.size = some 14 ∧ one.size = some 2 ∧ two.size = some 18 ∧
    packet224.size = some 20 := by decide +kernel
def packet224Value : Val := .ofList [.ofList [.variant 0 .nil, .variant 2 (.ofList [nums [1, 2]])]]
example : (match write packet224 packet224Value with | .ok b => value packet224 b | _ => .panic) =
    .ok packet224Value := by decide +kernel

-- issue_282
example : value (struct [u 4 (.endianBits .big 24), u 4 (.endianBytes .big 3)])
    ((toBE 4 11280317).drop 1 ++ (toBE 4 11280317).drop 1) = .ok (nums [11280317, 11280317]) := by
  decide +kernel
example : value (struct [u 4 (.endianBits .little 24), u 4 (.endianBytes .little 3)])
    ((toLE 4 11280317).take 3 ++ (toLE 4 11280317).take 3) = .ok (nums [11280317, 11280317]) := by
  decide +kernel

-- test_regression_292
example : value (struct [u 1 (.endianBits .little 4), u 1 (.endian .little), u 1 (.endianBits .little 4)])
    [0x0f, 0xf0] = .ok (nums [0, 0xff, 0]) := by decide +kernel
example : value (struct [u 1 (.endianBits .little 4), u 1 (.endianBits .little 8), u 1 (.endianBits .little 4)])
    [0x0f, 0xf0] = .ok (nums [0, 0xff, 0]) := by decide +kernel
example : value (struct [u 1 (.bits 4), u 1, u 1 (.bits 4)]) [0x0f, 0xf0] = .ok (nums [0, 0xff, 0]) := by
  decide +kernel
example : value (structOf <| .cons { padBefore := some fun _ => 4 } (u 1) (fields [u 1 (.bits 4)]))
    [0x0f, 0xf0] = .ok (nums [0xff, 0]) := by decide +kernel
example : value (structOf <| .cons {} (u 1 (.bits 2)) <|
    .cons { padBefore := some fun _ => 2 } (u 1) (fields [u 1 (.bits 4)]))
    [0x0f, 0xf0] = .ok (nums [0, 0xff, 0]) := by decide +kernel
example : value (struct [u 1 (.endianBits .little 2), u 1 (.endian .little), u 1 (.endianBits .little 6)])
    [0b11000000, 0b00111111] = .ok (nums [0b11, 0, 0b111111]) := by decide +kernel
example : value (struct [u 1 (.endianBits .little 2), u 2 (.endian .little), u 1 (.endianBits .little 6)])
    [0b11000000, 0, 0b00111111] = .ok (nums [0b11, 0, 0b111111]) := by decide +kernel
example : value (struct [u 1 (.endianBits .big 2), u 2 (.endian .big), u 1 (.endianBits .big 6)])
    [0b11000000, 0, 0b00111111] = .ok (nums [0b11, 0, 0b111111]) := by decide +kernel
-- the signed cases
def signedSeq : M Reader (Int × Int × Int) := do
  let a ← Prim.readSigned .little 1 (.endianBits .big 2)
  let b ← Prim.readSigned .little 2 (.endian .big)
  let c ← Prim.readSigned .little 1 (.endianBits .big 6)
  pure (a, b, c)
example : (signedSeq (Reader.new { data := [0b11000000, 0, 0b01100001] })).1 = .ok (-1, 1, -31) := by
  decide +kernel

-- issue_533
def bitsAndValue : Ty := .enum (fun _ => []) [] (.typed none fun _ => uintCodec .little 1 (.bits 1))
    (fun _ _ => (uintCodec .little 1 (.bits 1)).write) <|
  .cons { pat := isNum 0, id := some (.num 0) } .nil <|
  .cons { pat := fun _ _ => true, id := none, idPat := true } (fields [u 1]) .nil
example : value (struct [bitsAndValue, bitsAndValue]) [0b01000000] =
    .ok (.ofList [.variant 0 .nil, .variant 1 (nums [1])]) := by decide +kernel

-- issue_525
example : parse (structOf <| .cons {} (u 1) <| .cons (seek fun _ => .start 2) (u 1) <|
    .cons {} (u 1) .nil) [0, 1, 2, 3, 4, 5] = .ok (([4, 5], 0), nums [0, 2, 3]) := by decide +kernel

/-! ## tests/test_struct.rs, test_to_bits.rs, test_to_slice.rs, test_from_bytes.rs, test_from_reader.rs -/

-- test_read_too_much_data
example : read (struct [u 1 (.bits 6)]) (List.replicate 100 0) = .err .parse := by decide +kernel

-- test_named_struct
def nested : Ty := struct [u 1 (.bits 6), u 1 (.bits 2), struct [u 2]]
def named : Ty := struct [u 1, u 1 (.bits 2), u 1 (.bits 6), u 2 (.bytes 2), u 2 (.endian .big), nested, u 1,
  .bytes (var 0) fun _ => .unit, u 1]
def namedBytes : List Byte :=
  [0xff, 0b10010110, 0xaa, 0xbb, 0xcc, 0xdd, 0b10010110, 0xcc, 0xdd, 2, 0xbe, 0xef, 0xff]
def namedValue : Val := .ofList [.num 0xff, .num 2, .num 0b010110, .num 0xbbaa, .num 0xccdd,
  .ofList [.num 0b100101, .num 2, nums [0xddcc]], .num 2, nums [0xbe, 0xef], .num 0xff]
example : read named namedBytes = .ok namedValue := by decide +kernel
example : write named namedValue = .ok namedBytes := by decide +kernel

-- test_big_endian
def big3 : Ty := struct [u 4 (.endianBytes .big 3)]
example : read big3 [0x11, 0x22, 0x33] = .ok (nums [0x112233]) := by decide +kernel
example : write big3 (nums [0x112233]) = .ok [0x11, 0x22, 0x33] := by decide +kernel
example : (match parse (struct [u 4 (.endianBytes .big 2)]) [0, 0xff, 0xab, 0xaa] with
    | .ok (_, v) => write (struct [u 4 (.endianBytes .big 2)]) v | _ => .panic) = .ok [0, 0xff] := by
  decide +kernel

-- test_zst_vec_1, test_zst_vec_2
example : parse (struct [.vec 0 .end (struct [])]) [] = .ok (([], 0), .ofList [.nil]) := by decide +kernel
example : parse (struct [.vec 0 (.bytes fun _ => 1) (struct [])]) [] = .ok (([], 0), .ofList [.nil]) := by
  decide +kernel

-- tests/test_to_bits.rs
def toBitsOf (t : Ty) (v : Val) : Res (List Bool) := toBits (t.write mach {} v)
example : toBitsOf (struct [u 1 (.bits 4), u 1 (.bits 4)]) (nums [0xf, 1]) =
    .ok (bits [1, 1, 1, 1, 0, 0, 0, 1]) := by decide +kernel
example : toBitsOf (struct [u 1 (.bits 4), u 1 (.bits 4), u 1 (.bits 1)]) (nums [0xf, 1, 1]) =
    .ok (bits [1, 1, 1, 1, 0, 0, 0, 1, 1]) := by decide +kernel
example : toBitsOf (unitEnum [0b1010] (uintCodec .little 1 (.bits 4))) (.variant 0 .nil) =
    .ok (bits [1, 0, 1, 0]) := by decide +kernel

-- tests/test_to_slice.rs
def toSliceOf (t : Ty) (v : Val) (n : Nat) : Res Nat × List Byte :=
  toSlice (t.write mach {} v) (List.replicate n 0)
example : toSliceOf big3 (nums [0x112233]) 3 = (.ok 3, [0x11, 0x22, 0x33]) := by decide +kernel
example : toSliceOf (struct [u 1 (.endianBits .little 3)]) (nums [7]) 1 = (.ok 1, [0b11100000]) := by
  decide +kernel
example : (toSliceOf big3 (nums [0x112233]) 2).1 = .err (.io .writeZero) := by decide +kernel
def sliceC (n : Nat) : Ty := struct [u 1, u 1 (.endianBits .little 3), u 1, u 2 (.endianBits .little n), u 1]
example : (match parse (sliceC 13) [0x11, 0x22, 0x33, 0x44, 0x55] with
    | .ok (r, v) => (r, toSliceOf (sliceC 13) v 5) | _ => (([0], 0), .panic, [])) =
    (([], 0), .ok 5, [0x11, 0x22, 0x33, 0x44, 0x55]) := by decide +kernel
example : (match parse (sliceC 12) [0x11, 0x22, 0x33, 0x44, 0x54] with
    | .ok (r, v) => (r, toSliceOf (sliceC 12) v 5) | _ => (([0], 0), .panic, [])) =
    (([0x54], 7), .ok 5, [0x11, 0x22, 0x33, 0x44, 0x54]) := by decide +kernel

-- tests/test_from_bytes.rs, tests/test_from_reader.rs
def nibble : Ty := struct [u 1 (.bits 4)]
example : parse nibble [0b01100110, 0b01011010] 0 = .ok (([0b01100110, 0b01011010], 4), nums [6]) := by
  decide +kernel
example : parse nibble [0b01100110, 0b01011010] 4 = .ok (([0b01011010], 0), nums [6]) := by
  decide +kernel
example : parse nibble [0b01011010] 0 = .ok (([0b01011010], 4), nums [5]) := by decide +kernel
example : parse nibble [0b01011010] 4 = .ok (([], 0), nums [0b1010]) := by decide +kernel
example : fromReader (nibble.read mach {}) { data := [0b01100110, 0b01011010] } 8 = .ok (12, nums [5]) := by
  decide +kernel
def bitEnum : Ty := .enum (fun _ => []) [] (.typed none fun _ => uintCodec .little 1 (.bits 4)) (fun _ _ _ => M.panic) <|
  .cons { pat := isNum 6, id := some (.num 6) } (fields [u 1 (.bits 4)]) <|
  .cons { pat := isNum 5, id := some (.num 5) } (fields [u 1 (.bits 2)]) .nil
example : parse bitEnum [0b01100110, 0b01011010] = .ok (([0b01011010], 0), .variant 0 (nums [6])) := by
  decide +kernel
example : parse bitEnum [0b01011010] = .ok (([0b01011010], 6), .variant 1 (nums [2])) := by decide +kernel
example : parse bitEnum (List.replicate 200 0 ++ [0b01100110, 0b01011010]) 1600 =
    .ok (([0b01011010], 0), .variant 0 (nums [6])) := by decide +kernel

-- test_from_bytes_short_with_seek
def sneaky : Ty := .enum (fun env => env.vars.take 1) [] (.ctx fun env => env.ctx.headD .nil) (fun _ _ _ => M.panic) <|
  .cons { pat := isNum 0, id := some (.num 0) } .nil <| .cons { pat := isNum 1, id := some (.num 1) } .nil .nil
example : parse (structOf <| .cons {} (u 1) <| .cons (seek fun _ => .current 1) sneaky .nil) [1] =
    .err (.incomplete 8) := by decide +kernel

/-! ## tests/test_attributes -/

-- test_cond.rs
def condT : Ty := structOf <| .cons {} (u 1) <|
  .cons { cond := some fun env => decide (var 0 env = 1), default := fun _ => .none } (.option (u 1)) .nil
example : read condT [1, 2] = .ok (.ofList [.num 1, .some (.num 2)]) := by decide +kernel
example : write condT (.ofList [.num 1, .some (.num 2)]) = .ok [1, 2] := by decide +kernel
example : read condT [2] = .ok (.ofList [.num 2, .none]) := by decide +kernel
example : write condT (.ofList [.num 2, .none]) = .ok [2] := by decide +kernel

-- test_skip.rs
def skipT (s : SkipMode) (c : Option Int) (d : Int) : Ty := structOf <| .cons {} (u 1) <|
  .cons { skip := some s, cond := c.map fun n env => decide (var 0 env = n), default := fun _ => .num d } (u 1) <|
  .cons {} (u 1) .nil
example : read (skipT .all none 5) [1, 2] = .ok (nums [1, 5, 2]) := by decide +kernel
example : write (skipT .all none 5) (nums [1, 5, 2]) = .ok [1, 2] := by decide +kernel
example : read (skipT .all (some 1) 5) [1, 9] = .ok (nums [1, 5, 9]) := by decide +kernel
example : write (skipT .all (some 1) 5) (nums [1, 5, 9]) = .ok [1, 9] := by decide +kernel
example : read (skipT .all (some 1) 5) [2, 3, 9] = .ok (nums [2, 3, 9]) := by decide +kernel
example : write (skipT .all (some 1) 5) (nums [2, 3, 9]) = .ok [2, 3, 9] := by decide +kernel
example : read (skipT .read none 42) [1, 2] = .ok (nums [1, 42, 2]) := by decide +kernel
example : write (skipT .read none 42) (nums [1, 42, 2]) = .ok [1, 42, 2] := by decide +kernel
example : read (skipT .read (some 1) 42) [1, 2] = .ok (nums [1, 42, 2]) := by decide +kernel
example : write (skipT .read (some 1) 42) (nums [1, 42, 2]) = .ok [1, 42, 2] := by decide +kernel
example : read (skipT .read (some 0xff) 42) [1, 0x0a, 2] = .ok (nums [1, 0x0a, 2]) := by decide +kernel
example : write (skipT .read (some 0xff) 42) (nums [1, 0x0a, 2]) = .ok [1, 0x0a, 2] := by decide +kernel
example : read (skipT .write none 0) [1, 2, 3] = .ok (nums [1, 2, 3]) := by decide +kernel
example : write (skipT .write none 0) (nums [1, 2, 3]) = .ok [1, 3] := by decide +kernel
example : read (skipT .write (some 1) 0) [1, 2, 9] = .ok (nums [1, 2, 9]) := by decide +kernel
example : write (skipT .write (some 1) 0) (nums [1, 2, 9]) = .ok [1, 9] := by decide +kernel
example : write (skipT .write (some 1) 0) (nums [0x0a, 2, 9]) = .ok [0x0a, 2, 9] := by decide +kernel

-- test_temp.rs
def len : Val → Val
  | .cons v _ => .num v.elems.length
  | _ => .num 0
def tempT (v : Option (Val → Val)) : Ty :=
  structOf (.temp {} (u 1) v (fields [.bytes (var 0) fun _ => .unit]))
example : write (tempT (some len)) (.ofList [nums [2]]) = .ok [1, 2] := by decide +kernel
example : read (tempT (some fun _ => .num 100)) [2, 2, 3] = .ok (.ofList [nums [2, 3]]) := by decide +kernel
example : read (tempT none) [1, 2] = .ok (.ofList [nums [2]]) := by decide +kernel
example : write (tempT none) (.ofList [nums [2]]) = .ok [2] := by decide +kernel
def tempEnum : Ty := .enum (fun _ => []) [] u8Id (fun _ _ => u8c.write) <|
  .cons { pat := isNum 0xab, id := some (.num 0xab) }
    (.temp {} (u 1) (some len) (fields [.bytes (var 0) fun _ => .unit])) <|
  .cons { pat := isNum 0xba, id := some (.num 0xba) } (fields [u 1]) .nil
example : read tempEnum [0xab, 1, 2] = .ok (.variant 0 (.ofList [nums [2]])) := by decide +kernel
example : write tempEnum (.variant 0 (.ofList [nums [2]])) = .ok [0xab, 1, 2] := by decide +kernel
example : write tempEnum (.variant 1 (nums [0x10])) = .ok [0xba, 0x10] := by decide +kernel

-- test_temp_value_with_cond.rs
def present (i : Nat) (all : Val) : Val :=
  match all.elems[i]? with
  | some (.some _) => .num 1
  | _ => .num 0
def bigBits (n : Nat) : Ty := u 1 (.endianBits .big n)
def payload (i : Nat) : Attrs :=
  { skip := some .all, cond := some fun env => decide (var i env ≠ 1), default := fun _ => .none }
def payloadT : Ty := .option (u 4 (.endian .big))
def specT : Ty := structOf <| .temp {} (bigBits 5) (some fun _ => .num 0) <|
  .temp {} (bigBits 1) (some (present 0)) <| .temp {} (bigBits 1) (some (present 1)) <|
  .temp {} (bigBits 1) (some fun _ => .num 0) <| .cons (payload 2) payloadT <| .cons (payload 2) payloadT .nil
example : write specT (.ofList [.some (.num 1), .some (.num 2)]) = .ok [6, 0, 0, 0, 1, 0, 0, 0, 2] := by
  decide +kernel
example : read specT [6, 0, 0, 0, 1, 0, 0, 0, 2] = .ok (.ofList [.some (.num 1), .some (.num 2)]) := by
  decide +kernel
example : write specT (.ofList [.none, .some (.num 2)]) = .ok [2, 0, 0, 0, 2] := by decide +kernel
example : read specT [2, 0, 0, 0, 2] = .ok (.ofList [.none, .some (.num 2)]) := by decide +kernel
example : write specT (.ofList [.some (.num 1), .none]) = .ok [4, 0, 0, 0, 1] := by decide +kernel
example : write specT (.ofList [.none, .none]) = .ok [0] := by decide +kernel

-- test_limits
def bitsReadT : Ty := struct [u 1, .vec 1 (.bits (var 0)) (u 1)]
example : read bitsReadT [16, 0xaa, 0xbb] = .ok (.ofList [.num 16, nums [0xaa, 0xbb]]) := by decide +kernel
example : read bitsReadT [15, 0xaa, 0xbb] = .err (.incomplete 8) := by decide +kernel
example : read bitsReadT [17, 0xaa, 0xbb] = .err (.incomplete 8) := by decide +kernel
example : read (struct [.vec 1 (.bits fun _ => 0) (u 1)]) [] = .ok (.ofList [.nil]) := by decide +kernel
def bitsReadT16 : Ty := struct [u 1, .vec 2 (.bits (var 0)) (u 2 (.endian .little))]
example : read bitsReadT16 [16, 0xaa, 0xbb] = .ok (.ofList [.num 16, nums [0xbbaa]]) := by decide +kernel
example : read bitsReadT16 [15, 0xaa, 0xbb] = .err (.incomplete 16) := by decide +kernel
example : read bitsReadT16 [17, 0xaa, 0xbb] = .err (.incomplete 16) := by decide +kernel
def countT : Ty := struct [u 1, .bytes (var 0) fun _ => .unit]
example : read countT [2, 0xaa, 0xbb] = .ok (.ofList [.num 2, nums [0xaa, 0xbb]]) := by decide +kernel
example : read countT [3, 0xaa, 0xbb] = .err (.incomplete 24) := by decide +kernel
example : read (struct [.vec 2 (.count fun _ => 1) (.pair (u 1) (u 1))]) [0xaa, 0xbb] =
    .ok (.ofList [.ofList [nums [0xaa, 0xbb]]]) := by decide +kernel
def untilT : Ty := struct [u 1, .vec 1 (.until fun env l => decide (l.head? = some (.num (var 0 env)))) (u 1)]
example : read untilT [0xbb, 0xaa, 0xbb] = .ok (.ofList [.num 0xbb, nums [0xaa, 0xbb]]) := by decide +kernel
example : read untilT [0xcc, 0xaa, 0xbb] = .err (.incomplete 8) := by decide +kernel

-- test_padding
def pad2 (b a : Option Int) (n m : Nat) : Ty := structOf <| .cons {} (u 1 (.bits n)) <|
  .cons { padBefore := b.map fun x _ => x, padAfter := a.map fun x _ => x } (u 1 (.bits m)) .nil
example : read (pad2 (some 2) none 2 4) [0b10011001] = .ok (nums [2, 9]) := by decide +kernel
example : write (pad2 (some 2) none 2 4) (nums [2, 9]) = .ok [0b10001001] := by decide +kernel
example : read (pad2 (some 6) none 4 2) [0b10011001] = .err (.incomplete 2) := by decide +kernel
example : read (pad2 (some (-1)) none 2 4) [0b10011001] = .err .invalidParam := by decide +kernel
example : write (pad2 (some (-1)) none 2 4) (nums [2, 9]) = .err .invalidParam := by decide +kernel
example : read (pad2 none (some 2) 2 4) [0b10011001] = .ok (nums [2, 6]) := by decide +kernel
example : write (pad2 none (some 2) 2 4) (nums [2, 6]) = .ok [0b10011000] := by decide +kernel
example : read (pad2 none (some 4) 2 4) [0b10011001] = .err (.incomplete 2) := by decide +kernel
def padBytes (a : Int) : Ty := structOf <| .cons { padAfter := some fun _ => a * 8 } (u 1) <| .cons {} (u 1) .nil
example : read (padBytes 2) [0xaa, 0xbb, 0xcc, 0xdd] = .ok (nums [0xaa, 0xdd]) := by decide +kernel
example : write (padBytes 2) (nums [0xaa, 0xdd]) = .ok [0xaa, 0, 0, 0xdd] := by decide +kernel
example : read (padBytes (-2)) [0xaa, 0xbb, 0xcc, 0xdd] = .err .invalidParam := by decide +kernel
example : read (structOf <| .cons {} (u 1) <| .cons { padAfter := some fun _ => 24 } (u 1) .nil)
    [0xaa, 0xbb, 0xcc, 0xdd] = .err (.incomplete 8) := by decide +kernel
example : read (structOf <| .cons {} (u 1) <| .cons { padBefore := some fun _ => 16 } (u 1) .nil)
    [0xaa] = .err (.incomplete 8) := by decide +kernel

-- test_bitfield_values_range_check.rs
def range (W : Nat) (e : Endian) : Ty := structOf <| .cons {} (u 1 (.bits 1)) <|
  .cons { padBefore := some fun _ => 5 } (u W (.endianBits e 10)) .nil
example : parse (range 2 .big) [0b10000000, 0b00000010] = .ok (([], 0), nums [1, 2]) := by decide +kernel
example : write (range 2 .big) (nums [1, 2]) = .ok [0b10000000, 0b00000010] := by decide +kernel
example : write (range 2 .big) (nums [1, 1023]) = .ok [0b10000011, 0b11111111] := by decide +kernel
example : write (range 2 .big) (nums [1, 1024]) = .err .invalidParam := by decide +kernel
example : parse (range 2 .little) [0b10000000, 0b00001000] = .ok (([], 0), nums [1, 2]) := by decide +kernel
example : write (range 2 .little) (nums [1, 2]) = .ok [0b10000000, 0b00001000] := by decide +kernel
example : write (range 2 .little) (nums [1, 1024]) = .err .invalidParam := by decide +kernel
def rangeI (e : Endian) : M Reader Int := do
  let _ ← Prim.readUnsigned .little 1 (.bits 1)
  Reader.skipBits 5 .msb0
  Prim.readSigned .little 2 (.endianBits e 10)
def rangeIW (e : Endian) (v : Int) : M Writer Unit := do
  Prim.writeUnsigned .little 1 (.bits 1) 1
  Writer.writeBits (List.replicate 5 false)
  Prim.writeSigned .little 2 (.endianBits e 10) v
example : fromBytes (rangeI .big) [0b10000011, 0b11111110] 0 = .ok (([], 0), -2) := by decide +kernel
example : toBytes (rangeIW .big (-2)) = .ok [0b10000011, 0b11111110] := by decide +kernel
example : toBytes (rangeIW .big 512) = .err .invalidParam := by decide +kernel
example : toBytes (rangeIW .big (-512)) = .ok [0b10000010, 0b00000000] := by decide +kernel
example : toBytes (rangeIW .big (-513)) = .err .invalidParam := by decide +kernel
example : fromBytes (rangeI .little) [0b10000011, 0b11111011] 0 = .ok (([], 0), -2) := by decide +kernel
example : toBytes (rangeIW .little (-2)) = .ok [0b10000011, 0b11111011] := by decide +kernel
example : toBytes (rangeIW .little 511) = .ok [0b10000011, 0b11111101] := by decide +kernel
example : toBytes (rangeIW .little 512) = .err .invalidParam := by decide +kernel
example : toBytes (rangeIW .little (-513)) = .err .invalidParam := by decide +kernel

/-! ## tests/test_size.rs -/

def plainEnum (l : List (List Ty)) : Ty :=
  .enum (fun _ => []) [] u8Id (fun _ _ _ => M.panic)
    (l.foldr (fun fs vs => .cons { pat := fun _ _ => false, id := none } (fields fs) vs) .nil)
example : (Ty.array 3 (.array 2 (u 1))).size = some 48 := by decide +kernel
example : (Ty.pair (u 1) (u 2)).size = some 24 := by decide +kernel
example : (struct [u 1, u 2, u 4]).size = some 56 := by decide +kernel
example : (structOf <| .cons { sizeAttr := some 3 } (u 1 (.bits 3)) <| .cons { sizeAttr := some 5 } (u 1 (.bits 5)) <|
    .cons { sizeAttr := some 6 } (u 1 (.bits 6)) .nil).size = some 14 := by decide +kernel
example : (struct [u 1, struct [u 2, u 2], u 1]).size = some 48 := by decide +kernel
example : (plainEnum [[u 1], [u 4]]).size = some 40 := by decide +kernel
example : (plainEnum [[u 2], [u 4, u 1]]).size = some 48 := by decide +kernel
example : (plainEnum [[u 1], [u 8, u 8, u 4]]).size = some 168 := by decide +kernel
example : (plainEnum [[u 4], [plainEnum [[u 1], [u 8]]]]).size = some 80 := by decide +kernel

end Deku.Conformance
