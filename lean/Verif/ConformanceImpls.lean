import Verif.Conformance
import Verif.Model.Leaves
import Verif.Model.Update

/-!
# The repository's own tests, replayed on the model (continued)

The unit tests in src/impls and the remaining files of tests. As in `Conformance`, these are tests of the
transcription and not proofs of properties.
-/

namespace Deku.Conformance

/-- The value, `reader.rest()` and what is left of the input. -/
def leaves {α : Type} (m : M Reader α) (data : List Byte) : Res α × List Bool × List Byte :=
  match m (Reader.new { data := data }) with
  | (x, r) => (x, r.rest, r.inner.data.drop r.inner.pos)

def uint (W : Nat) (ctx : IntCtx) : M Reader Nat := Prim.readUnsigned .little W ctx

def vecOf (W : Nat) (ctx : IntCtx) (l : Limit Nat Unit) (data : List Byte) : Res (List Nat) × List Bool × List Byte :=
  leaves (Coll.vecRead 4000 W (uint W ctx) l) data

def untilIs {α : Type} (p : α → Bool) : Limit α Unit := .until (fun v _ => (p v, ())) ()

/-! ## src/impls/vec.rs -/

-- test_vec_reader_no_ctx
example : vecOf 1 .unit (.count 0) [0xaa] = (.ok [], [], [0xaa]) := by decide +kernel
example : vecOf 1 .unit (.count 1) [0xaa, 0xbb] = (.ok [0xaa], [], [0xbb]) := by decide +kernel
example : vecOf 1 .unit (.count 2) [0xaa, 0xbb, 0xcc] = (.ok [0xaa, 0xbb], [], [0xcc]) := by decide +kernel
example : vecOf 1 .unit (untilIs (· = 0)) [0xaa, 0, 0xbb] = (.ok [0xaa, 0], [], [0xbb]) := by decide +kernel
example : vecOf 1 .unit (.bits 8) [0xaa, 0xbb] = (.ok [0xaa], [], [0xbb]) := by decide +kernel

-- test_vec_reader
example : vecOf 1 (.endianBits .little 8) (.count 0) [0xaa] = (.ok [], [], [0xaa]) := by decide +kernel
example : vecOf 1 (.endianBits .little 8) (.count 1) [0xaa, 0xbb] = (.ok [0xaa], [], [0xbb]) := by decide +kernel
example : vecOf 1 (.endianBits .little 8) (.count 2) [0xaa, 0xbb, 0xcc] = (.ok [0xaa, 0xbb], [], [0xcc]) := by
  decide +kernel
example : vecOf 1 (.endian .little) (untilIs (· = 0)) [0xaa, 0, 0xbb] = (.ok [0xaa, 0], [], [0xbb]) := by decide +kernel
example : vecOf 1 (.endian .little) (.bits 8) [0xaa, 0xbb] = (.ok [0xaa], [], [0xbb]) := by decide +kernel
example : vecOf 1 (.endian .little) .end [0xaa, 0xbb] = (.ok [0xaa, 0xbb], [], []) := by decide +kernel
example : vecOf 1 (.endianBits .little 4) .end [0xf0, 0xf0] = (.ok [0xf, 0, 0xf, 0], [], []) := by decide +kernel
example : vecOf 1 (.endianBits .little 6) (.count 2) [0b01101001, 0b11101001] =
    (.ok [0b011010, 0b011110], [true, false, false, true], []) := by decide +kernel
example : (vecOf 1 (.endianBits .little 9) (.count 1) []).1 = .err .parse := by decide +kernel
example : (vecOf 1 (.endianBits .little 9) (.count 1) [0xaa]).1 = .err .parse := by decide +kernel
example : (vecOf 1 (.endianBits .little 8) (.count 2) [0xaa]).1 = .err (.incomplete 8) := by decide +kernel
example : (vecOf 1 (.endianBits .little 8) (untilIs fun _ => false) [0xaa]).1 = .err (.incomplete 8) := by decide +kernel
example : (vecOf 1 (.endianBits .little 8) (.bits 16) [0xaa]).1 = .err (.incomplete 8) := by decide +kernel
example : (vecOf 1 (.endianBits .little 9) (.count 1) [0xaa, 0xbb]).1 = .err .parse := by decide +kernel

def writeVec (W : Nat) (ctx : IntCtx) (l : List Nat) : Res (List Byte) :=
  toBytes (Coll.writeAll (Prim.writeUnsigned .little W ctx) l)

-- test_vec_write
example : writeVec 2 (.endian .little) [0xaabb, 0xccdd] = .ok [0xbb, 0xaa, 0xdd, 0xcc] := by decide +kernel

-- test_vec_reader_write, and the same tests in src/impls/boxed.rs and src/impls/arc.rs
def abcd : List Byte := [0xaa, 0xbb, 0xcc, 0xdd]
example : vecOf 2 (.endianBits .little 16) (.count 2) abcd = (.ok [0xbbaa, 0xddcc], [], []) := by decide +kernel
example : writeVec 2 (.endianBits .little 16) [0xbbaa, 0xddcc] = .ok abcd := by decide +kernel
example : vecOf 2 (.endianBits .big 16) (.count 2) abcd = (.ok [0xaabb, 0xccdd], [], []) := by decide +kernel
example : writeVec 2 (.endianBits .big 16) [0xaabb, 0xccdd] = .ok abcd := by decide +kernel
example : vecOf 2 (.endianBits .little 16) (untilIs (· = 0xbbaa)) abcd = (.ok [0xbbaa], [], [0xcc, 0xdd]) := by
  decide +kernel
example : writeVec 2 (.endianBits .little 16) [0xbbaa] = .ok [0xaa, 0xbb] := by decide +kernel
example : vecOf 2 (.endianBits .big 16) (untilIs (· = 0xaabb)) abcd = (.ok [0xaabb], [], [0xcc, 0xdd]) := by
  decide +kernel
example : writeVec 2 (.endianBits .big 16) [0xaabb] = .ok [0xaa, 0xbb] := by decide +kernel
example : vecOf 2 (.endianBits .little 16) (.bits 16) abcd = (.ok [0xbbaa], [], [0xcc, 0xdd]) := by decide +kernel
example : vecOf 2 (.endianBits .big 16) (.bits 16) abcd = (.ok [0xaabb], [], [0xcc, 0xdd]) := by decide +kernel

-- read_exact_tests
example : leaves (Coll.readExact 4) abcd = (.ok abcd, [], []) := by decide +kernel
example : leaves (Coll.readExact 2) abcd = (.ok [0xaa, 0xbb], [], [0xcc, 0xdd]) := by decide +kernel
example : (leaves (Coll.readExact 10) [0xaa, 0xbb]).1 = .err (.incomplete 80) := by decide +kernel
example : (leaves (Coll.readExact 1) []).1 = .err (.incomplete 8) := by decide +kernel
example : (leaves (Coll.readExact 0) [0xaa]).1 = .ok [] := by decide +kernel
example : (leaves (Coll.readExact 1073741824) [1, 2, 3]).1 = .err (.incomplete (1073741824 * 8)) := by decide +kernel

/-! ## src/impls/slice.rs -/

-- test_bit_read, test_bit_write, test_nested_array_bit_write
def dcba : List Byte := [0xdd, 0xcc, 0xbb, 0xaa]
example : (leaves (Coll.arrayRead (uint 2 (.endian .little)) 2) dcba).1 = .ok [0xccdd, 0xaabb] := by decide +kernel
example : (leaves (Coll.arrayRead (uint 2 (.endian .big)) 2) dcba).1 = .ok [0xddcc, 0xbbaa] := by decide +kernel
example : (leaves (Coll.arrayRead (uint 2 (.endian .big)) 2) [0xdd, 0xcc]).1 = .err (.incomplete 16) := by decide +kernel
example : writeVec 2 (.endian .little) [0xddcc, 0xbbaa] = .ok [0xcc, 0xdd, 0xaa, 0xbb] := by decide +kernel
example : writeVec 2 (.endian .big) [0xddcc, 0xbbaa] = .ok dcba := by decide +kernel
example : write (.array 2 (.array 2 (u 2 (.endian .little)))) (.ofList [nums [0xccdd, 0xaabb], nums [0x8899, 0x6677]]) =
    .ok [0xdd, 0xcc, 0xbb, 0xaa, 0x99, 0x88, 0x77, 0x66] := by decide +kernel
example : write (.array 2 (.array 2 (u 2 (.endian .big)))) (.ofList [nums [0xddcc, 0xbbaa], nums [0x9988, 0x7766]]) =
    .ok [0xdd, 0xcc, 0xbb, 0xaa, 0x99, 0x88, 0x77, 0x66] := by decide +kernel

/-! ## src/impls/hashmap.rs -/

def mapOf (ctx : IntCtx) (l : Limit (Nat × Nat) Unit) (data : List Byte) :
    Res (List (Nat × Nat)) × List Bool × List Byte :=
  leaves (Coll.mapRead 4000 (Coll.pairRead (uint 1 ctx) (uint 1 ctx)) l) data

-- test_hashmap_read
example : mapOf (.endianBits .little 8) (.count 0) [0xaa] = (.ok [], [], [0xaa]) := by decide +kernel
example : mapOf (.endianBits .little 8) (.count 1) [1, 0xaa, 2, 0xbb] = (.ok [(1, 0xaa)], [], [2, 0xbb]) := by
  decide +kernel
example : mapOf (.endianBits .little 8) (.count 2) [1, 0xaa, 2, 0xbb, 0xbb] =
    (.ok [(1, 0xaa), (2, 0xbb)], [], [0xbb]) := by decide +kernel
example : mapOf (.endian .little) (untilIs fun kv => kv.1 = 0 && kv.2 = 0) [1, 0xaa, 0, 0, 0xbb] =
    (.ok [(1, 0xaa), (0, 0)], [], [0xbb]) := by decide +kernel
example : mapOf (.endian .little) (.bits 0) [1, 0xaa, 0xbb] = (.ok [], [], [1, 0xaa, 0xbb]) := by decide +kernel
example : mapOf (.endian .little) (.bytes 0) [1, 0xaa, 0xbb] = (.ok [], [], [1, 0xaa, 0xbb]) := by decide +kernel
example : mapOf (.endian .little) (.bits 16) [1, 0xaa, 0xbb] = (.ok [(1, 0xaa)], [], [0xbb]) := by decide +kernel
example : mapOf (.endian .little) .end [1, 0xaa] = (.ok [(1, 0xaa)], [], []) := by decide +kernel
example : mapOf (.endian .little) (.bytes 2) [1, 0xaa, 0xbb] = (.ok [(1, 0xaa)], [], [0xbb]) := by decide +kernel
example : mapOf (.endian .little) (.count 1) [1, 0xaa, 0xbb] = (.ok [(1, 0xaa)], [], [0xbb]) := by decide +kernel
example : mapOf (.endianBits .little 6) (.count 2) [0b00000100, 0b11110000, 0b10000000] =
    (.ok [(1, 0xf), (2, 0)], [], []) := by decide +kernel
example : (mapOf (.endianBits .little 9) (.count 1) []).1 = .err .parse := by decide +kernel
example : (mapOf (.endianBits .little 9) (.count 1) [0xaa]).1 = .err .parse := by decide +kernel
example : (mapOf (.endianBits .little 8) (.count 2) [0xaa]).1 = .err (.incomplete 8) := by decide +kernel
example : (mapOf (.endianBits .little 8) (untilIs fun _ => false) [0xaa]).1 = .err (.incomplete 8) := by decide +kernel
example : (mapOf (.endianBits .little 8) (.bits 16) [0xaa]).1 = .err (.incomplete 8) := by decide +kernel
example : (mapOf (.endianBits .little 9) (.count 1) [0xaa, 0xbb]).1 = .err .parse := by decide +kernel

-- test_hashmap_write; the order is that of the iteration
example : toBytes (Coll.mapWrite (Prim.writeUnsigned .little 1 (.endian .little))
    (Prim.writeUnsigned .little 2 (.endian .little)) [(0x23, 0xccdd), (0x11, 0xaabb)]) =
    .ok [0x23, 0xdd, 0xcc, 0x11, 0xbb, 0xaa] := by decide +kernel

/-! ## src/impls/hashset.rs -/

def setOf (W : Nat) (ctx : IntCtx) (l : Limit Nat Unit) (data : List Byte) : Res (List Nat) × List Bool × List Byte :=
  leaves (Coll.setRead 4000 (uint W ctx) l) data

-- test_hashset_read
example : setOf 1 (.endianBits .little 8) (.count 0) [0xaa] = (.ok [], [], [0xaa]) := by decide +kernel
example : setOf 1 (.endianBits .little 8) (.count 1) [0xaa, 0xbb] = (.ok [0xaa], [], [0xbb]) := by decide +kernel
example : setOf 1 (.endianBits .little 8) (.count 2) [0xaa, 0xbb, 0xcc] = (.ok [0xaa, 0xbb], [], [0xcc]) := by
  decide +kernel
example : setOf 1 (.endian .little) (untilIs (· = 0)) [0xaa, 0, 0xbb] = (.ok [0xaa, 0], [], [0xbb]) := by decide +kernel
example : setOf 1 (.endian .little) (.bits 0) [0xaa, 0xbb] = (.ok [], [], [0xaa, 0xbb]) := by decide +kernel
example : setOf 1 (.endian .little) (.bytes 0) [0xaa, 0xbb] = (.ok [], [], [0xaa, 0xbb]) := by decide +kernel
example : setOf 1 (.endian .little) (.bits 8) [0xaa, 0xbb] = (.ok [0xaa], [], [0xbb]) := by decide +kernel
example : setOf 1 (.endian .little) .end [0xaa, 0xbb] = (.ok [0xaa, 0xbb], [], []) := by decide +kernel
example : setOf 1 (.endian .little) (.bytes 1) [0xaa, 0xbb] = (.ok [0xaa], [], [0xbb]) := by decide +kernel
example : setOf 1 (.endian .little) (.count 1) [0xaa, 0xbb] = (.ok [0xaa], [], [0xbb]) := by decide +kernel
example : setOf 1 (.endianBits .little 6) (.count 2) [0b01101001, 0b11101001] =
    (.ok [0b011010, 0b011110], [true, false, false, true], []) := by decide +kernel
example : (setOf 1 (.endianBits .little 9) (.count 1) []).1 = .err .parse := by decide +kernel
example : (setOf 1 (.endianBits .little 8) (.count 2) [0xaa]).1 = .err (.incomplete 8) := by decide +kernel
example : (setOf 1 (.endianBits .little 8) (untilIs fun _ => false) [0xaa]).1 = .err (.incomplete 8) := by decide +kernel
example : (setOf 1 (.endianBits .little 8) (.bits 16) [0xaa]).1 = .err (.incomplete 8) := by decide +kernel
example : (setOf 1 (.endianBits .little 9) (.count 1) [0xaa, 0xbb]).1 = .err .parse := by decide +kernel

-- test_hashset_read_write
example : setOf 2 (.endianBits .little 16) (.count 2) abcd = (.ok [0xbbaa, 0xddcc], [], []) := by decide +kernel
example : setOf 2 (.endianBits .big 16) (.count 2) abcd = (.ok [0xaabb, 0xccdd], [], []) := by decide +kernel
example : setOf 2 (.endianBits .little 16) (untilIs (· = 0xbbaa)) abcd = (.ok [0xbbaa], [], [0xcc, 0xdd]) := by
  decide +kernel
example : setOf 2 (.endianBits .big 16) (.bits 16) abcd = (.ok [0xaabb], [], [0xcc, 0xdd]) := by decide +kernel

/-! ## src/impls/cstring.rs, tests/test_cstring.rs -/

def testNul : List Byte := [116, 101, 115, 116, 0]
def test : List Byte := [116, 101, 115, 116]

-- test_cstring_count
example : leaves (Coll.cstringReadSized .little 4000 5) testNul = (.ok test, [], []) := by decide +kernel
example : leaves (Coll.cstringRead .little 4000) testNul = (.ok test, [], []) := by decide +kernel
example : leaves (Coll.cstringReadSized .little 4000 5) (testNul ++ [97]) = (.ok test, [], [97]) := by decide +kernel
example : leaves (Coll.cstringRead .little 4000) (testNul ++ [97]) = (.ok test, [], [97]) := by decide +kernel
example : (leaves (Coll.cstringReadSized .little 4000 4) test).1 = .err .parse := by decide +kernel
example : (leaves (Coll.cstringReadSized .little 4000 5) test).1 = .err (.incomplete 8) := by decide +kernel
example : (leaves (Coll.cstringRead .little 4000) test).1 = .err (.incomplete 8) := by decide +kernel
example : toBytes (Coll.cstringWrite .little .unit test) = .ok testNul := by decide +kernel

-- test_cstring_no_ctx, test_cstring_bytes, test_cstring_valid_bytes, test_cstring_trailing_nul
def cstr : Ty := .prim none fun _ => cstringCodec .little 4000
def cstrN (n : Env → Nat) : Ty := .prim none fun env => cstringSizedCodec .little 4000 (n env)
example : parse (struct [cstr]) testNul = .ok (([], 0), .ofList [nums [116, 101, 115, 116]]) := by decide +kernel
example : parse (struct [u 1, cstrN fun env => (var 0 env).toNat]) (5 :: testNul) =
    .ok (([], 0), .ofList [.num 5, nums [116, 101, 115, 116]]) := by decide +kernel
example : parse (struct [cstrN fun _ => 5]) testNul = .ok (([], 0), .ofList [nums [116, 101, 115, 116]]) := by
  decide +kernel
example : parse (struct [cstrN fun _ => 6]) (testNul ++ [0]) = .err .parse := by decide +kernel

/-! ## src/impls/nonzero.rs, bool.rs, option.rs, ipaddr.rs, boxed.rs, arc.rs, tuple.rs -/

-- test_non_zero
def nz : Ty := .prim (some 8) fun _ => nonzeroCodec .little 1 .unit
example : read nz [0xff] = .ok (.num 0xff) := by decide +kernel
example : write nz (.num 0xff) = .ok [0xff] := by decide +kernel
example : read nz [0] = .err .parse := by decide +kernel

-- test_bool, test_bool_with_context, test_writer_bits, test_writer
def boolT (ctx : IntCtx) : Ty := .prim (some 8) fun _ => boolCodec .little ctx
example : read (boolT .unit) [0] = .ok (.num 0) := by decide +kernel
example : read (boolT .unit) [1] = .ok (.num 1) := by decide +kernel
example : read (boolT .unit) [2] = .err .parse := by decide +kernel
example : (leaves (Coll.boolRead (uint 1 (.bits 2))) [0b01000000]).1 = .ok true := by decide +kernel
example : (Coll.boolWrite (Prim.writeUnsigned .little 1 (.bits 1)) true (Writer.new {})).2.rest = [true] := by
  decide +kernel
example : write (boolT .unit) (.num 1) = .ok [1] := by decide +kernel
example : write (boolT .unit) (.num 0) = .ok [0] := by decide +kernel

-- test_option_read, test_option_write
example : read (.option (u 4 (.endian .little))) [1, 2, 3, 4] = .ok (.some (.num 0x04030201)) := by decide +kernel
example : write (.option (boolT .unit)) (.some (.num 1)) = .ok [1] := by decide +kernel

-- test_ipv4, test_ipv6, test_ip_addr_write
example : read (u 4 (.endian .little)) [237, 160, 254, 145] = .ok (.num (((145 * 256 + 254) * 256 + 160) * 256 + 237)) := by
  decide +kernel
example : read (u 4 (.endian .big)) [145, 254, 160, 237] = .ok (.num (((145 * 256 + 254) * 256 + 160) * 256 + 237)) := by
  decide +kernel
example : write (u 4 (.endian .little)) (.num 0x91fea0ed) = .ok [237, 160, 254, 145] := by decide +kernel
example : read (u 16 (.endian .little)) [0xff, 0x02, 0x0a, 0xc0, 0xff, 0xff, 0, 0, 0, 0, 0, 0, 0, 0, 0, 0] =
    .ok (.num 0xffffc00a02ff) := by decide +kernel
example : read (u 16 (.endian .big)) [0, 0, 0, 0, 0, 0, 0, 0, 0, 0, 0xff, 0xff, 0xc0, 0x0a, 0x02, 0xff] =
    .ok (.num 0xffffc00a02ff) := by decide +kernel
example : write (u 16 (.endian .little)) (.num 0xffffc00a02ff) =
    .ok [0xff, 0x02, 0x0a, 0xc0, 0xff, 0xff, 0, 0, 0, 0, 0, 0, 0, 0, 0, 0] := by decide +kernel

-- test_boxed (boxed.rs and arc.rs): the value of the box itself
example : read (u 2) [0xef, 0xbe] = .ok (.num 0xbeef) := by decide +kernel
example : write (u 2) (.num 0xbeef) = .ok [0xef, 0xbe] := by decide +kernel

-- test_tuple_write; a tuple of eleven elements is a pair of its first and the others
example : write (.pair (boolT .unit) (u 4)) (.ofList [.num 1, .num 0x829824]) = .ok [1, 0x24, 0x98, 0x82, 0] := by
  decide +kernel

/-! ## tests/test_tuple.rs, test_box.rs, test_generic.rs -/

def tupleEnum : Ty := .enum (fun _ => []) [] u8Id (fun _ _ => u8c.write) <|
  .cons { pat := isNum 1, id := some (.num 1) } (fields [.pair (u 1) (u 2)]) .nil
example : read tupleEnum [1, 0xab, 0xff, 0xaa] = .ok (.variant 0 (.ofList [nums [0xab, 0xaaff]])) := by decide +kernel
example : write tupleEnum (.variant 0 (.ofList [nums [0xab, 0xaaff]])) = .ok [1, 0xab, 0xff, 0xaa] := by decide +kernel
example : tupleEnum.size = some 32 := by decide +kernel
example : read (struct [u 1]) [0xf0] = .ok (nums [0xf0]) := by decide +kernel
example : write (struct [u 1]) (nums [0xf0]) = .ok [0xf0] := by decide +kernel
def genericEnum : Ty := .enum (fun _ => []) [] u8Id (fun _ _ => u8c.write) <|
  .cons { pat := isNum 1, id := some (.num 1) } (fields [u 1]) .nil
example : read genericEnum [1, 2] = .ok (.variant 0 (nums [2])) := by decide +kernel
example : write genericEnum (.variant 0 (nums [2])) = .ok [1, 2] := by decide +kernel

/-! ## tests/test_attributes -/

-- test_assert.rs
def assertT : Ty := structOf <| .cons {} (u 1) <|
  .cons { assert := fun env v => match v with | .num n => decide (3 ≤ var 0 env + n) | _ => false } (u 1) .nil
example : read assertT [1, 2] = .ok (nums [1, 2]) := by decide +kernel
example : read assertT [1, 1] = .err .assertion := by decide +kernel
example : write assertT (nums [1, 2]) = .ok [1, 2] := by decide +kernel
example : write assertT (nums [1, 1]) = .err .assertion := by decide +kernel

-- test_assert_eq.rs
def assertEqT : Ty := structOf <| .cons {} (u 1) <| .cons { assertEq := fun env => some (.num (var 0 env)) } (u 1) .nil
example : read assertEqT [1, 1] = .ok (nums [1, 1]) := by decide +kernel
example : read assertEqT [1, 2] = .err .assertion := by decide +kernel
example : write assertEqT (nums [1, 1]) = .ok [1, 1] := by decide +kernel
example : write assertEqT (nums [1, 2]) = .err .assertion := by decide +kernel

-- test_map.rs; the decimal digits of the number in place of the string
def digits : Env → Val → Except DekuError Val := fun _ v =>
  match v with
  | .num n => .ok (.ofList ((toString n).toList.map fun c => .num c.toNat))
  | _ => .error .parse
example : read (structOf <| .cons { map := digits } (u 1) <| .cons { map := digits } (u 1) .nil) [1, 2] =
    .ok (.ofList [nums [49], nums [50]]) := by decide +kernel

-- test_update.rs
def toU8 (n : Int) : Except DekuError Val := if 0 ≤ n ∧ n < 256 then .ok (.num n) else .error .parse
def updateT (n : Int) : Ty := structOf <| .cons { update := some fun _ => toU8 n } (u 1) .nil
example : (updateT 5).update (nums [1]) = (.ok (), nums [5]) := by decide +kernel
example : write (updateT 5) (nums [5]) = .ok [5] := by decide +kernel
example : ((updateT 256).update (nums [1])).1 = .err .parse := by decide +kernel
def dataLen (all : Val) : Except DekuError Val :=
  match all.elems[1]? with
  | some l => toU8 l.elems.length
  | none => .error .parse
def countedT : Ty := structOf <| .cons { update := some dataLen } (u 1) (fields [.bytes (var 0) fun _ => .unit])
example : read countedT [2, 0xaa, 0xbb] = .ok (.ofList [.num 2, nums [0xaa, 0xbb]]) := by decide +kernel
example : countedT.update (.ofList [.num 2, nums [0xaa, 0xbb, 0xff]]) =
    (.ok (), .ofList [.num 3, nums [0xaa, 0xbb, 0xff]]) := by decide +kernel
example : write countedT (.ofList [.num 3, nums [0xaa, 0xbb, 0xff]]) = .ok [3, 0xaa, 0xbb, 0xff] := by decide +kernel

-- test_limits/test_bytes_read.rs
def bytesReadT : Ty := struct [u 1, .vec 1 (.bytes (var 0)) (u 1)]
example : read (struct [.vec 1 (.bytes fun _ => 2) (u 1)]) [0xaa, 0xbb] = .ok (.ofList [nums [0xaa, 0xbb]]) := by
  decide +kernel
example : read bytesReadT [2, 0xaa, 0xbb] = .ok (.ofList [.num 2, nums [0xaa, 0xbb]]) := by decide +kernel
example : read bytesReadT [3, 0xaa, 0xbb] = .err (.incomplete 8) := by decide +kernel
example : read (struct [.vec 1 (.bytes fun _ => 0) (u 1)]) [] = .ok (.ofList [.nil]) := by decide +kernel
def bytesReadT16 : Ty := struct [u 1, .vec 2 (.bytes (var 0)) (u 2 (.endian .little))]
example : read bytesReadT16 [2, 0xaa, 0xbb] = .ok (.ofList [.num 2, nums [0xbbaa]]) := by decide +kernel
example : read bytesReadT16 [3, 0xaa, 0xbb] = .err (.incomplete 16) := by decide +kernel
example : write bytesReadT16 (.ofList [.num 2, nums [0xbbaa]]) = .ok [2, 0xaa, 0xbb] := by decide +kernel

-- test_limits/test_read_all.rs
def allT : Ty := .vec 1 .end (u 1)
example : read (struct [allT]) [0xaa, 0xbb] = .ok (.ofList [nums [0xaa, 0xbb]]) := by decide +kernel
example : read (struct [u 1, allT]) [0xff, 0xaa, 0xbb] = .ok (.ofList [.num 0xff, nums [0xaa, 0xbb]]) := by
  decide +kernel
example : write (struct [u 1, allT]) (.ofList [.num 0xff, nums [0xaa, 0xbb]]) = .ok [0xff, 0xaa, 0xbb] := by
  decide +kernel
example : read (struct [u 8 (.bits 40), u 1, u 2, allT]) [1, 1, 1, 1, 1, 0, 2, 2, 0, 0, 0] =
    .ok (.ofList [.num 0x101010101, .num 0, .num 0x202, nums [0, 0, 0]]) := by decide +kernel

-- test_ctx.rs: test_ctx_struct
def ctxNum (i : Nat) (env : Env) : Int :=
  match env.ctx[i]? with
  | some (.num n) => n
  | _ => 0
def shifted : Ty := .prim none fun env =>
  { read := do
      let c ← Prim.readUnsigned .little 1 .unit
      pure (.num (ctxNum 0 env + ctxNum 1 env + c))
    write := fun v =>
      match v with
      | .num n => Prim.writeUnsigned .little 1 .unit (n - ctxNum 0 env - ctxNum 1 env).toNat
      | _ => M.panic }
def fieldCtx : Ty := structOf <| .cons {} (u 1) <| .cons {} (u 1) <|
  .cons {} (.struct (fun env => [.num (var 1 env + 1), .num (var 0 env)]) none [] (fields [shifted])) .nil
example : read fieldCtx [1, 2, 3] = .ok (.ofList [.num 1, .num 2, nums [7]]) := by decide +kernel
example : write fieldCtx (.ofList [.num 1, .num 2, nums [7]]) = .ok [1, 2, 3] := by decide +kernel

-- test_top_level_ctx_enum, test_top_level_ctx_enum_default
def topCtx : Ty := .enum (fun _ => [.num 1, .num 2]) [] u8Id (fun _ _ => u8c.write) <|
  .cons { pat := isNum 1, id := some (.num 1) } (fields [shifted]) .nil
example : read topCtx [1, 3] = .ok (.variant 0 (nums [6])) := by decide +kernel
example : write topCtx (.variant 0 (nums [6])) = .ok [1, 3] := by decide +kernel

-- test_struct_enum_ctx_id
def isNums (l : List Int) : Env → Val → Bool := fun _ v => decide (v = nums l)
def enumIds : Ty := .enum (fun env => [.num (var 1 env), .num (var 0 env)]) []
    (.ctx fun env => .ofList env.ctx) (fun _ _ => u8c.write) <|
  .cons { pat := isNums [1, 1], id := some (nums [1, 1]) } (fields [u 1]) <|
  .cons { pat := isNums [2, 2], id := some (nums [2, 2]) } .nil <|
  .cons { pat := isNums [2, 3], id := some (nums [2, 3]) } (fields [u 1]) <|
  .cons { pat := fun _ _ => true, id := none, idPat := true } (fields [u 1]) .nil
def enumJustId : Ty := .enum (fun env => [.num (var 2 env)]) []
    (.ctx fun env => env.ctx.headD .nil) (fun _ _ _ => M.panic) <|
  .cons { pat := isNum 1, id := some (.num 1) } (fields [u 1]) <|
  .cons { pat := isNum 2, id := some (.num 2) } .nil .nil
def structEnumId : Ty := struct [u 1, u 8 (.bytes 1), enumIds, enumJustId]
example : read structEnumId [1, 1, 0xab, 0xab] =
    .ok (.ofList [.num 1, .num 1, .variant 0 (nums [0xab]), .variant 0 (nums [0xab])]) := by decide +kernel
example : write structEnumId (.ofList [.num 1, .num 1, .variant 0 (nums [0xab]), .variant 0 (nums [0xab])]) =
    .ok [1, 1, 0xab, 0xab] := by decide +kernel
example : read structEnumId [2, 2] = .ok (.ofList [.num 2, .num 2, .variant 1 .nil, .variant 1 .nil]) := by
  decide +kernel
example : write structEnumId (.ofList [.num 2, .num 2, .variant 1 .nil, .variant 1 .nil]) = .ok [2, 2] := by
  decide +kernel
example : read structEnumId [2, 3, 0xcc] =
    .ok (.ofList [.num 2, .num 3, .variant 2 (nums [0xcc]), .variant 1 .nil]) := by decide +kernel
example : write structEnumId (.ofList [.num 2, .num 3, .variant 2 (nums [0xcc]), .variant 1 .nil]) =
    .ok [2, 3, 0xcc] := by decide +kernel
example : read structEnumId [2, 0xff, 0xcc] =
    .ok (.ofList [.num 2, .num 0xff, .variant 3 (nums [0xcc]), .variant 1 .nil]) := by decide +kernel
example : write structEnumId (.ofList [.num 2, .num 0xff, .variant 3 (nums [0xcc]), .variant 1 .nil]) =
    .ok [2, 0xff, 0xcc] := by decide +kernel

-- test_ctx_default_struct
def optIf (i : Nat) : Fields → Fields :=
  .cons { cond := some fun env => decide (ctxNum i env = 1), default := fun _ => .none } (.option (u 1))
def ctxDefault : Ty := .struct (fun _ => [.num 1, .num 2]) none [] (optIf 0 (optIf 1 .nil))
example : read ctxDefault [0xff] = .ok (.ofList [.some (.num 0xff), .none]) := by decide +kernel
example : write ctxDefault (.ofList [.some (.num 0xff), .none]) = .ok [0xff] := by decide +kernel

-- test_enum_endian_ctx
def endianEnum : Ty := .enum (fun _ => []) [] (.typed (some 32) fun _ => uintCodec .little 4 (.endian .big))
    (fun _ _ => (uintCodec .little 4 (.endian .big)).write) <|
  .cons { pat := isNum 0xdeadbeef, id := some (.num 0xdeadbeef) } (fields [u 1 (.endian .big)]) .nil
example : read (struct [endianEnum]) [0xde, 0xad, 0xbe, 0xef, 0xff] = .ok (.ofList [.variant 0 (nums [0xff])]) := by
  decide +kernel
example : write (struct [endianEnum]) (.ofList [.variant 0 (nums [0xff])]) = .ok [0xde, 0xad, 0xbe, 0xef, 0xff] := by
  decide +kernel

/-! ## tests/test_bit_container_size.rs -/

def containerT : Ty := struct [u 1 (.endianBits .big 4), u 2 (.endianBits .big 4), u 4 (.endianBits .little 12),
  u 4 (.endianBits .big 9)]
example : write containerT (nums [0b11111, 0, 0, 0]) = .err .invalidParam := by decide +kernel
example : write containerT (nums [0, 0b11111, 0, 0]) = .err .invalidParam := by decide +kernel
example : write containerT (nums [0, 0, 0b1111111111111, 0]) = .err .invalidParam := by decide +kernel
example : write containerT (nums [0, 0, 0, 0b1111111111111]) = .err .invalidParam := by decide +kernel

end Deku.Conformance
