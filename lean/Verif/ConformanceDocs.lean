import Verif.ConformanceImpls
import Verif.Model.Source

/-!
# The examples in the documentation, replayed on the model

The examples of src/attributes.rs and src/lib.rs, written as they are in the source (`STy`), so that the
translation from attributes to code is tested too; those with attributes that `STy` does not have are written as
types (`Ty`). As in `Conformance`, these are tests of the transcription and not proofs of properties.
-/

namespace Deku.Conformance

open Deku

def su (W : Nat) : STy := .base (.uint W)

def sfields : List (SAttrs × STy) → SFields
  | [] => .nil
  | (a, t) :: l => .cons a t (sfields l)

def sstruct (c : Container) (l : List (SAttrs × STy)) : STy := .struct c (sfields l)

def svariants : List (VKind × List (SAttrs × STy)) → SVariants
  | [] => .nil
  | (k, l) :: vs => .cons { kind := k } (sfields l) (svariants vs)

/-- What the source stands for; a type without fields if it does not compile. -/
def ty (t : STy) : Ty :=
  match t.compile with
  | some d => d.toTy mach
  | none => .prim none fun _ => ⟨M.panic, fun _ => M.panic⟩

def sread (t : STy) (data : List Byte) : Res Val := read (ty t) data
def swrite (t : STy) (v : Val) : Res (List Byte) := write (ty t) v
def sparse (t : STy) (data : List Byte) : Res ((List Byte × Nat) × Val) := parse (ty t) data

/-- The value is read from exactly these bytes, and written as them. -/
def both (t : STy) (data : List Byte) (v : Val) : Bool :=
  decide (sread t data = .ok v) && decide (swrite t v = .ok data)

def bigA : SAttrs := { endian := some (.lit .big) }

/-! ## src/attributes.rs -/

-- endian
example : both (sstruct { endian := some (.lit .little) } [(bigA, su 2), ({}, su 2)]) [0xab, 0xcd, 0xab, 0xcd]
    (nums [0xabcd, 0xcdab]) = true := by decide +kernel
def endianChild : STy := sstruct { params := [.endian], endian := some (.arg 0) } [({}, su 2)]
def networkBuffer : STy := sstruct { params := [.endian], endian := some (.lit .big) }
  [({}, su 1), ({}, su 2), ({ count := some (.field 0) }, .vec false (su 1))]
example : both (sstruct { endian := some (.lit .little) } [(bigA, su 2), ({}, su 2), ({}, endianChild), ({}, networkBuffer)])
    [0xab, 0xcd, 0xab, 0xcd, 0xef, 0xbe, 0, 0, 4, 0xde, 0xad, 0xbe, 0xef]
    (.ofList [.num 0xabcd, .num 0xcdab, nums [0xbeef], .ofList [.num 0, .num 4, nums [0xde, 0xad, 0xbe, 0xef]]]) = true := by
  decide +kernel
-- without `ctx` in the child: "mismatched types, expected `()`, found `Endian`"
example : (sstruct { endian := some (.lit .little) } [({}, sstruct {} [({}, su 2)])]).compile.isNone = true := by
  decide +kernel

-- bit_order
example : both (sstruct { order := some (.lit .lsb0) }
      [({ bits := some 4 }, su 1), ({ bits := some 12 }, su 2), ({}, su 1), ({}, su 1), ({}, su 4), ({}, su 4)])
    [0x31, 0x12, 4, 5, 6, 0, 0, 0, 7, 0, 0, 0] (nums [1, 0x123, 4, 5, 6, 7]) = true := by decide +kernel
def orderChild : STy := sstruct { params := [.endian, .order], endian := some (.lit .big), order := some (.lit .msb0) }
  [({}, su 1), ({ bits := some 1 }, .base .bool), ({ bits := some 1 }, .base .bool), ({ bits := some 1 }, .base .bool),
    ({ bits := some 5 }, su 1)]
example : both (sstruct { endian := some (.lit .big), order := some (.lit .lsb0) }
      [({ bits := some 13 }, su 2), ({ bits := some 3 }, su 1), ({}, orderChild)])
    [0x10, 0x81, 0xab, 0b10010110]
    (.ofList [.num 0x1001, .num 0b100, nums [0xab, 1, 0, 0, 0b10110]]) = true := by decide +kernel
example : both (sstruct {} [({ order := some (.lit .lsb0), bits := some 13 }, su 2),
      ({ order := some (.lit .lsb0), bits := some 3 }, su 1)]) [0x40, 0x40] (nums [0x40, 2]) = true := by decide +kernel

-- magic
example : both (sstruct { magic := deku } [({}, su 1)]) (deku ++ [50]) (nums [50]) = true := by decide +kernel
example : both (sstruct {} [({ magic := deku }, su 1)]) (deku ++ [50]) (nums [50]) = true := by decide +kernel

-- seek_from_current
def seekCurrent : Ty := structOf <| .cons {} (u 1) <| .cons (seek fun env => .current (var 0 env)) (u 1) .nil
example : read seekCurrent [1, 0, 2] = .ok (nums [1, 2]) := by decide +kernel
example : write seekCurrent (nums [1, 2]) = .ok [1, 0, 2] := by decide +kernel
def seekCurrentCtx : Ty := .struct (fun _ => [.num 1]) (some fun env => some (.current (ctxNum 0 env))) [] (fields [u 1])
example : value seekCurrentCtx [0, 2] = .ok (nums [2]) := by decide +kernel
example : write seekCurrentCtx (nums [2]) = .ok [0, 2] := by decide +kernel

-- seek_from_end, seek_from_start
def writeInto (t : Ty) (v : Val) (data : List Byte) : List Byte := (t.write mach {} v (Writer.new { data := data })).2.inner.data
def seekEnd : Ty := structOf (.cons (seek fun _ => .end (-2)) (u 1) .nil)
example : value seekEnd [1, 0xff, 2] = .ok (nums [0xff]) := by decide +kernel
example : writeInto seekEnd (nums [0xff]) [1, 0, 2] = [1, 0xff, 2] := by decide +kernel
example : value (seekStruct (.end (-2))) [1, 0xff, 2] = .ok (nums [0xff]) := by decide +kernel
example : writeInto (seekStruct (.end (-2))) (nums [0xff]) [1, 0, 2] = [1, 0xff, 2] := by decide +kernel
def seekStart : Ty := structOf (.cons (seek fun _ => .start 2) (u 1) .nil)
example : value seekStart [1, 0xff, 2] = .ok (nums [2]) := by decide +kernel
example : writeInto seekStart (nums [2]) [1, 0xff, 0] = [1, 0xff, 2] := by decide +kernel
example : value (seekStruct (.start 2)) [1, 0xff, 2] = .ok (nums [2]) := by decide +kernel
example : writeInto (seekStruct (.start 2)) (nums [2]) [1, 0xff, 0] = [1, 0xff, 2] := by decide +kernel

-- seek_rewind
def rewind : Ty := structOf <| .cons {} (u 1) <| .cons (seek fun _ => .start 0) (u 1) .nil
example : value rewind [0xff] = .ok (nums [0xff, 0xff]) := by decide +kernel
example : write rewind (nums [0xff, 0xff]) = .ok [0xff] := by decide +kernel
example : value (seekStruct (.start 0)) [0xff] = .ok (nums [0xff]) := by decide +kernel
example : write (seekStruct (.start 0)) (nums [0xff]) = .ok [0xff] := by decide +kernel

-- assert, assert_eq
example : read (structOf (.cons { assert := fun _ v => match v with | .num n => decide (8 ≤ n) | _ => false } (u 1) .nil))
    [0, 1, 2] = .err .assertion := by decide +kernel
def eqOne : STy := sstruct {} [({ assertEq := some (.lit 1) }, su 1)]
example : sread eqOne [1] = .ok (nums [1]) := by decide +kernel
example : swrite eqOne (nums [2]) = .err .assertion := by decide +kernel

-- bits, bytes
example : both (sstruct {} [({ bits := some 2 }, su 1), ({ bits := some 6 }, su 1), ({}, su 1)]) [0b11_101010, 0xff]
    (nums [0b11, 0b101010, 0xff]) = true := by decide +kernel
def bitsOfField : Ty := struct [u 1, .prim none fun env => uintCodec .little 1 (.bits (var 0 env).toNat), u 1 (.bits 6)]
example : read bitsOfField [2, 0b11_101010] = .ok (nums [2, 0b11, 0b101010]) := by decide +kernel
example : write bitsOfField (nums [2, 0b11, 0b101010]) = .ok [2, 0b11_101010] := by decide +kernel
example : both (sstruct {} [({ bytes := some 2 }, su 4), ({}, su 1)]) [0xab, 0xcd, 0xff] (nums [0xcdab, 0xff]) = true := by
  decide +kernel
def bytesOfField : Ty := struct [u 1, .prim none fun env => uintCodec .little 4 (.bytes (var 0 env).toNat)]
example : read bytesOfField [3, 1, 2, 3] = .ok (nums [3, 0x030201]) := by decide +kernel
example : write bytesOfField (nums [3, 0x030201]) = .ok [3, 1, 2, 3] := by decide +kernel

-- count, update
def countedS : STy := sstruct {} [({}, su 1), ({ count := some (.field 0) }, .vec false (su 1))]
example : both countedS [2, 0xab, 0xcd] (.ofList [.num 2, nums [0xab, 0xcd]]) = true := by decide +kernel
example : ((ty countedS).updating [[some ⟨1, 1⟩]]).update (.ofList [.num 2, nums [0xab, 0xcd, 0xff]]) =
    (.ok (), .ofList [.num 3, nums [0xab, 0xcd, 0xff]]) := by decide +kernel
example : swrite countedS (.ofList [.num 3, nums [0xab, 0xcd, 0xff]]) = .ok [3, 0xab, 0xcd, 0xff] := by decide +kernel

-- bytes_read
def inner2 : STy := sstruct {} [({}, su 1), ({}, su 1)]
def bytesReadS : STy := sstruct {} [({}, su 1), ({ bytesRead := some (.field 0) }, .vec false inner2)]
def bytesReadV : Val := .ofList [.num 4, .ofList [nums [0xab, 0xbc], nums [0xde, 0xef]]]
example : both bytesReadS [4, 0xab, 0xbc, 0xde, 0xef] bytesReadV = true := by decide +kernel

-- until, read_all
example : sread (sstruct {} [({ untilEq := some 0 }, .vec false (su 1))]) [0x48, 0x65, 0x6c, 0x6c, 0x6f, 0] =
    .ok (.ofList [nums [0x48, 0x65, 0x6c, 0x6c, 0x6f, 0]]) := by decide +kernel
example : both (sstruct {} [({ readAll := true }, .vec false inner2)]) [0xab, 0xbc, 0xde, 0xef]
    (.ofList [.ofList [nums [0xab, 0xbc], nums [0xde, 0xef]]]) = true := by decide +kernel

-- temp, temp_value
def tempItems (v : Option (Val → Val)) : Ty :=
  structOf (.temp {} (u 1) v (fields [.vec 2 (.count (var 0)) (u 2 (.endian .big))]))
example : read (tempItems none) [1, 0xbe, 0xef] = .ok (.ofList [nums [0xbeef]]) := by decide +kernel
example : write (tempItems none) (.ofList [nums [0xbeef]]) = .ok [0xbe, 0xef] := by decide +kernel
example : swrite (sstruct {} [({ temp := some ⟨0, 1⟩ }, su 1),
      ({ count := some (.field 0), endian := some (.lit .big) }, .vec false (su 2))]) (.ofList [nums [0xdead, 0xbeef]]) =
    .ok [2, 0xde, 0xad, 0xbe, 0xef] := by decide +kernel

-- skip
def skips : STy := sstruct {} [({}, su 1), ({ skip := some .all }, .option (su 1)), ({ skip := some .read }, su 1),
  ({ skip := some .write }, su 1), ({}, su 1)]
example : sread skips [1, 2, 3] = .ok (.ofList [.num 1, .none, .num 0, .num 2, .num 3]) := by decide +kernel
example : swrite skips (.ofList [.num 1, .none, .num 0, .num 2, .num 3]) = .ok [1, 0, 3] := by decide +kernel

-- pad_bytes_before, pad_bits_before, pad_bytes_after, pad_bits_after
def padBytesB : STy := sstruct {} [({}, su 1), ({ padBytesBefore := some 2 }, su 1)]
example : sread padBytesB [0xaa, 0xbb, 0xcc, 0xdd] = .ok (nums [0xaa, 0xdd]) := by decide +kernel
example : swrite padBytesB (nums [0xaa, 0xdd]) = .ok [0xaa, 0, 0, 0xdd] := by decide +kernel
def padBitsB : STy := sstruct {} [({ bits := some 2 }, su 1), ({ padBitsBefore := some 2, bits := some 4 }, su 1)]
example : sread padBitsB [0b10_01_1001] = .ok (nums [0b10, 0b1001]) := by decide +kernel
example : swrite padBitsB (nums [0b10, 0b1001]) = .ok [0b10_00_1001] := by decide +kernel
def padSkip : STy := sstruct {} [({ bits := some 8 }, su 1),
  ({ skip := some .all, cond := some (.eq (.field 0) (.lit 2)), padBitsBefore := some 8, bits := some 8,
     default := some (.num 0xab) }, su 1),
  ({ bits := some 8 }, su 1)]
example : both padSkip [1, 0, 3, 4] (nums [1, 3, 4]) = true := by decide +kernel
example : both padSkip [2, 0, 4] (nums [2, 0xab, 4]) = true := by decide +kernel
def padBytesA : STy := sstruct {} [({ padBytesAfter := some 2 }, su 1), ({}, su 1)]
example : sread padBytesA [0xaa, 0xbb, 0xcc, 0xdd] = .ok (nums [0xaa, 0xdd]) := by decide +kernel
example : swrite padBytesA (nums [0xaa, 0xdd]) = .ok [0xaa, 0, 0, 0xdd] := by decide +kernel
def padBitsA : STy := sstruct {} [({ bits := some 2, padBitsAfter := some 2 }, su 1), ({ bits := some 4 }, su 1)]
example : sread padBitsA [0b10_01_1001] = .ok (nums [0b10, 0b1001]) := by decide +kernel
example : swrite padBitsA (nums [0b10, 0b1001]) = .ok [0b10_00_1001] := by decide +kernel

-- cond
def condDoc : Ty := structOf <| .cons {} (u 1) <|
  .cons { cond := some fun env => decide (var 0 env = 1), default := fun _ => .none } (.option (u 1)) <|
  .cons { cond := some fun env => decide (env.vars[0]? = some (.some (.num 0xff))), default := fun _ => .some (.num 5) }
    (.option (u 1)) <|
  .cons { skip := some .all, cond := some fun env => decide (var 2 env = 1), default := fun _ => .some (.num 6) }
    (.option (u 1)) .nil
example : read condDoc [1, 2] = .ok (.ofList [.num 1, .some (.num 2), .some (.num 5), .some (.num 6)]) := by decide +kernel
example : write condDoc (.ofList [.num 1, .some (.num 2), .some (.num 5), .some (.num 6)]) = .ok [1, 2, 5] := by
  decide +kernel

-- default
example : read (structOf <| .cons {} (u 1) <|
      .cons { skip := some .all, default := fun env => .some (.num (var 0 env)) } (.option (u 1)) <| .cons {} (u 1) .nil)
    [1, 2] = .ok (.ofList [.num 1, .some (.num 1), .num 2]) := by decide +kernel

-- reader, writer; a decimal digit in place of the string
def digitCodec : Codec :=
  { read := do
      let n ← Prim.readUnsigned .little 1 .unit
      pure (.ofList ((toString n).toList.map fun c => .num c.toNat))
    write := fun v =>
      match v with
      | .cons (.num c) .nil => Prim.writeUnsigned .little 1 .unit (c - 48).toNat
      | _ => M.panic }
def customDoc : Ty := struct [.prim none fun _ => digitCodec]
example : read customDoc [1] = .ok (.ofList [nums [49]]) := by decide +kernel
example : write customDoc (.ofList [nums [49]]) = .ok [1] := by decide +kernel

-- ctx, ctx_default; also src/lib.rs, Context
def plusCtx : Fields := .cons { map := fun env v => match v with | .num n => .ok (.num (n + ctxNum 0 env)) | _ => .error .parse }
  (u 1) .nil
def ctxDoc : Ty := structOf <| .cons {} (u 1) <| .cons {} (.struct (fun env => [.num (var 0 env)]) none [] plusCtx) .nil
example : value ctxDoc [1, 2] = .ok (.ofList [.num 1, nums [3]]) := by decide +kernel
example : value (.struct (fun _ => [.num 1]) none [] plusCtx) [2] = .ok (nums [3]) := by decide +kernel
-- "are equivalent": the arguments of a field
example : fieldArgs (some .big) (some 1) none none [] = [.endian .big, .bits 1] := by decide +kernel
example : fieldArgs (some .big) (some 5) none none [.num (.field 0)] = [.endian .big, .bits 5, .num (.field 0)] := by
  decide +kernel

-- id of the enum
def myEnum : STy := .enum { params := [.num] } (.ctx (.arg 0)) (svariants [(.id 1, [({}, su 1)]), (.id 2, [])])
example : both (sstruct {} [({}, su 1), ({}, su 1), ({ ctx := [.num (.field 1)] }, myEnum)]) [1, 0xff, 0xab]
    (.ofList [.num 1, .num 0xff, .variant 0 (nums [0xab])]) = true := by decide +kernel

-- id of a variant
def idDoc : STy := .enum {} (.typed 1 none none none)
  (svariants [(.id 1, [({}, su 1)]), (.id 2, [({}, su 1), ({}, su 2)])])
example : sparse idDoc [1, 0xff, 2, 0xab, 0xef, 0xbe] = .ok (([2, 0xab, 0xef, 0xbe], 0), .variant 0 (nums [0xff])) := by
  decide +kernel
example : swrite idDoc (.variant 0 (nums [0xff])) = .ok [1, 0xff] := by decide +kernel
example : both idDoc [2, 0xab, 0xef, 0xbe] (.variant 1 (nums [0xab, 0xbeef])) = true := by decide +kernel
def discriminants : STy := .enum {} (.typed 1 none none none) (svariants [(.id 1, []), (.id 2, [])])
example : both discriminants [1] (.variant 0 .nil) = true := by decide +kernel
example : both discriminants [2] (.variant 1 .nil) = true := by decide +kernel

-- id_endian
def idEndian : STy := .enum { endian := some (.lit .little) } (.typed 2 (some (.lit .big)) none none)
  (svariants [(.id 1, [({}, su 2)]), (.id 2, [(bigA, su 2)])])
example : sread idEndian [0, 1, 1, 0] = .ok (.variant 0 (nums [1])) := by decide +kernel
example : sread idEndian [0, 2, 1, 0] = .ok (.variant 1 (nums [256])) := by decide +kernel

-- id_pat
def idPat : STy := .enum {} (.typed 1 none none none)
  (svariants [(.id 1, [({}, su 1)]), (.range 2 6, [({}, su 1)]), (.any, [({}, su 1)])])
example : sparse idPat [3, 0xff] = .ok (([0xff], 0), .variant 1 (nums [3])) := by decide +kernel
example : both idPat [3] (.variant 1 (nums [3])) = true := by decide +kernel
example : both idPat [0xff] (.variant 2 (nums [0xff])) = true := by decide +kernel

-- bits and bytes of an enum
example : both (.enum {} (.typed 1 none (some 4) none) (svariants [(.id 0b1001, [({ bits := some 4 }, su 1), ({}, su 1)])]))
    [0b1001_0110, 0xff] (.variant 0 (nums [0b0110, 0xff])) = true := by decide +kernel
example : both (.enum {} (.typed 4 none none (some 2)) (svariants [(.id 0xbeef, [({}, su 1)])])) [0xef, 0xbe, 0xff]
    (.variant 0 (nums [0xff])) = true := by decide +kernel

/-! ## src/lib.rs -/

-- Simple Example
def simpleDoc : STy := sstruct { endian := some (.lit .big) } [({ bits := some 4 }, su 1), ({ bits := some 4 }, su 1), ({}, su 2)]
example : sread simpleDoc [0b0110_1001, 0xbe, 0xef] = .ok (nums [0b0110, 0b1001, 0xbeef]) := by decide +kernel
example : swrite simpleDoc (nums [0b0110, 0b1001, 0xc0fe]) = .ok [0b0110_1001, 0xc0, 0xfe] := by decide +kernel

-- Composing: the children take the endianness and do not use it
def child (W : Nat) : STy := sstruct { params := [.endian] } [({}, su W)]
example : both (sstruct { endian := some (.lit .big) } [({}, child 1), ({}, child 2)]) [0xaa, 0xef, 0xbe]
    (.ofList [nums [0xaa], nums [0xbeef]]) = true := by decide +kernel

-- Vec
example : sparse countedS [2, 0xbe, 0xef, 0xff, 0xff] = .ok (([0xff, 0xff], 0), .ofList [.num 2, nums [0xbe, 0xef]]) := by
  decide +kernel
example : swrite countedS (.ofList [.num 2, nums [0xbe, 0xef, 0xaa]]) = .ok [2, 0xbe, 0xef, 0xaa] := by decide +kernel

-- Enums
def enumDoc : STy := .enum {} (.typed 1 none none none) (svariants [(.id 1, []), (.id 2, [({}, su 2)])])
example : sparse enumDoc [1, 2, 0xef, 0xbe] = .ok (([2, 0xef, 0xbe], 0), .variant 0 .nil) := by decide +kernel
example : sread enumDoc [2, 0xef, 0xbe] = .ok (.variant 1 (nums [0xbeef])) := by decide +kernel
def cEnum : STy := .enum { order := some (.lit .lsb0) } (.typed 1 none (some 2) none)
  (svariants [(.id 0, []), (.id 1, []), (.id 2, []), (.id 3, [])])
example : ((do
    let a ← (ty cEnum).read mach {}
    let b ← (ty cEnum).read mach {}
    let c ← (ty cEnum).read mach {}
    pure [a, b, c] : M Reader (List Val)) (Reader.new { data := [0x0d] })).1 =
    .ok [.variant 1 .nil, .variant 3 .nil, .variant 0 .nil] := by decide +kernel

-- DekuSize
def message : STy := sstruct { endian := some (.lit .big) } [({}, su 1), ({}, .array 16 (su 1)), ({}, su 2)]
example : (ty message).size = some (8 * 19) := by decide +kernel
example : (toSliceOf (ty message) (.ofList [.num 1, .ofList (List.replicate 16 (.num 0xff)), .num 0xabcd]) 19).1 = .ok 19 := by
  decide +kernel
def packetDoc : STy := .enum {} (.typed 1 none none none) (svariants [(.id 1, [({}, su 2)]), (.id 2, [({}, su 8)])])
example : (ty packetDoc).size = some (8 * 9) := by decide +kernel

-- Internal variables: `count = "size as usize - deku::byte_offset"` with a size of 4
def encoded : Ty := .struct (fun _ => [.num 4]) none [] <| .cons {} (u 1) <|
  .cons { usesOffset := true } (.bytes (fun env => ctxNum 0 env - env.off / 8) fun _ => .unit) .nil
example : value encoded [0, 1, 2, 3, 4] = .ok (.ofList [.num 0, nums [1, 2, 3]]) := by decide +kernel

end Deku.Conformance
