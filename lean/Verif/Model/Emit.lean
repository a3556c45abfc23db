/-!
# The code emitted for a field, and the attributes it depends on

The text of an attribute is kept as it was written; the emitted code is a tree that says where which text appears. The
lets for `__deku_bit_offset` and `__deku_byte_offset` are left out, which have no effect but to bind a name, and so is
the logging. Feature `bits` is on.
-/

namespace Deku.Emit

/-- The attributes of a field (`FieldData`, deku-derive/src/lib.rs:613-710). -/
inductive Attr
  | endian | bits | bytes | count | bitsRead | bytesRead | «until» | readAll | map | ctx | update | reader | writer
  | skip | padBitsBefore | padBytesBefore | padBitsAfter | padBytesAfter | temp | tempValue | default | cond | assert
  | assertEq | seekRewind | seekCurrent | seekEnd | seekStart | bitOrder | magic
  deriving DecidableEq

/-- `SkipMode` (deku-derive/src/lib.rs:67-75). -/
inductive Skip
  | all | read | write
  deriving DecidableEq

/-- What is written behind the name of the attribute. -/
abbrev Attr.Content : Attr → Type
  | .skip => Skip
  | .readAll | .temp | .seekRewind => Unit
  | _ => String

/-- The attributes that were written on a field. -/
abbrev Written := (a : Attr) → Option a.Content

/-- What the code for a field takes from elsewhere: `endian` and `bit_order` of the struct or enum, and whether the type
of the field is spelled `Vec<u8>` (deku_read.rs:818-835). -/
structure Site where
  endian : Option String := none
  order : Option String := none
  vecU8 : Bool := false
  /-- What is passed along when the id of the enum is read and written (deku_write.rs:618-628). -/
  idEndian : Option String := none
  idBits : Option String := none
  idBytes : Option String := none

/-- How many of the seeks were written. -/
def Written.seeks (f : Written) : Nat :=
  (f .seekCurrent).isSome.toNat + (f .seekEnd).isSome.toNat + (f .seekStart).isSome.toNat + (f .seekRewind).isSome.toNat

/-- `FieldData::validate` (deku-derive/src/lib.rs:821-896). -/
def Written.accepted (f : Written) : Bool :=
  !((f .bitsRead).isSome && (f .bytesRead).isSome) &&
  !((f .count).isSome && ((f .bitsRead).isSome || (f .bytesRead).isSome)) &&
  !((f .bits).isSome && (f .bytes).isSome) &&
  !((f .default).isSome && ((f .skip).isNone && (f .cond).isNone)) &&
  !((f .readAll).isSome &&
    ((f .until).isSome || (f .count).isSome || ((f .bitsRead).isSome || (f .bytesRead).isSome))) &&
  !decide (1 < f.seeks)

/-! ## The emitted code -/

inductive SeekCode
  | current (e : String) | «end» (e : String) | start (e : String) | rewind
  deriving DecidableEq

/-- A padding of so many bits and so many bytes, in an order. -/
structure PadCode where
  bits : Option String
  bytes : Option String
  order : Option String
  deriving DecidableEq

inductive ArgCode
  | endian (e : String) | bits (e : String) | bytes (e : String) | order (e : String) | ctx (e : String)
  deriving DecidableEq

inductive LimitCode
  | count (e : String) | bytes (e : String) | «until» (e : String) | all | bits (e : String)
  deriving DecidableEq

/-- The expression that a value is read by. -/
inductive FetchCode
  /-- The text of `reader`. -/
  | custom (e : String)
  /-- `from_reader_with_ctx(.., ReadExact(..))`. -/
  | exact (e : String)
  /-- `__deku_variant_id`, the id that has been read already. -/
  | id
  /-- `from_reader_with_ctx(.., (limit, (args)))` or without the limit. -/
  | call (limit : Option LimitCode) (args : List ArgCode)
  deriving DecidableEq

inductive BodyCode
  | value (r : FetchCode) (map : Option String)
  /-- The text of `default`, or `Default::default()`. -/
  | default (e : Option String)
  | ite (c : String) (t e : BodyCode)
  deriving DecidableEq

structure ReadCode where
  seek : Option SeekCode
  magic : Option String
  before : Option PadCode
  body : BodyCode
  assert : Option String
  assertEq : Option String
  after : Option PadCode
  /-- The value becomes a field of the result (deku_read.rs:103-106). -/
  kept : Bool
  deriving DecidableEq

/-- The expression that writes a value. -/
inductive PutCode
  /-- The text of `writer`. -/
  | custom (e : String)
  /-- `to_writer(.., (args))` of the field, or of the value of `temp_value`. -/
  | call (temp : Bool) (args : List ArgCode)
  /-- `Ok(())`. -/
  | ok
  deriving DecidableEq

inductive WBodyCode
  | nothing
  /-- The declaration of the value of `temp_value`, then the write. -/
  | put (decl : Option String) (p : PutCode)
  /-- The same, but the write only if the condition does not hold. -/
  | unless (decl : Option String) (c : String) (p : PutCode)
  deriving DecidableEq

structure WriteCode where
  seek : Option SeekCode
  magic : Option String
  before : Option PadCode
  assert : Option String
  assertEq : Option String
  body : WBodyCode
  after : Option PadCode
  deriving DecidableEq

/-! ## The macro -/

variable (s : Site) (f : Written)

/-- deku_read.rs:683-724 and deku_write.rs:652-693. -/
def seekOf : Option SeekCode :=
  match f .seekCurrent, f .seekEnd, f .seekStart, f .seekRewind with
  | some e, _, _, _ => some (.current e)
  | none, some e, _, _ => some (.end e)
  | none, none, some e, _ => some (.start e)
  | none, none, none, some _ => some .rewind
  | none, none, none, none => none

/-- deku_read.rs:663 and deku_write.rs:643. -/
def orderOf : Option String := (f .bitOrder).or s.order

/-- `pad_bits` (deku-derive/src/macros/mod.rs:381-395). -/
def padCode (bits bytes order : Option String) : Option PadCode :=
  match bits, bytes with
  | some n, some k => some ⟨some n, some k, order⟩
  | some n, none => some ⟨some n, none, order⟩
  | none, some k => some ⟨none, some k, order⟩
  | none, none => none

def beforeOf : Option PadCode := padCode (f .padBitsBefore) (f .padBytesBefore) (orderOf s f)

def afterOf : Option PadCode := padCode (f .padBitsAfter) (f .padBytesAfter) (orderOf s f)

/-- `gen_field_args` (deku-derive/src/macros/mod.rs:285-321). -/
def argsOf : List ArgCode :=
  [((f .endian).or s.endian).map ArgCode.endian, (f .bits).map ArgCode.bits, (f .bytes).map ArgCode.bytes,
    (orderOf s f).map ArgCode.order, (f .ctx).map ArgCode.ctx].filterMap id

/-- `field_read_func` (deku_read.rs:772-919). -/
def fetchOf : FetchCode :=
  match f .reader with
  | some e => .custom e
  | none =>
    match f .count with
    | some e => if s.vecU8 then .exact e else .call (some (.count e)) (argsOf s f)
    | none =>
      match f .bytesRead with
      | some e => .call (some (.bytes e)) (argsOf s f)
      | none =>
        match f .until with
        | some e => .call (some (.until e)) (argsOf s f)
        | none =>
          match f .readAll with
          | some _ => .call (some .all) (argsOf s f)
          | none =>
            match f .bitsRead with
            | some e => .call (some (.bits e)) (argsOf s f)
            | none => .call none (argsOf s f)

/-- `field_read_normal` (deku_read.rs:943-947). -/
def valueOf : BodyCode := .value (fetchOf s f) (f .map)

/-- `field_read_tokens` (deku_read.rs:951-990). -/
def bodyOf : BodyCode :=
  match f .skip, f .cond with
  | some .all, some c => .ite c (.default (f .default)) (valueOf s f)
  | some .read, some c => .ite c (.default (f .default)) (valueOf s f)
  | some .all, none => .default (f .default)
  | some .read, none => .default (f .default)
  | some .write, _ => valueOf s f
  | none, some c => .ite c (valueOf s f) (.default (f .default))
  | none, none => valueOf s f

/-- `emit_field_read` (deku_read.rs:652-1012). -/
def reading : ReadCode where
  seek := seekOf f
  magic := f .magic
  before := beforeOf s f
  body := bodyOf s f
  assert := f .assert
  assertEq := f .assertEq
  after := afterOf s f
  kept := (f .temp).isNone

/-- `field_write_func` (deku_write.rs:735-762). -/
def putOf : PutCode :=
  match f .writer with
  | some e => .custom e
  | none =>
    match f .temp with
    | none => .call false (argsOf s f)
    | some _ =>
      match f .tempValue with
      | some _ => .call true (argsOf s f)
      | none => .ok

/-- `temp_decl` (deku_write.rs:796-810). -/
def declOf : Option String :=
  match f .temp with
  | some _ => f .tempValue
  | none => none

/-- `field_write_tokens` (deku_write.rs:811-840). -/
def wbodyOf : WBodyCode :=
  match f .skip, f .cond with
  | some .all, some c => .unless (declOf f) c (putOf s f)
  | some .write, some c => .unless (declOf f) c (putOf s f)
  | some .all, none => .nothing
  | some .write, none => .nothing
  | some .read, _ => .put (declOf f) (putOf s f)
  | none, _ => .put (declOf f) (putOf s f)

/-- `emit_field_write` (deku_write.rs:604-862). -/
def writing : WriteCode where
  seek := seekOf f
  magic := f .magic
  before := beforeOf s f
  assert := f .assert
  assertEq := f .assertEq
  body := wbodyOf s f
  after := afterOf s f

/-- `emit_field_update` (deku_write.rs:492-512): the text of the assignment. -/
def updating : Option String :=
  match f .temp with
  | some _ => none
  | none => f .update

/-- What the macros emit for a field. -/
structure Emitted where
  read : ReadCode
  write : WriteCode
  update : Option String
  deriving DecidableEq

/-- `DekuRead` and `DekuWrite` on a field that is not the storage of an id. -/
def emit : Emitted := ⟨reading s f, writing s f, updating f⟩

/-! ## The field that stores the id

Of a variant with `id_pat`, if the enum has no `id`: the first field (deku_read.rs:254-262, 556-561). -/

/-- `FieldData::any_field_set` (deku-derive/src/lib.rs:713-766); `default` is not among them. -/
def Written.anySet : Bool :=
  (f .endian).isSome || (f .bits).isSome || (f .bytes).isSome || (f .count).isSome || (f .bitsRead).isSome ||
  (f .bytesRead).isSome || (f .until).isSome || (f .map).isSome || (f .ctx).isSome || (f .update).isSome ||
  (f .reader).isSome || (f .writer).isSome || (f .padBitsBefore).isSome || (f .padBytesBefore).isSome ||
  (f .padBitsAfter).isSome || (f .padBytesAfter).isSome || (f .tempValue).isSome || (f .cond).isSome ||
  (f .assert).isSome || (f .assertEq).isSome || (f .seekCurrent).isSome || (f .seekEnd).isSome ||
  (f .seekStart).isSome || (f .bitOrder).isSome || (f .magic).isSome || (f .readAll).isSome || (f .skip).isSome ||
  (f .temp).isSome || (f .seekRewind).isSome

/-- `emit_field_read` with `pad_id` (deku_read.rs:772-816): `none` is the compile error. With `reader` the attributes
are not looked at. -/
def storedReading : Option ReadCode :=
  match f .reader with
  | some _ => some (reading s f)
  | none => if f.anySet then none else some { reading s f with body := .value .id none }

/-- `emit_field_write` with `is_id_pat` (deku_write.rs:612-638). -/
def storedWriting (_ : Written) : WriteCode where
  seek := none
  magic := none
  before := none
  assert := none
  assertEq := none
  body := .put none (.call false
    ([s.idEndian.map ArgCode.endian, s.idBits.map ArgCode.bits, s.idBytes.map ArgCode.bytes,
      s.order.map ArgCode.order].filterMap id))
  after := none

/-! ## The seeks of a struct or an enum -/

/-- The seek emitted for a type with these attributes: on a struct (deku_read.rs:46-87, deku_write.rs:36-77); the code of an
enum (deku_read.rs:208-484, deku_write.rs:207-448) has none. `DekuData::validate` (deku-derive/src/lib.rs:414-493) does not
look at them. -/
def containerSeek (isEnum : Bool) : Option SeekCode := if isEnum then none else seekOf f

end Deku.Emit
