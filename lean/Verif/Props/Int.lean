import Verif.Lemmas.Switch

/-!
# Properties of integers: C07, C15 to C26
-/

namespace Deku

open Prim Writer Reader

/-- The bit pattern of an integer parsed from a byte string, for the concrete examples. -/
def parseInt (ctx : IntCtx) (W : Nat) (bs : List Byte) : Res Nat :=
  (readUnsigned .little W ctx (Reader.new { data := bs })).1

/-- A signed integer parsed from a byte string, for the concrete examples. -/
def parseSigned (ctx : IntCtx) (W : Nat) (bs : List Byte) : Res Int :=
  (readSigned .little W ctx (Reader.new { data := bs })).1

/-! ## C07 -/

/-- **C07.** A big endian Msb0 field of any width up to that of the type is the number whose binary
digits are the next bits, at every alignment and by every internal route. -/
theorem C07_big_endian_reads_binary_digits (native : Endian) (W n : Nat) (ctx : IntCtx) (hW : 1 ≤ W)
    (hs : ctx.shape native W = (.big, n, .msb0)) (h1 : 1 ≤ n) (hn : n ≤ 8 * W) (r : Reader)
    (hf : r.Healthy) (hw : r.WF) (hlen : n ≤ r.unreadMsb.length) :
    ∃ r', readUnsigned native W ctx r = (.ok (ofBits (r.unreadMsb.take n)), r') ∧
      r'.unreadMsb = r.unreadMsb.drop n ∧ r'.bitsRead = r.bitsRead + n := by
  have h := readUnsigned_delivers native ctx hW
  rw [hs] at h
  obtain ⟨r', e, s⟩ := (h h1 hn r hf hw).1 hlen
  exact ⟨r', e, s.unread, s.bitsRead⟩

/-- **C07**, little endian: successive groups of eight bits, least significant group first. -/
theorem C07_little_endian_reads_groups (native : Endian) (W n : Nat) (ctx : IntCtx) (hW : 1 ≤ W)
    (hs : ctx.shape native W = (.little, n, .msb0)) (h1 : 1 ≤ n) (hn : n ≤ 8 * W) (r : Reader)
    (hf : r.Healthy) (hw : r.WF) (hlen : n ≤ r.unreadMsb.length) :
    ∃ r', readUnsigned native W ctx r = (.ok (leGroups (r.unreadMsb.take n)), r') ∧
      r'.unreadMsb = r.unreadMsb.drop n ∧ r'.bitsRead = r.bitsRead + n := by
  have h := readUnsigned_delivers native ctx hW
  rw [hs] at h
  obtain ⟨r', e, s⟩ := (h h1 hn r hf hw).1 hlen
  exact ⟨r', e, s.unread, s.bitsRead⟩

/-- **C07**, too little data: `Incomplete`, whatever the route. -/
theorem C07_short_input_is_incomplete (native : Endian) (W : Nat) (ctx : IntCtx) (hW : 1 ≤ W)
    (e : Endian) (n : Nat) (o : Order) (hs : ctx.shape native W = (e, n, o)) (h1 : 1 ≤ n)
    (hn : n ≤ 8 * W) (r : Reader) (hf : r.Healthy) (hw : r.WF) (hp : r.NoPeek)
    (hlen : (r.unread o).length < n) :
    ∃ r', readUnsigned native W ctx r = (.err (.incomplete n), r') := by
  have h := readUnsigned_delivers native ctx hW
  rw [hs] at h
  obtain ⟨k, r', e, _, hk, _⟩ := (h h1 hn r hf hw).2 (by omega)
  exact ⟨r', by rw [e, hk hp]⟩

/-- Four bits pending of a byte, then an 11-bit field. -/
example : (IntCtx.endianBits .big 11).shape .little 2 = (.big, 11, .msb0) := rfl
example : (Reader.readBits 4 .msb0 (Reader.new { data := [0xAB#8, 0xCD#8] })).1 =
    .ok [true, false, true, false] := by decide
example : ((do let _ ← Reader.readBits 4 .msb0; readUnsigned .little 2 (.endianBits .big 11))
    (Reader.new { data := [0xAB#8, 0xCD#8] })).1 = .ok 0x5E6 := by decide
example : ((do let _ ← Reader.readBits 4 .msb0; readUnsigned .little 2 (.endianBits .little 11))
    (Reader.new { data := [0xAB#8, 0xCD#8] })).1 = .ok 0x6BC := by decide

/-! ## C15, C16, C17: round trips of unsigned bit fields -/

/-- A value that some writer accepted fits its field. -/
theorem accepted_fits {native e : Endian} {W n v : Nat} {ctx : IntCtx} {o : Order}
    (hb : ctx.isBits = true) (hs : ctx.shape native W = (e, n, o)) (hv : v < 256 ^ W)
    {w w' : Writer} (hacc : writeUnsigned native W ctx v w = (.ok (), w')) :
    n ≤ 8 * W ∧ v < 2 ^ n := by
  have h := writeUnsigned_refuses native ctx hb hv
  rw [hs] at h
  apply Classical.byContradiction
  intro hc
  have := h (by omega) w
  rw [this] at hacc
  simp at hacc

theorem round_trip {native e : Endian} {W n v p : Nat} {ctx : IntCtx} {o : Order} (hW : 1 ≤ W)
    (hs : ctx.shape native W = (e, n, o)) (h1 : 1 ≤ n) (hn : n ≤ 8 * W) (hv : v < 2 ^ n)
    (hc : Compatible native W ctx p) :
    Writes o p (writeUnsigned native W ctx v) (fieldBits e o n v) ∧
    Reads o p (readUnsigned native W ctx) (fieldBits e o n v) v := by
  have h := writeUnsigned_writes native ctx (v := v) hc
  have hd := hc.dense
  have hr := readUnsigned_delivers native ctx hW
  rw [hs] at h hd hr
  refine ⟨h h1 hn hv, ?_⟩
  have := (hr h1 hn).reads (length_fieldBits e o n v) p
  rw [fieldValue_fieldBits hd, Nat.mod_eq_of_lt hv] at this
  exact this

/-- **C15.** Whatever value of an unsigned bit field a writer accepts: at every alignment it takes
exactly `n` bits, and reading with the same attributes wherever these bits are found, at the same
alignment, gives the value back and consumes exactly these bits. -/
theorem C15_unsigned_msb0_round_trip (native e : Endian) (W n v : Nat) (ctx : IntCtx) (hW : 1 ≤ W)
    (hb : ctx.isBits = true) (hs : ctx.shape native W = (e, n, .msb0)) (h1 : 1 ≤ n)
    (hv : v < 256 ^ W) (w w' : Writer) (hacc : writeUnsigned native W ctx v w = (.ok (), w'))
    (p : Nat) :
    ∃ bits, bits.length = n ∧ Writes .msb0 p (writeUnsigned native W ctx v) bits ∧
      Reads .msb0 p (readUnsigned native W ctx) bits v := by
  obtain ⟨hn, hlt⟩ := accepted_fits hb hs hv hacc
  refine ⟨fieldBits e .msb0 n v, length_fieldBits .., round_trip hW hs h1 hn hlt ?_⟩
  simp only [Compatible, hb, hs, if_true]
  intro h; simp at h

example : (writeUnsigned .little 4 (.endianBits .little 19) 0x5ABCD (Writer.new {})).1 = .ok () := by
  decide

/-- Fields for which the two directions agree, from alignment `p` on. -/
def FieldsOk (native : Endian) (o : Order) : Nat → List IntField → Prop
  | _, [] => True
  | p, f :: fs => 1 ≤ f.W ∧ (f.ctx.shape native f.W).2.2 = o ∧ 1 ≤ f.size native ∧
      f.size native ≤ 8 * f.W ∧ f.v < 2 ^ f.size native ∧ Compatible native f.W f.ctx p ∧
      FieldsOk native o (p + f.size native) fs

/-- The bits of a field, of a list of fields. -/
def IntField.bits (native : Endian) (f : IntField) : List Bool :=
  fieldBits (f.ctx.shape native f.W).1 (f.ctx.shape native f.W).2.2 (f.size native) f.v

theorem IntField.length_bits (native : Endian) (f : IntField) :
    (f.bits native).length = f.size native := length_fieldBits ..

theorem field_round_trip {native : Endian} {o : Order} {f : IntField} {p : Nat} (hW : 1 ≤ f.W)
    (ho : (f.ctx.shape native f.W).2.2 = o) (h1 : 1 ≤ f.size native)
    (hn : f.size native ≤ 8 * f.W) (hv : f.v < 2 ^ f.size native)
    (hc : Compatible native f.W f.ctx p) :
    Writes o p (writeUnsigned native f.W f.ctx f.v) (f.bits native) ∧
    Reads o p (readUnsigned native f.W f.ctx) (f.bits native) f.v := by
  have hs : f.ctx.shape native f.W = ((f.ctx.shape native f.W).1, f.size native, o) := by
    rw [← ho]; rfl
  subst ho
  exact round_trip hW hs h1 hn hv hc

theorem fields_round_trip {native : Endian} {o : Order} (fs : List IntField) {p : Nat}
    (h : FieldsOk native o p fs) :
    Writes o p (writeFields native fs) (fs.flatMap (IntField.bits native)) ∧
    Reads o p (readFields native fs) (fs.flatMap (IntField.bits native)) (fs.map IntField.v) := by
  induction fs generalizing p with
  | nil => exact ⟨Writes.pure o p, Reads.pure o p _⟩
  | cons f fs ih =>
    obtain ⟨hW, ho, h1, hn, hv, hc, hrest⟩ := h
    obtain ⟨hw, hr⟩ := ih hrest
    obtain ⟨hw1, hr1⟩ := field_round_trip hW ho h1 hn hv hc
    refine ⟨hw1.bind (by rw [f.length_bits]; exact hw), hr1.bind ?_⟩
    rw [f.length_bits]
    exact hr.map (fun vs => f.v :: vs)

theorem length_fieldsBits (native : Endian) (fs : List IntField) :
    (fs.flatMap (IntField.bits native)).length = (fs.map (IntField.size native)).sum := by
  induction fs with
  | nil => rfl
  | cons f fs ih => simp [f.length_bits, ih]

/-- `to_bytes` of a sequence of fields followed by `from_bytes`-style reading of the same fields. -/
theorem fields_end_to_end {native : Endian} {o : Order} (fs : List IntField)
    (h : FieldsOk native o 0 fs) :
    ∃ out r, toBytes (writeFields native fs) = .ok out ∧
      readFields native fs (Reader.new { data := out }) = (.ok (fs.map IntField.v), r) ∧
      r.bitsRead = (fs.map (IntField.size native)).sum := by
  obtain ⟨hw, hr⟩ := fields_round_trip fs h
  obtain ⟨out, e, ho⟩ := hw.toBytes
  obtain ⟨r, e', hb, _⟩ := hr.fromBytes ho
  exact ⟨out, r, e, e', by rw [hb, length_fieldsBits]⟩

/-- **C15**, end to end: any sequence of Msb0 fields of any widths, written with `to_bytes` and read
back from the bytes. -/
theorem C15_msb0_fields_end_to_end (native : Endian) (fs : List IntField)
    (h : ∀ f ∈ fs, 1 ≤ f.W ∧ (f.ctx.shape native f.W).2.2 = .msb0 ∧ 1 ≤ f.size native ∧
      f.size native ≤ 8 * f.W ∧ f.v < 2 ^ f.size native) :
    ∃ out r, toBytes (writeFields native fs) = .ok out ∧
      readFields native fs (Reader.new { data := out }) = (.ok (fs.map IntField.v), r) ∧
      r.bitsRead = (fs.map (IntField.size native)).sum := by
  refine fields_end_to_end (o := .msb0) fs ?_
  generalize 0 = p
  induction fs generalizing p with
  | nil => trivial
  | cons f fs ih =>
    obtain ⟨hW, ho, h1, hn, hv⟩ := h f List.mem_cons_self
    refine ⟨hW, ho, h1, hn, hv, ?_, ih (fun f hf => h f (List.mem_cons_of_mem _ hf)) _⟩
    simp only [Compatible, ho]
    split
    · intro h; simp at h
    · intro h; simp at h

/-- Three fields of 3, 13 and 24 bits, two endiannesses, and a whole `u16` at an odd alignment. -/
def exampleMsb : List IntField :=
  [⟨1, .endianBits .big 3, 5⟩, ⟨2, .endianBits .little 13, 0x1234⟩, ⟨2, .endian .big, 0xBEEF⟩,
    ⟨4, .endianBits .big 19, 0x5ABCD⟩]
example : ∀ f ∈ exampleMsb, 1 ≤ f.W ∧ (f.ctx.shape .little f.W).2.2 = .msb0 ∧
    1 ≤ f.size .little ∧ f.size .little ≤ 8 * f.W ∧ f.v < 2 ^ f.size .little := by decide

/-- **C16.** Lsb0 with little endian: whatever value is accepted round-trips at every alignment. -/
theorem C16_unsigned_lsb0_little_round_trip (native : Endian) (W n v : Nat) (ctx : IntCtx)
    (hW : 1 ≤ W) (hb : ctx.isBits = true) (hs : ctx.shape native W = (.little, n, .lsb0))
    (h1 : 1 ≤ n) (hv : v < 256 ^ W) (w w' : Writer)
    (hacc : writeUnsigned native W ctx v w = (.ok (), w')) (p : Nat) :
    ∃ bits, bits.length = n ∧ Writes .lsb0 p (writeUnsigned native W ctx v) bits ∧
      Reads .lsb0 p (readUnsigned native W ctx) bits v := by
  obtain ⟨hn, hlt⟩ := accepted_fits hb hs hv hacc
  refine ⟨fieldBits .little .lsb0 n v, length_fieldBits .., round_trip hW hs h1 hn hlt ?_⟩
  simp only [Compatible, hb, hs, if_true]
  intro _ h; simp at h

/-- **C16**, sequences of Lsb0 little endian fields, end to end. -/
theorem C16_lsb0_fields_end_to_end (native : Endian) (fs : List IntField)
    (h : ∀ f ∈ fs, 1 ≤ f.W ∧ f.ctx.isBits = true ∧
      f.ctx.shape native f.W = (.little, f.size native, .lsb0) ∧ 1 ≤ f.size native ∧
      f.size native ≤ 8 * f.W ∧ f.v < 2 ^ f.size native) :
    ∃ out r, toBytes (writeFields native fs) = .ok out ∧
      readFields native fs (Reader.new { data := out }) = (.ok (fs.map IntField.v), r) ∧
      r.bitsRead = (fs.map (IntField.size native)).sum := by
  refine fields_end_to_end (o := .lsb0) fs ?_
  generalize 0 = p
  induction fs generalizing p with
  | nil => trivial
  | cons f fs ih =>
    obtain ⟨hW, hb, hs, h1, hn, hv⟩ := h f List.mem_cons_self
    refine ⟨hW, by rw [hs], h1, hn, hv, ?_, ih (fun f hf => h f (List.mem_cons_of_mem _ hf)) _⟩
    simp only [Compatible, hb, hs, if_true]
    intro _ h; simp at h

def exampleLsb : List IntField :=
  [⟨1, .endianBitsOrder .little 3 .lsb0, 5⟩, ⟨2, .endianBitsOrder .little 13 .lsb0, 0x1234⟩,
    ⟨4, .bitsOrder 19 .lsb0, 0x5ABCD⟩]
example : ∀ f ∈ exampleLsb, 1 ≤ f.W ∧ f.ctx.isBits = true ∧
    f.ctx.shape .little f.W = (.little, f.size .little, .lsb0) ∧ 1 ≤ f.size .little ∧
    f.size .little ≤ 8 * f.W ∧ f.v < 2 ^ f.size .little := by decide

/-- **C17** (part). Lsb0 with big endian round-trips when the field has at most 8 bits or fills its
type. The full statement is false in between, see `C17_counterexample`. -/
theorem C17_unsigned_lsb0_big_round_trip_partial (native : Endian) (W n v : Nat) (ctx : IntCtx)
    (hW : 1 ≤ W) (hb : ctx.isBits = true) (hs : ctx.shape native W = (.big, n, .lsb0))
    (h1 : 1 ≤ n) (hfull : n ≤ 8 ∨ n = 8 * W) (hv : v < 256 ^ W) (w w' : Writer)
    (hacc : writeUnsigned native W ctx v w = (.ok (), w')) (p : Nat) :
    ∃ bits, bits.length = n ∧ Writes .lsb0 p (writeUnsigned native W ctx v) bits ∧
      Reads .lsb0 p (readUnsigned native W ctx) bits v := by
  obtain ⟨hn, hlt⟩ := accepted_fits hb hs hv hacc
  refine ⟨fieldBits .big .lsb0 n v, length_fieldBits .., round_trip hW hs h1 hn hlt ?_⟩
  simp only [Compatible, hb, hs, if_true]
  exact fun _ _ => hfull

example : (IntCtx.endianBitsOrder .big 16 .lsb0).shape .little 2 = (.big, 16, .lsb0) := rfl
example : (writeUnsigned .little 2 (.endianBitsOrder .big 16 .lsb0) 0xABCD (Writer.new {})).1 =
    .ok () := by decide

/-- **C17** is false: a 12-bit big endian Lsb0 `u16` holding 0xABC is accepted, written without its
middle four bits, and reads back as 0xA0C. -/
theorem C17_counterexample :
    toBytes (writeUnsigned .little 2 (.endianBitsOrder .big 12 .lsb0) 0xABC) =
      .ok [0x0A#8, 0x0C#8] ∧
    parseInt (.endianBitsOrder .big 12 .lsb0) 2 [0x0A#8, 0x0C#8] = .ok 0xA0C := by decide

/-! ## C18, C19: signed bit fields -/

theorem InRange.mono {m n : Nat} {v : Int} (h : InRange m v) (hmn : m ≤ n) : InRange n v := by
  have : 2 ^ (m - 1) ≤ 2 ^ (n - 1) := Nat.pow_le_pow_right (by omega) (by omega)
  obtain ⟨h1, h2⟩ := h
  exact ⟨by omega, by omega⟩

/-- A signed bit field without a bit order: the attributes and what they are. -/
def IntCtx.signedBits (native : Endian) : IntCtx → Option (Endian × Nat)
  | .bits n => some (native, n)
  | .endianBits e n => some (e, n)
  | _ => none

theorem writeSigned_bits {native e : Endian} {W n : Nat} {ctx : IntCtx}
    (hs : ctx.signedBits native = some (e, n)) (v : Int) :
    writeSigned native W ctx v = writeSignedBits W e n v := by
  cases ctx <;> simp [IntCtx.signedBits] at hs
  case bits => obtain ⟨rfl, rfl⟩ := hs; rfl
  case endianBits => obtain ⟨rfl, rfl⟩ := hs; rfl

/-- **C18**, acceptance: in every writer state, a value of the type is accepted exactly when it is in
the range of an `n`-bit two's complement number, and otherwise `InvalidParam` is returned and nothing
is written. -/
theorem C18_signed_accepted_iff_in_range (native e : Endian) (W n : Nat) (ctx : IntCtx) (v : Int)
    (hs : ctx.signedBits native = some (e, n)) (h1 : 1 ≤ n) (hn : n ≤ 8 * W)
    (hv : InRange (8 * W) v) (w : Writer) (hw : w.WF) (hh : w.Healthy) :
    ((∃ w', writeSigned native W ctx v w = (.ok (), w')) ↔ InRange n v) ∧
    (¬ InRange n v → writeSigned native W ctx v w = (.err .invalidParam, w)) := by
  rw [writeSigned_bits hs]
  have href : ¬ InRange n v → writeSignedBits W e n v w = (.err .invalidParam, w) :=
    fun h => writeSignedBits_refuses e w hv (.inr ⟨h1, h⟩)
  refine ⟨⟨?_, ?_⟩, href⟩
  · rintro ⟨w', h⟩
    apply Classical.byContradiction
    intro hc
    rw [href hc] at h; simp at h
  · intro h
    obtain ⟨w', h', _⟩ := (writeSignedBits_took e hw hh h1 hn hv h).ok hh
    exact ⟨w', h'⟩

example : InRange 12 (-2048) ∧ ¬ InRange 12 (-2049) ∧ InRange 12 2047 ∧ ¬ InRange 12 2048 := by
  decide

/-- The read of a signed bit field sign-extends, unless the size is a multiple of 8 smaller than the
type and no endianness is given. -/
def SignExtends (W : Nat) : IntCtx → Prop
  | .bits n => n % 8 ≠ 0 ∨ n = 8 * W
  | _ => True

/-- **C18** (part), round trip. Missing: `bits = n` with `n` a multiple of 8 below the type width and
no endianness, which is false, see `C18_counterexample`. -/
theorem C18_signed_round_trip_partial (native e : Endian) (W n : Nat) (ctx : IntCtx) (v : Int)
    (hs : ctx.signedBits native = some (e, n)) (h1 : 1 ≤ n) (hn : n ≤ 8 * W)
    (hx : SignExtends W ctx) (hv : InRange n v) (p : Nat) :
    ∃ bits, bits.length = n ∧ Writes .msb0 p (writeSigned native W ctx v) bits ∧
      Reads .msb0 p (readSigned native W ctx) bits v := by
  have hvW : InRange (8 * W) v := hv.mono hn
  obtain ⟨hw, hr⟩ := signedBits_round_trip e p h1 hn hvW hv
  refine ⟨fieldBits e .msb0 n (pattern W v), length_fieldBits .., ?_, ?_⟩
  · rw [writeSigned_bits hs]; exact hw
  · cases ctx <;> simp [IntCtx.signedBits] at hs
    case bits m =>
      obtain ⟨rfl, rfl⟩ := hs
      simp only [readSigned]
      by_cases hm : m % 8 = 0
      · rw [if_pos hm]
        have hm8 : m = 8 * W := hx.resolve_left (by simpa using hm)
        subst hm8
        have := (readSignedBytesOrd_delivers (W := W) native .msb0 (by omega) (Nat.le_refl W)).reads
          (length_fieldBits native .msb0 (8 * W) (pattern W v)) p
        rw [fieldValue_fieldBits (dense_msb _ _), twosComplement_pattern (by omega) (by omega) hv] at this
        rwa [show 8 * W / 8 = W by omega]
      · rw [if_neg hm]; exact hr
    case endianBits e' m =>
      obtain ⟨rfl, rfl⟩ := hs
      exact hr

example : (IntCtx.endianBits .little 12).signedBits .little = some (.little, 12) := rfl
example : SignExtends 2 (.endianBits .little 12) ∧ InRange 12 (-1234) := ⟨trivial, by decide⟩

/-- **C18** is false for `bits = 8` on an `i16` without an endianness: -1 is written as 0xFF and read
back as 255. With `endian` given it reads back as -1. -/
theorem C18_counterexample :
    toBytes (writeSigned .little 2 (.bits 8) (-1)) = .ok [0xFF#8] ∧
    parseSigned (.bits 8) 2 [0xFF#8] = .ok 255 ∧
    parseSigned (.endianBits .little 8) 2 [0xFF#8] = .ok (-1) := by decide

/-- A signed bit field with a bit order. -/
def IntCtx.signedBitsOrder (native : Endian) : IntCtx → Option (Endian × Nat × Order)
  | .bitsOrder n o => some (native, n, o)
  | .endianBitsOrder e n o => some (e, n, o)
  | _ => none

theorem writeSigned_bitsOrder {native e : Endian} {W n : Nat} {o : Order} {ctx : IntCtx}
    (hs : ctx.signedBitsOrder native = some (e, n, o)) (v : Int) :
    writeSigned native W ctx v = writeBitsOrd W e n o (pattern W v) := by
  cases ctx <;> simp [IntCtx.signedBitsOrder] at hs
  case bitsOrder => obtain ⟨rfl, rfl, rfl⟩ := hs; rfl
  case endianBitsOrder => obtain ⟨rfl, rfl, rfl⟩ := hs; rfl

theorem pattern_lt_iff {W n : Nat} {v : Int} (h1 : 1 ≤ n) (hn : n < 8 * W)
    (hv : InRange (8 * W) v) : pattern W v < 2 ^ n ↔ 0 ≤ v ∧ v < (2 ^ n : Nat) := by
  obtain ⟨hl, hu⟩ := inRange_bounds (by omega) hv
  have hp : 2 * 2 ^ n ≤ 2 ^ (8 * W) := by
    rw [← Nat.pow_succ']; exact Nat.pow_le_pow_right (by omega) (by omega)
  have hW := pow256 W
  by_cases h0 : 0 ≤ v
  · have := pattern_nonneg (W := W) h0 (by omega)
    omega
  · have := pattern_neg (W := W) (show v < 0 by omega) (by omega)
    omega

/-- **C19** (part): what the writer does accept when a bit order is given and the field is narrower
than its type: the values of an *unsigned* field of that size. -/
theorem C19_ordered_signed_accepted_iff_unsigned (native e : Endian) (W n : Nat) (o : Order)
    (ctx : IntCtx) (v : Int) (hs : ctx.signedBitsOrder native = some (e, n, o)) (h1 : 1 ≤ n)
    (hn : n < 8 * W) (hv : InRange (8 * W) v) (w : Writer) (hw : w.WF) (hh : w.Healthy) :
    ((∃ w', writeSigned native W ctx v w = (.ok (), w')) ↔ 0 ≤ v ∧ v < (2 ^ n : Nat)) ∧
    (¬ (0 ≤ v ∧ v < (2 ^ n : Nat)) → writeSigned native W ctx v w = (.err .invalidParam, w)) := by
  rw [writeSigned_bitsOrder hs]
  have hiff := pattern_lt_iff h1 hn hv
  have href : ¬ (0 ≤ v ∧ v < (2 ^ n : Nat)) →
      writeBitsOrd W e n o (pattern W v) w = (.err .invalidParam, w) :=
    fun h => writeBitsOrd_refuses e o w (pattern_lt W v) (.inr (by rw [← hiff] at h; exact Nat.le_of_not_lt h))
  refine ⟨⟨?_, ?_⟩, href⟩
  · rintro ⟨w', h⟩
    apply Classical.byContradiction
    intro hc
    rw [href hc] at h; simp at h
  · intro h
    obtain ⟨w', h', _⟩ := (writeBitsOrd_took (W := W) e o hw hh h1 (by omega) (hiff.2 h)).ok hh
    exact ⟨w', h'⟩

/-- **C19** (part), round trip: non-negative values in range, and all values of a field that fills
its type; except big endian Lsb0 fields of more than 8 bits that do not fill the type (C17). -/
theorem C19_ordered_signed_round_trip_partial (native e : Endian) (W n : Nat) (o : Order)
    (ctx : IntCtx) (v : Int) (hs : ctx.signedBitsOrder native = some (e, n, o)) (h1 : 1 ≤ n)
    (hn : n ≤ 8 * W) (hv : InRange n v) (hpos : 0 ≤ v ∨ n = 8 * W)
    (hc : o = .lsb0 → e = .big → n ≤ 8 ∨ n = 8 * W) (p : Nat) :
    ∃ bits, bits.length = n ∧ Writes o p (writeSigned native W ctx v) bits ∧
      Reads o p (readSigned native W ctx) bits v := by
  have hvW : InRange (8 * W) v := hv.mono hn
  have hlt : pattern W v < 2 ^ n := by
    by_cases hf : n = 8 * W
    · subst hf; rw [← pow256]; exact pattern_lt W v
    · rw [pattern_lt_iff h1 (by omega) hvW]
      refine ⟨hpos.resolve_right hf, ?_⟩
      have := (inRange_bounds h1 hv).2
      omega
  have hd : Dense e n o := Sound.dense hc
  refine ⟨fieldBits e o n (pattern W v), length_fieldBits .., ?_, ?_⟩
  · rw [writeSigned_bitsOrder hs]
    exact Writer.Done.writes (fun w hw => writeBitsOrd_done hw.wf hw.ready h1 hn hlt hc) rfl
  · have hbits : Reads o p (readSignedBitsOrd W e n o) (fieldBits e o n (pattern W v)) v := by
      have := (readSignedBitsOrd_delivers e o h1 hn).reads
        (length_fieldBits e o n (pattern W v)) p
      rwa [fieldValue_fieldBits hd, Nat.mod_mod, twosComplement_pattern h1 hn hv] at this
    cases ctx <;> simp [IntCtx.signedBitsOrder] at hs
    case bitsOrder m o' =>
      obtain ⟨rfl, rfl, rfl⟩ := hs
      simp only [readSigned]
      by_cases hm : m % 8 = 0
      · rw [if_pos hm]
        have := (readSignedBytesOrd_delivers (W := W) (k := m / 8) native o' (by omega) (by omega)).reads
          (bits := fieldBits native o' m (pattern W v)) (by rw [length_fieldBits]; omega) p
        rw [fieldValue_fieldBits hd, Nat.mod_eq_of_lt hlt] at this
        have hval : twosComplement (8 * W) (pattern W v) = v := by
          have := twosComplement_pattern (W := W) (n := 8 * W) (by omega) (by omega) hvW
          rwa [Nat.mod_eq_of_lt (by rw [← pow256]; exact pattern_lt W v)] at this
        rwa [hval] at this
      · rw [if_neg hm]; exact hbits
    case endianBitsOrder e' m o' =>
      obtain ⟨rfl, rfl, rfl⟩ := hs
      exact hbits

example : (IntCtx.endianBitsOrder .little 12 .lsb0).signedBitsOrder .little =
    some (.little, 12, .lsb0) ∧ InRange 12 1234 ∧ InRange 16 (-1234) := by decide

/-- **C19** is false: with a bit order a negative value in range is refused, and a value out of range
is accepted and reads back as a different one. -/
theorem C19_counterexample :
    InRange 4 (-3) ∧
    toBytes (writeSigned .little 1 (.endianBitsOrder .little 4 .msb0) (-3)) = .err .invalidParam ∧
    ¬ InRange 4 12 ∧
    toBytes (writeSigned .little 1 (.endianBitsOrder .little 4 .msb0) 12) = .ok [0xC0#8] ∧
    parseSigned (.endianBitsOrder .little 4 .msb0) 1 [0xC0#8] = .ok (-4) := by decide

/-! ## C20, C21: refusing what does not fit -/

/-- **C20.** In every writer state, with any order and endianness: an unsigned bit field of `n ≥ 1`
bits is accepted exactly when the value fits, it then accounts for exactly `n` bits, and otherwise
`InvalidParam` is returned and the writer is untouched. -/
theorem C20_accepted_iff_fits (native e : Endian) (W n v : Nat) (o : Order) (ctx : IntCtx)
    (hb : ctx.isBits = true) (hs : ctx.shape native W = (e, n, o)) (h1 : 1 ≤ n) (hv : v < 256 ^ W)
    (w : Writer) (hw : w.WF) (hh : w.Healthy) :
    ((∃ w', writeUnsigned native W ctx v w = (.ok (), w')) ↔ v < 2 ^ n ∧ n ≤ 8 * W) ∧
    (∀ w', writeUnsigned native W ctx v w = (.ok (), w') →
      8 * w'.inner.pos + w'.leftover.length = 8 * w.inner.pos + w.leftover.length + n) ∧
    (¬ (v < 2 ^ n ∧ n ≤ 8 * W) → writeUnsigned native W ctx v w = (.err .invalidParam, w)) := by
  have href := writeUnsigned_refuses native ctx hb hv
  have htook := writeUnsigned_took native ctx (W := W) (v := v) hw hh
  rw [hs] at href htook
  have hfit : v < 2 ^ n ∧ n ≤ 8 * W → ∃ w', writeUnsigned native W ctx v w = (.ok (), w') ∧
      Grew n w w' := fun h => (htook h1 h.2 h.1).ok hh
  have hno : ¬ (v < 2 ^ n ∧ n ≤ 8 * W) → writeUnsigned native W ctx v w = (.err .invalidParam, w) :=
    fun h => href (by omega) w
  refine ⟨⟨?_, fun h => ?_⟩, ?_, hno⟩
  · rintro ⟨w', h⟩
    apply Classical.byContradiction
    intro hc
    rw [hno hc] at h; simp at h
  · obtain ⟨w', h', _⟩ := hfit h; exact ⟨w', h'⟩
  · intro w' h
    have hc : v < 2 ^ n ∧ n ≤ 8 * W := by
      apply Classical.byContradiction
      intro hc
      rw [hno hc] at h; simp at h
    obtain ⟨w'', h'', hg⟩ := hfit hc
    rw [h] at h''
    simp at h''
    rw [h'']; exact hg.len

/-- **C20** (part): nothing is lost. Two values accepted for the same field are told apart by what
the writer produces; except big endian Lsb0 fields of more than 8 bits that do not fill the type,
where bits are lost (`C20_big_lsb0_loses_bits`). -/
theorem C20_lossless_partial (native e : Endian) (W n v v' : Nat) (o : Order) (ctx : IntCtx)
    (hW : 1 ≤ W) (hb : ctx.isBits = true) (hs : ctx.shape native W = (e, n, o)) (h1 : 1 ≤ n)
    (hv : v < 256 ^ W) (hv' : v' < 256 ^ W) (hc : o = .lsb0 → e = .big → n ≤ 8 ∨ n = 8 * W)
    (p : Nat) (w w1 w2 : Writer) (hw : w.At o p)
    (h : writeUnsigned native W ctx v w = (.ok (), w1))
    (h' : writeUnsigned native W ctx v' w = (.ok (), w2))
    (heq : w1.produced o = w2.produced o) : v = v' := by
  obtain ⟨hn, hlt⟩ := accepted_fits hb hs hv h
  obtain ⟨_, hlt'⟩ := accepted_fits hb hs hv' h'
  have hcomp : Compatible native W ctx p := by
    simp only [Compatible, hb, hs, if_true]; exact hc
  obtain ⟨wa, ha, sa, _⟩ := (round_trip hW hs h1 hn hlt hcomp).1 w hw
  obtain ⟨wb, hb', sb, _⟩ := (round_trip hW hs h1 hn hlt' hcomp).1 w hw
  rw [h] at ha; rw [h'] at hb'
  simp at ha hb'
  subst ha hb'
  have := sa.produced.symm.trans (heq.trans sb.produced)
  have hbits := List.append_cancel_left this
  have hd := hcomp.dense
  rw [hs] at hd
  have := congrArg (fieldValue e o) hbits
  rwa [fieldValue_fieldBits hd, fieldValue_fieldBits hd, Nat.mod_eq_of_lt hlt,
    Nat.mod_eq_of_lt hlt'] at this

/-- **C20** is false for big endian Lsb0: two different accepted values give the same output. -/
theorem C20_big_lsb0_loses_bits :
    toBytes (writeUnsigned .little 2 (.endianBitsOrder .big 12 .lsb0) 0xABC) =
    toBytes (writeUnsigned .little 2 (.endianBitsOrder .big 12 .lsb0) 0xADC) := by decide

/-- **C20**, field of no bits: the value 0 fits, but the big endian Msb0 path fails a debug
assertion. -/
theorem C20_zero_bits_panics :
    (writeUnsigned .little 2 (.endianBitsOrder .big 0 .msb0) 0 (Writer.new {})).1 = .panic := by decide

example : (IntCtx.bitsOrder 11 .lsb0).isBits = true ∧
    (IntCtx.bitsOrder 11 .lsb0).shape .big 4 = (.big, 11, .lsb0) ∧ 2047 < 2 ^ 11 ∧ ¬ 2048 < 2 ^ 11 :=
  by decide

/-- Sizes a context asks for, in bits or bytes as given; `none` for the size of the type. -/
def IntCtx.asked : IntCtx → Option Nat
  | .bits n | .endianBits _ n | .bitsOrder n _ | .endianBitsOrder _ n _ => some n
  | .bytes k | .endianBytes _ k | .endianBytesOrder _ k _ => some (8 * k)
  | _ => none

/-- **C21**, signed types: too large a size is refused and nothing happens. -/
theorem C21_signed_oversize_refused (native : Endian) (W n : Nat) (ctx : IntCtx) (v : Int)
    (hv : InRange (8 * W) v) (ha : ctx.asked = some n) (hn : 8 * W < n) :
    Refuses (readSigned native W ctx) .parse ∧ Refuses (writeSigned native W ctx v) .invalidParam := by
  have hbytes : ∀ e k o, W < k → Refuses (readSignedBytesOrd W e k o) .parse := by
    intro e k o hk s; simp only [readSignedBytesOrd, gt_iff_lt, if_pos hk]; rfl
  have hbits : ∀ e k o, 8 * W < k → Refuses (readSignedBitsOrd W e k o) .parse := by
    intro e k o hk s; simp only [readSignedBitsOrd, gt_iff_lt, if_pos hk]; rfl
  have hwby : ∀ e k p, W < k → Refuses (writeBytes W e k p) .invalidParam := by
    intro e k p hk s; simp only [Prim.writeBytes, gt_iff_lt, if_pos hk]; rfl
  cases ctx <;> simp [IntCtx.asked] at ha
  case bits m =>
    subst ha
    refine ⟨?_, fun w => writeSignedBits_refuses _ w hv (.inl hn)⟩
    simp only [readSigned]
    by_cases h : m % 8 = 0
    · rw [if_pos h]; exact hbytes _ _ _ (by omega)
    · rw [if_neg h]; exact hbits _ _ _ hn
  case bytes k => exact ⟨hbytes _ _ _ (by omega), hwby _ _ _ (by omega)⟩
  case endianBits e m =>
    subst ha
    exact ⟨hbits _ _ _ hn, fun w => writeSignedBits_refuses _ w hv (.inl hn)⟩
  case endianBytes e k => exact ⟨hbytes _ _ _ (by omega), hwby _ _ _ (by omega)⟩
  case bitsOrder m o =>
    subst ha
    refine ⟨?_, fun w => writeBitsOrd_refuses _ _ w (pattern_lt W v) (.inl hn)⟩
    simp only [readSigned]
    by_cases h : m % 8 = 0
    · rw [if_pos h]; exact hbytes _ _ _ (by omega)
    · rw [if_neg h]; exact hbits _ _ _ hn
  case endianBitsOrder e m o =>
    subst ha
    exact ⟨hbits _ _ _ hn, fun w => writeBitsOrd_refuses _ _ w (pattern_lt W v) (.inl hn)⟩
  case endianBytesOrder e k o => exact ⟨hbytes _ _ _ (by omega), hwby _ _ _ (by omega)⟩

/-- **C21** (part), unsigned types other than `u8`. `u8` ignores its size, see
`C21_u8_ignores_size`. -/
theorem C21_unsigned_oversize_refused_partial (native : Endian) (W n v : Nat) (ctx : IntCtx)
    (hW : W ≠ 1) (hv : v < 256 ^ W) (ha : ctx.asked = some n) (hn : 8 * W < n) :
    Refuses (readUnsigned native W ctx) .parse ∧
    Refuses (writeUnsigned native W ctx v) .invalidParam := by
  have hbytes : ∀ e k o, W < k → Refuses (readUBytesOrd W e k o) .parse := by
    intro e k o hk s; simp only [readUBytesOrd, if_neg hW, readBytesOrd, gt_iff_lt, if_pos hk]; rfl
  have hbits : ∀ e k, 8 * W < k → Refuses (readBits W e k) .parse := by
    intro e k hk s; simp only [Prim.readBits, gt_iff_lt, if_pos hk]; rfl
  have hbitsO : ∀ e k o, 8 * W < k → Refuses (readBitsOrd W e k o) .parse := by
    intro e k o hk s; simp only [readBitsOrd, gt_iff_lt, if_pos hk]; rfl
  have hwby : ∀ e k p, W < k → Refuses (writeUBytes W e k p) .invalidParam := by
    intro e k p hk s; simp only [writeUBytes, if_neg hW, Prim.writeBytes, gt_iff_lt, if_pos hk]; rfl
  have hwr := writeUnsigned_refuses native (W := W) (v := v) ctx
  cases ctx <;> simp [IntCtx.asked] at ha
  case bits m =>
    subst ha
    refine ⟨?_, hwr rfl hv (.inl hn)⟩
    simp only [readUnsigned]
    by_cases h : m % 8 = 0
    · rw [if_pos h]; exact hbytes _ _ _ (by omega)
    · rw [if_neg h]; exact hbits _ _ hn
  case bytes k => exact ⟨hbytes _ _ _ (by omega), hwby _ _ _ (by omega)⟩
  case endianBits e m => subst ha; exact ⟨hbits _ _ hn, hwr rfl hv (.inl hn)⟩
  case endianBytes e k => exact ⟨hbytes _ _ _ (by omega), hwby _ _ _ (by omega)⟩
  case bitsOrder m o =>
    subst ha
    refine ⟨?_, hwr rfl hv (.inl hn)⟩
    simp only [readUnsigned]
    by_cases h : m % 8 = 0
    · rw [if_pos h]; exact hbytes _ _ _ (by omega)
    · rw [if_neg h]; exact hbitsO _ _ _ hn
  case endianBitsOrder e m o => subst ha; exact ⟨hbitsO _ _ _ hn, hwr rfl hv (.inl hn)⟩
  case endianBytesOrder e k o => exact ⟨hbytes _ _ _ (by omega), hwby _ _ _ (by omega)⟩

example : (IntCtx.endianBitsOrder .big 33 .lsb0).asked = some 33 ∧ 8 * 4 < 33 := by decide

/-- **C21**, `u8`: a bit size given with an endianness is refused as it should be. -/
theorem C21_u8_bits_refused_partial (native e : Endian) (n v : Nat) (o : Order) (hn : 8 < n)
    (hv : v < 256) :
    Refuses (readUnsigned native 1 (.endianBits e n)) .parse ∧
    Refuses (readUnsigned native 1 (.endianBitsOrder e n o)) .parse ∧
    Refuses (writeUnsigned native 1 (.endianBits e n) v) .invalidParam ∧
    Refuses (writeUnsigned native 1 (.endianBitsOrder e n o) v) .invalidParam := by
  refine ⟨fun s => ?_, fun s => ?_, ?_, ?_⟩
  · simp only [readUnsigned, Prim.readBits, Nat.mul_one, gt_iff_lt, if_pos hn]; rfl
  · simp only [readUnsigned, readBitsOrd, Nat.mul_one, gt_iff_lt, if_pos hn]; rfl
  · exact writeUnsigned_refuses native (W := 1) (.endianBits e n) rfl (by simpa using hv) (.inl (by omega))
  · exact writeUnsigned_refuses native (W := 1) (.endianBitsOrder e n o) rfl (by simpa using hv) (.inl (by omega))

/-- **C21** is false for `u8`: `bytes = 2` and `bits = 16` read one byte, `bytes = 2` writes one. -/
theorem C21_u8_ignores_size :
    parseInt (.bytes 2) 1 [0x12#8, 0x34#8] = .ok 0x12 ∧
    parseInt (.bits 16) 1 [0x12#8, 0x34#8] = .ok 0x12 ∧
    toBytes (writeUnsigned .little 1 (.bytes 2) 0x12) = .ok [0x12#8] := by decide

/-! ## C22, C23, C24: byte-sized and whole integers -/

/-- The bytes of a `k`-byte integer in memory order: byte `i` of the little endian form is
`v / 256 ^ i % 256`, the big endian form is its reverse. -/
def wireBytes (e : Endian) (k v : Nat) : List Byte :=
  match e with
  | .little => (List.range k).map fun i => BitVec.ofNat 8 (v / 256 ^ i)
  | .big => ((List.range k).map fun i => BitVec.ofNat 8 (v / 256 ^ i)).reverse

theorem toLE_eq_map (k v : Nat) :
    toLE k v = (List.range k).map fun i => BitVec.ofNat 8 (v / 256 ^ i) := by
  induction k generalizing v with
  | zero => rfl
  | succ k ih =>
    rw [List.range_succ_eq_map, List.map_cons, List.map_map, toLE, ih]
    congr 1
    · simp
    · apply List.map_congr_left
      intro i _
      simp [Nat.pow_succ', Nat.div_div_eq_div_mul]

theorem bytesBits_wireBytes (e : Endian) (k v : Nat) :
    bytesBits (wireBytes e k v) = fieldBits e .msb0 (8 * k) v := by
  rw [← orderBits_endianBytes]
  cases e <;> simp [wireBytes, endianBytes, toBE, toLE_eq_map, orderBits]

/-- Byte-sized attributes of unsigned types without a bit order. -/
def IntCtx.byteSize (native : Endian) : IntCtx → Option (Endian × Nat)
  | .bytes k => some (native, k)
  | .endianBytes e k => some (e, k)
  | _ => none

/-- **C22** (part): the encoding. A field of `k` bytes is written as the `k` least significant bytes
in the order of its endianness, at every Msb0 alignment. (For values of `256 ^ k` and more this is
a silent truncation, see `C22_larger_values_truncated`.) -/
theorem C22_byte_sized_encoding (native e : Endian) (W k v : Nat) (ctx : IntCtx)
    (hs : ctx.byteSize native = some (e, k)) (hk : k ≤ W) (hW : W ≠ 1 ∨ k = 1) (p : Nat) :
    Writes .msb0 p (writeUnsigned native W ctx v)
      (bytesBits (wireBytes e k v)) := by
  rw [bytesBits_wireBytes]
  have hw : Writes .msb0 p (writeUBytes W e k v) (fieldBits e .msb0 (8 * k) v) := by
    have := writeUBytes_writes (W := W) (k := k) (v := v) (o := .msb0) (p := p) e (fun _ => hk) (by simp)
    rwa [show (if W = 1 then 8 else 8 * k) = 8 * k by
      split
      · rcases hW with h | h <;> omega
      · rfl] at this
  cases ctx <;> simp [IntCtx.byteSize] at hs
  case bytes => obtain ⟨rfl, rfl⟩ := hs; exact hw
  case endianBytes => obtain ⟨rfl, rfl⟩ := hs; exact hw

/-- Reading no bytes at all. -/
theorem readBytesOrd_zero (W : Nat) (e : Endian) (o : Order) (p : Nat) :
    Reads o p (readBytesOrd W e 0 o) [] 0 := by
  intro r rest hr hu
  obtain ⟨bs, r', h1, h2, h3⟩ := readBytes_ok o hr.healthy hr.wf (n := 0) (.inl hr.noPeek) (by simp)
  have hbs : bs = [] := by
    have := congrArg List.length h2
    simp at this
    exact List.eq_nil_of_length_eq_zero (by omega)
  refine ⟨r', ?_, h3⟩
  unfold readBytesOrd
  rw [if_neg (by omega), M.bind_ok h1, hbs]
  have hz := leNat_replicate_zero W
  have hz' : beNat (List.replicate W (0 : Byte)) = 0 := by
    rw [← leNat_reverse, List.reverse_replicate, hz]
  cases e <;> simp_all [bufNat, M.pure_run]

/-- **C22** (part): round trip of values below `256 ^ k`, for every `k` from 0 to the size of the type
(`u8` has only `k = 1`), at every Msb0 alignment. The other half of the statement, refusal of larger
values, is false. -/
theorem C22_byte_sized_round_trip_partial (native e : Endian) (W k v : Nat) (ctx : IntCtx)
    (h1 : 1 ≤ W) (hs : ctx.byteSize native = some (e, k)) (hk : k ≤ W) (hW : W ≠ 1 ∨ k = 1)
    (hv : v < 256 ^ k) (p : Nat) :
    ∃ bits, bits.length = 8 * k ∧ Writes .msb0 p (writeUnsigned native W ctx v) bits ∧
      Reads .msb0 p (readUnsigned native W ctx) bits v := by
  refine ⟨_, ?_, C22_byte_sized_encoding native e W k v ctx hs hk hW p, ?_⟩
  · rw [bytesBits_wireBytes, length_fieldBits]
  · rw [bytesBits_wireBytes]
    have hr : Reads .msb0 p (readUBytesOrd W e k .msb0) (fieldBits e .msb0 (8 * k) v) v := by
      by_cases h0 : k = 0
      · subst h0
        have hW' : W ≠ 1 := hW.resolve_right (by omega)
        have hv0 : v = 0 := by simpa using hv
        subst hv0
        have he : fieldBits e .msb0 (8 * 0) 0 = [] := by
          apply List.eq_nil_of_length_eq_zero; rw [length_fieldBits]
        rw [he, readUBytesOrd, if_neg hW']
        exact readBytesOrd_zero W e .msb0 p
      · have := (readUBytesOrd_delivers (W := W) (k := k) e .msb0 (by omega) (fun _ => hk)).reads
          (bits := fieldBits e .msb0 (8 * k) v)
          (by rw [length_fieldBits]; split <;> rcases hW with h | h <;> omega) p
        rwa [fieldValue_fieldBits (dense_msb _ _), Nat.mod_eq_of_lt (by rwa [← pow256])] at this
    cases ctx <;> simp [IntCtx.byteSize] at hs
    case bytes => obtain ⟨rfl, rfl⟩ := hs; exact hr
    case endianBytes => obtain ⟨rfl, rfl⟩ := hs; exact hr

example : (IntCtx.endianBytes .big 3).byteSize .little = some (.big, 3) ∧ 0x123456 < 256 ^ 3 := by
  decide

/-- **C22** is false for larger values: they are truncated silently. -/
theorem C22_larger_values_truncated :
    toBytes (writeUnsigned .little 4 (.endianBytes .big 2) 0x123456) = .ok [0x34#8, 0x56#8] ∧
    parseInt (.endianBytes .big 2) 4 [0x34#8, 0x56#8] = .ok 0x3456 := by decide

/-- **C23.** A whole unsigned integer (or float bit pattern): its bytes in the order of the
endianness, and back, at every Msb0 alignment. -/
theorem C23_whole_unsigned_round_trip (native e : Endian) (W v : Nat) (ctx : IntCtx) (hW : 1 ≤ W)
    (hc : ctx = .endian e ∨ (ctx = .unit ∧ e = native)) (hv : v < 256 ^ W) (p : Nat) :
    Writes .msb0 p (writeUnsigned native W ctx v)
      (bytesBits (wireBytes e W v)) ∧
    Reads .msb0 p (readUnsigned native W ctx)
      (bytesBits (wireBytes e W v)) v := by
  rw [bytesBits_wireBytes]
  have hs : ctx.shape native W = (e, 8 * W, .msb0) := by
    rcases hc with rfl | ⟨rfl, rfl⟩ <;> rfl
  refine round_trip hW hs (by omega) (Nat.le_refl _) (by rwa [← pow256]) ?_
  rcases hc with rfl | ⟨rfl, rfl⟩ <;> simp [Compatible, IntCtx.isBits, IntCtx.shape]

/-- **C23**, signed integers. -/
theorem C23_whole_signed_round_trip (native e : Endian) (W : Nat) (v : Int) (ctx : IntCtx)
    (hW : 1 ≤ W) (hc : ctx = .endian e ∨ (ctx = .unit ∧ e = native)) (hv : InRange (8 * W) v)
    (p : Nat) :
    Writes .msb0 p (writeSigned native W ctx v)
      (bytesBits (wireBytes e W (pattern W v))) ∧
    Reads .msb0 p (readSigned native W ctx)
      (bytesBits (wireBytes e W (pattern W v))) v := by
  rw [bytesBits_wireBytes]
  have hw : Writes .msb0 p (writeWhole W e (pattern W v)) (fieldBits e .msb0 (8 * W) (pattern W v)) :=
    writeWhole_writes e p
  have hr : Reads .msb0 p (readSignedWhole W e) (fieldBits e .msb0 (8 * W) (pattern W v)) v := by
    have := (readSignedWhole_delivers e hW).reads (length_fieldBits e .msb0 (8 * W) (pattern W v)) p
    rwa [fieldValue_fieldBits (dense_msb _ _), twosComplement_pattern (by omega) (Nat.le_refl _) hv]
      at this
  rcases hc with rfl | ⟨rfl, rfl⟩ <;> exact ⟨hw, hr⟩

example : InRange (8 * 2) (-12345) ∧ pattern 2 (-12345) = 0xCFC7 := by decide

/-- **C24** (part). Signed byte-sized integers round-trip when non-negative or of full size. -/
theorem C24_signed_byte_sized_round_trip_partial (native e : Endian) (W k : Nat) (v : Int)
    (ctx : IntCtx) (hs : ctx.byteSize native = some (e, k)) (h1 : 1 ≤ k) (hk : k ≤ W)
    (hv : InRange (8 * k) v) (hpos : 0 ≤ v ∨ k = W) (p : Nat) :
    ∃ bits, bits.length = 8 * k ∧ Writes .msb0 p (writeSigned native W ctx v) bits ∧
      Reads .msb0 p (readSigned native W ctx) bits v := by
  have hvW : InRange (8 * W) v := hv.mono (by omega)
  have hlt : pattern W v < 2 ^ (8 * k) := by
    by_cases hf : k = W
    · subst hf; rw [← pow256]; exact pattern_lt k v
    · rw [pattern_lt_iff (by omega) (by omega) hvW]
      refine ⟨hpos.resolve_right hf, ?_⟩
      have := (inRange_bounds (by omega) hv).2
      omega
  have hw : Writes .msb0 p (writeBytes W e k (pattern W v)) (fieldBits e .msb0 (8 * k) (pattern W v)) :=
    writeBytesInt_writes e hk (by simp)
  have hr : Reads .msb0 p (readSignedBytesOrd W e k .msb0)
      (fieldBits e .msb0 (8 * k) (pattern W v)) v := by
    have := (readSignedBytesOrd_delivers (W := W) e .msb0 h1 hk).reads
      (length_fieldBits e .msb0 (8 * k) (pattern W v)) p
    rw [fieldValue_fieldBits (dense_msb _ _), Nat.mod_eq_of_lt hlt] at this
    have hval : twosComplement (8 * W) (pattern W v) = v := by
      have := twosComplement_pattern (W := W) (n := 8 * W) (by omega) (by omega) hvW
      rwa [Nat.mod_eq_of_lt (by rw [← pow256]; exact pattern_lt W v)] at this
    rwa [hval] at this
  refine ⟨fieldBits e .msb0 (8 * k) (pattern W v), length_fieldBits .., ?_⟩
  cases ctx <;> simp [IntCtx.byteSize] at hs
  case bytes => obtain ⟨rfl, rfl⟩ := hs; exact ⟨hw, hr⟩
  case endianBytes => obtain ⟨rfl, rfl⟩ := hs; exact ⟨hw, hr⟩

example : InRange (8 * 2) 30000 ∧ (IntCtx.bytes 2).byteSize .big = some (.big, 2) := by decide

/-- **C24** is false: -1 written as one byte reads back as 255. -/
theorem C24_counterexample :
    InRange (8 * 1) (-1) ∧
    toBytes (writeSigned .little 4 (.endianBytes .little 1) (-1)) = .ok [0xFF#8] ∧
    parseSigned (.endianBytes .little 1) 4 [0xFF#8] = .ok 255 := by decide

/-! ## C25, C26: byte fields and mixed orders -/

/-- **C25** (part). Lsb0 formats of bit fields and whole-byte fields round-trip end to end when each
whole-byte field starts at a byte boundary. -/
theorem C25_lsb0_byte_fields_end_to_end_partial (native : Endian) (fs : List IntField)
    (h : FieldsOk native .lsb0 0 fs) :
    ∃ out r, toBytes (writeFields native fs) = .ok out ∧
      readFields native fs (Reader.new { data := out }) = (.ok (fs.map IntField.v), r) ∧
      r.bitsRead = (fs.map (IntField.size native)).sum :=
  fields_end_to_end fs h

/-- A 3-bit field, a 5-bit field, a whole `u16`, a 12-bit field. -/
def exampleLsbBytes : List IntField :=
  [⟨1, .bitsOrder 3 .lsb0, 5⟩, ⟨1, .bitsOrder 5 .lsb0, 17⟩, ⟨2, .endianOrder .big .lsb0, 0xBEEF⟩,
    ⟨2, .endianBitsOrder .little 12 .lsb0, 0xABC⟩]
example : FieldsOk .little .lsb0 0 exampleLsbBytes := by
  simp [FieldsOk, exampleLsbBytes, IntCtx.shape, IntField.size, Compatible, IntCtx.isBits, Sound]

/-- **C25** is false in mid-byte: a 4-bit field 0x5 followed by a whole byte 0xAB, all Lsb0, is
written as 0xAB 0x50, with the later field first, and reads back as 0xB and 0x0A. -/
theorem C25_counterexample :
    toBytes (writeFields .little [⟨1, .bitsOrder 4 .lsb0, 0x5⟩, ⟨1, .order .lsb0, 0xAB⟩]) =
      .ok [0xAB#8, 0x50#8] ∧
    (readFields .little [⟨1, .bitsOrder 4 .lsb0, 0⟩, ⟨1, .order .lsb0, 0⟩]
      (Reader.new { data := [0xAB#8, 0x50#8] })).1 = .ok [0xB, 0x0A] := by decide

/-- After a switch to Msb0: the leading byte fields and the first bit field may come there. -/
def EntersOk (native : Endian) : List IntField → Prop
  | [] => True
  | f :: fs => MayEnter native f.W f.ctx ∧ (f.ctx.isBits = false → EntersOk native fs)

theorem fields_enter {native : Endian} (fs : List IntField) {p : Nat} (hp : p % 8 = 0)
    (h : FieldsOk native .msb0 p fs) (he : EntersOk native fs) :
    Enters false (writeFields native fs) (fs.flatMap (IntField.bits native)) := by
  induction fs generalizing p with
  | nil => exact fun w hw => ⟨w, rfl, Wrote.refl .msb0 hw.wf, .inr ⟨rfl, hw.empty⟩⟩
  | cons f fs ih =>
    obtain ⟨hW, ho, h1, hn, hv, hc, hrest⟩ := h
    intro w hw
    have hs : f.ctx.shape native f.W = ((f.ctx.shape native f.W).1, f.size native, .msb0) := by
      rw [← ho]; rfl
    obtain ⟨w1, e1, s1, t1⟩ := writeUnsigned_enters native f.ctx hs h1 hn hv he.1 w hw
    have hb : fieldBits (f.ctx.shape native f.W).1 .msb0 (f.size native) f.v = f.bits native := by
      rw [IntField.bits, ho]
    rw [hb] at s1
    simp only [writeFields]
    rw [M.bind_ok e1, List.flatMap_cons]
    by_cases ht : w1.tag = .msb0
    · have hat : w1.At .msb0 (p + f.size native) := by
        refine ⟨s1.wf, s1.healthy hw.healthy, ht, ?_⟩
        have h3 := s1.len; have := s1.wf.2
        rw [hw.empty, f.length_bits] at h3
        simp at h3
        omega
      obtain ⟨w2, e2, s2, r2⟩ := (fields_round_trip fs hrest).1 w1 hat
      exact ⟨w2, e2, s1.trans s2, .inl r2⟩
    · obtain ⟨hb, hl⟩ := t1.resolve_left ht
      have h8 : (p + f.size native) % 8 = 0 := by
        have h3 := s1.len
        rw [hw.empty, hl, f.length_bits] at h3
        simp at h3
        omega
      obtain ⟨w2, e2, s2, r2⟩ := ih h8 hrest (he.2 hb) w1 ⟨s1.wf, s1.healthy hw.healthy, hl⟩
      exact ⟨w2, e2, s1.trans s2, r2.imp id (fun h => ⟨trivial, h.2⟩)⟩

/-- Fields of one bit order, starting at a byte boundary after whatever. -/
def GroupOk (native : Endian) (o : Order) (fs : List IntField) : Prop :=
  FieldsOk native o 0 fs ∧ (o = .msb0 → EntersOk native fs)

theorem group_writes {native : Endian} {o : Order} {fs : List IntField} (h : GroupOk native o fs)
    (w : Writer) (hw : w.Clean) :
    ∃ w', writeFields native fs w = (.ok (), w') ∧
      Wrote o (fs.flatMap (IntField.bits native)) w w' ∧ (w'.Ready o ∨ w'.leftover = []) := by
  cases o
  · obtain ⟨w', e, s, t⟩ := fields_enter fs rfl h.1 (h.2 rfl) w hw
    exact ⟨w', e, s, t.imp id (·.2)⟩
  · obtain ⟨w', e, s, t⟩ := (fields_round_trip fs h.1).1 w hw.atLsb
    exact ⟨w', e, s, .inl t⟩

theorem writeFields_append (native : Endian) (a b : List IntField) :
    writeFields native (a ++ b) = (do writeFields native a; writeFields native b) := by
  induction a with
  | nil => rfl
  | cons f a ih =>
    funext w
    simp only [List.cons_append, writeFields]
    rw [ih, M.bind_assoc_run]

theorem readFields_append (native : Endian) (a b : List IntField) :
    readFields native (a ++ b) =
      (do let x ← readFields native a; let y ← readFields native b; pure (x ++ y)) := by
  induction a with
  | nil =>
    funext r
    simp only [List.nil_append, readFields, M.pure_bind_run]
    rw [M.bind_def]
    cases h : readFields native b r with
    | mk x s => cases x <;> rfl
  | cons f a ih =>
    funext r
    simp only [List.cons_append, readFields, ih, M.bind_def]
    cases h : readUnsigned native f.W f.ctx r with
    | mk x s =>
      cases x
      · simp only
        cases h : readFields native a s with
        | mk x s =>
          cases x
          · simp only [M.pure_run]
            cases h : readFields native b s with
            | mk x s => cases x <;> rfl
          · rfl
          · rfl
      · rfl
      · rfl

/-- Groups of fields filling whole bytes, each in its own bit order, and a last group of any size. -/
def MixedOk (native : Endian) : List (Order × List IntField) → Prop
  | [] => True
  | [g] => GroupOk native g.1 g.2
  | g :: gs => GroupOk native g.1 g.2 ∧ (g.2.map (IntField.size native)).sum % 8 = 0 ∧
      MixedOk native gs

theorem mixed_round_trip {native : Endian} (gs : List (Order × List IntField))
    (h : MixedOk native gs) :
    ∃ out, WritesBytes (do writeFields native (gs.flatMap Prod.snd); finalize) out ∧
      ∀ r rest, r.At 0 → r.inner.data.drop r.inner.pos = out ++ rest →
        ∃ r', readFields native (gs.flatMap Prod.snd) r =
          (.ok ((gs.flatMap Prod.snd).map IntField.v), r') ∧
          r'.bitsRead = r.bitsRead + ((gs.flatMap Prod.snd).map (IntField.size native)).sum := by
  induction gs with
  | nil =>
    refine ⟨[], ?_, fun r rest _ _ => ⟨r, rfl, by simp⟩⟩
    intro w hw
    obtain ⟨w', e, s⟩ := finalize_wrote hw.atLsb
    rw [hw.empty, show List.replicate ((8 - ([] : List Bool).length) % 8) false =
      orderBits .lsb0 [] from rfl] at s
    obtain ⟨h1, h2, h3⟩ := Wrote.bytes hw s
    exact ⟨w', e, h1, h2, h3⟩
  | cons g gs ih =>
    obtain ⟨o, fs⟩ := g
    cases gs with
    | nil =>
      have hg : GroupOk native o fs := h
      have hlen := length_fieldsBits native fs
      -- the bytes: the bits filled up with zeros
      have hk : (fs.flatMap (IntField.bits native) ++
          List.replicate ((8 - (fs.flatMap (IntField.bits native)).length % 8) % 8) false).length
          % 8 = 0 := by
        rw [List.length_append, List.length_replicate]; omega
      refine ⟨bytesOf o (fs.flatMap (IntField.bits native) ++
          List.replicate ((8 - (fs.flatMap (IntField.bits native)).length % 8) % 8) false), ?_, ?_⟩
      · intro w hw
        obtain ⟨w1, e1, s1, t1⟩ := group_writes hg w hw
        have hll : w1.leftover.length = (fs.flatMap (IntField.bits native)).length % 8 := by
          have h3 := s1.len; have := s1.wf.2
          rw [hw.empty] at h3
          simp only [List.length_nil, Nat.add_zero] at h3
          omega
        have hfin : ∃ w', finalize w1 = (.ok (), w') ∧
            Wrote o (List.replicate ((8 - w1.leftover.length) % 8) false) w1 w' := by
          rcases t1 with t1 | t1
          · exact finalize_wrote (p := w1.leftover.length) ⟨s1.wf, s1.healthy hw.healthy, t1, by
              have := s1.wf.2; omega⟩
          · obtain ⟨w', e, s⟩ := finalize_wrote
              (Writer.Clean.atLsb ⟨s1.wf, s1.healthy hw.healthy, t1⟩)
            refine ⟨w', e, ?_⟩
            have hz : ∀ o, List.replicate ((8 - w1.leftover.length) % 8) false = orderBits o [] := by
              intro o; rw [t1]; cases o <;> rfl
            rw [hz .lsb0] at s
            have hc := Wrote.bytes ⟨s1.wf, s1.healthy hw.healthy, t1⟩ s
            rw [hz o]
            refine ⟨?_, by simpa [length_orderBits] using s.len, s.wf, s.counted, s.tail, s.cap, s.faults, s.calls, s.quiet⟩
            have hpp : present o [] = [] := by cases o <;> rfl
            simp only [produced, Writer.rest, hc.1.empty, t1, hpp, hc.2.1, List.append_nil]
            rw [← orderBits_append, List.append_nil]
        obtain ⟨w2, e2, s2⟩ := hfin
        have s := s1.trans s2
        rw [hll, ← orderBits_bytesOf o _ hk] at s
        obtain ⟨h1, h2, h3⟩ := Wrote.bytes hw s
        refine ⟨w2, ?_, h1, h2, h3⟩
        simp only [List.flatMap_cons, List.flatMap_nil, List.append_nil]
        rw [M.bind_ok e1, e2]
      · intro r rest hr hu
        obtain ⟨r', e, s⟩ := (fields_round_trip fs hg.1).2 r
          (List.replicate ((8 - (fs.flatMap (IntField.bits native)).length % 8) % 8) false ++
            orderBits o rest) hr (by
            rw [hr.unread_aligned, hu, orderBits_append, orderBits_bytesOf o _ hk, List.append_assoc])
        simp only [List.flatMap_cons, List.flatMap_nil, List.append_nil]
        exact ⟨r', e, by rw [s.bitsRead, hlen]⟩
    | cons g' gs =>
      obtain ⟨hg, h8, hgs⟩ := h
      obtain ⟨out, hw, hr⟩ := ih hgs
      have hlen := length_fieldsBits native fs
      have hk : (fs.flatMap (IntField.bits native)).length % 8 = 0 := by
        simp only at h8; omega
      have hbs := orderBits_bytesOf o _ hk
      generalize bytesOf o (fs.flatMap (IntField.bits native)) = bs at hbs
      refine ⟨bs ++ out, ?_, ?_⟩
      · have h1 : WritesBytes (writeFields native fs) bs := by
          intro w hw
          obtain ⟨w1, e1, s1, _⟩ := group_writes hg w hw
          rw [← hbs] at s1
          obtain ⟨h1, h2, h3⟩ := Wrote.bytes hw s1
          exact ⟨w1, e1, h1, h2, h3⟩
        have h2 := h1.bind hw
        have he : (do writeFields native (((o, fs) :: g' :: gs).flatMap Prod.snd); finalize) =
            (do writeFields native fs
                writeFields native ((g' :: gs).flatMap Prod.snd)
                finalize) := by
          funext w
          rw [List.flatMap_cons, writeFields_append, M.bind_assoc_run]
        rw [he]; exact h2
      · intro r rest ha hu
        have h1 : ReadsBytes (readFields native fs) bs (fs.map IntField.v) := by
          have := (fields_round_trip fs hg.1).2
          rw [← hbs] at this
          exact this.bytes
        obtain ⟨r1, e1, a1, u1, c1⟩ := h1 r (out ++ rest) ha (by rw [hu, List.append_assoc])
        obtain ⟨r2, e2, c2⟩ := hr r1 rest a1 u1
        refine ⟨r2, ?_, ?_⟩
        · rw [List.flatMap_cons, readFields_append, M.bind_ok e1, M.bind_ok e2]
          simp
        · have := congrArg List.length hbs
          rw [length_orderBits, hlen] at this
          have h2 : ((((o, fs) :: g' :: gs).flatMap Prod.snd).map (IntField.size native)).sum =
              (fs.map (IntField.size native)).sum +
              (((g' :: gs).flatMap Prod.snd).map (IntField.size native)).sum := by
            rw [List.flatMap_cons, List.map_append, List.sum_append]
          rw [c2, c1, h2, this]
          omega

/-- **C26** (part). Sequences of groups of fields with alternating bit orders, each group but the
last filling whole bytes: `to_bytes` followed by reading gives back all values. Required beyond the
conditions for each order by itself: after a switch to Msb0, the first bit field is little endian or
has at most 8 bits. Otherwise its bytes are written in reverse, see `C26_counterexample`. -/
theorem C26_mixed_orders_end_to_end_partial (native : Endian) (gs : List (Order × List IntField))
    (h : MixedOk native gs) :
    ∃ out r, toBytes (writeFields native (gs.flatMap Prod.snd)) = .ok out ∧
      readFields native (gs.flatMap Prod.snd) (Reader.new { data := out }) =
        (.ok ((gs.flatMap Prod.snd).map IntField.v), r) ∧
      r.bitsRead = ((gs.flatMap Prod.snd).map (IntField.size native)).sum := by
  obtain ⟨out, hw, hr⟩ := mixed_round_trip gs h
  obtain ⟨r, e, c⟩ := hr (Reader.new { data := out }) [] (Reader.new_at out) (by simp [Reader.new])
  exact ⟨out, r, hw.toBytes, e, by rw [c]; simp [Reader.new]⟩

/-- Lsb0 3 and 13 bits, then Msb0 a whole `u16`, 5 and 11 bits, then Lsb0 12 bits. -/
def exampleMixed : List (Order × List IntField) :=
  [(.lsb0, [⟨1, .bitsOrder 3 .lsb0, 5⟩, ⟨2, .bitsOrder 13 .lsb0, 0x1234⟩]),
    (.msb0, [⟨2, .endian .big, 0xBEEF⟩, ⟨1, .endianBits .big 5, 0x15⟩, ⟨2, .endianBits .big 11, 0x5AB⟩]),
    (.lsb0, [⟨2, .bitsOrder 12 .lsb0, 0xABC⟩])]
example : MixedOk .little exampleMixed := by
  simp [MixedOk, exampleMixed, GroupOk, FieldsOk, EntersOk, MayEnter, IntCtx.shape, IntField.size,
    Compatible, IntCtx.isBits, Sound]

/-- **C26** is false in general: an 8-bit Lsb0 field followed by a 16-bit big endian Msb0 bit field,
whose bytes are then written in the wrong order. -/
theorem C26_counterexample :
    toBytes (writeFields .little
      [⟨1, .bitsOrder 8 .lsb0, 0x11⟩, ⟨2, .endianBitsOrder .big 16 .msb0, 0x2233⟩]) =
      .ok [0x11#8, 0x33#8, 0x22#8] ∧
    (readFields .little
      [⟨1, .bitsOrder 8 .lsb0, 0⟩, ⟨2, .endianBitsOrder .big 16 .msb0, 0⟩]
      (Reader.new { data := [0x11#8, 0x33#8, 0x22#8] })).1 = .ok [0x11, 0x3322] := by decide

end Deku
