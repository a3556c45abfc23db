import Verif.Lemmas.NoBitsSource
import Verif.Props.Source

/-!
# Properties of feature `bits`: C73

A definition that uses none of the attributes that come with feature `bits` means the same whether the feature is on or
off.
-/

namespace Deku

/-! ## C73 -/

/-- With feature `bits` on and off, for a source. -/
theorem source_rsim (m : Machine) {t : STy} {d : Def} (hb : t.bytewise false = true) (hd : t.compile = some d)
    (env : Env) : RSim false false ((d.toTy m).read m env) ((d.toTy m).readP withoutBits m env) := by
  have h := (d.toTy m).readP_rsim m false false (t.compile_bytewise m hb hd) env
  rwa [Ty.readP_eq] at h

/-- **C73.** The same is written, for every value, and where writing fails it fails in the same way. -/
theorem C73_written_the_same (m : Machine) (t : STy) (d : Def) (hb : t.bytewise false = true) (hd : t.compile = some d)
    (env : Env) (v : Val) :
    toBytesNoBits ((d.toTy m).writeP withoutBits m env v) = toBytes ((d.toTy m).write m env v) := by
  have h := (d.toTy m).writeP_wsim m false false (t.compile_bytewise m hb hd) env v
  rw [Ty.writeP_eq] at h
  exact toBytes_noBits h

/-- **C73.** The same is parsed: `from_bytes` gives the same value and the same rest with the feature on and off. -/
theorem C73_parsed_the_same (m : Machine) (t : STy) (d : Def) (hb : t.bytewise false = true) (hd : t.compile = some d)
    (env : Env) (data rest : List Byte) (n : Nat) (v : Val) :
    fromBytesNoBits ((d.toTy m).readP withoutBits m env) data 0 = .ok ((rest, n), v) ↔
      fromBytes ((d.toTy m).read m env) data 0 = .ok ((rest, n), v) := by
  rcases fromBytes_noBits (source_rsim m hb hd env) data with
    h | ⟨⟨k, hk⟩, h⟩
  · rw [h]
  · rw [hk]
    exact ⟨fun e => (nomatch e), fun e => absurd e (h rfl _)⟩

/-- **C73.** What is refused is refused for the same reason, except that without the feature it may be because of missing
data. -/
theorem C73_refused_the_same (m : Machine) (t : STy) (d : Def) (hb : t.bytewise false = true) (hd : t.compile = some d)
    (env : Env) (data : List Byte) :
    fromBytesNoBits ((d.toTy m).readP withoutBits m env) data 0 = fromBytes ((d.toTy m).read m env) data 0 ∨
    ((∃ n, fromBytesNoBits ((d.toTy m).readP withoutBits m env) data 0 = .err (.incomplete n)) ∧
      ∀ x, fromBytes ((d.toTy m).read m env) data 0 ≠ .ok x) := by
  rcases fromBytes_noBits (source_rsim m hb hd env) data with h | ⟨h1, h⟩
  · exact .inl h
  · exact .inr ⟨h1, h rfl⟩

/-- **C73.** The same for `TryFrom<&[u8]>`. -/
theorem C73_converted_the_same (m : Machine) (t : STy) (d : Def) (hb : t.bytewise false = true)
    (hd : t.compile = some d) (env : Env) (data : List Byte) (v : Val) :
    tryFromNoBits ((d.toTy m).readP withoutBits m env) data = .ok v ↔
      tryFrom ((d.toTy m).read m env) data = .ok v := by
  rcases tryFrom_noBits (source_rsim m hb hd env) data with
    h | ⟨⟨k, hk⟩, h⟩
  · rw [h]
  · rw [hk]
    exact ⟨fun e => (nomatch e), fun e => absurd e (h rfl _)⟩

/-- **C73, for `from_reader`.** Without the feature it gives what it gives with the feature, unless that is a value that
ends beyond the end of the data. Then it reports missing data (`C73_padding_beyond_the_end`). -/
theorem C73_read_the_same_partial (m : Machine) (t : STy) (d : Def) (hb : t.bytewise false = true)
    (hd : t.compile = some d) (env : Env) (data : List Byte) (n : Nat) (v : Val) :
    fromReaderNoBits ((d.toTy m).readP withoutBits m env) { data := data } 0 = .ok (n, v) ∧ n ≤ 8 * data.length ↔
      fromReader ((d.toTy m).read m env) { data := data } 0 = .ok (n, v) ∧ n ≤ 8 * data.length := by
  rcases fromReader_noBits (source_rsim m hb hd env) data with
    h | ⟨⟨k, hk⟩, h⟩
  · rw [h]
  · rw [hk]
    refine ⟨fun e => (nomatch e.1), fun e => ?_⟩
    obtain ⟨k, rfl, hk⟩ := h rfl _ _ e.1
    omega

/-- **C73.** C69 without the feature: what consistent values are written as is parsed back, with the rest of the data
left over. -/
theorem C73_round_trip_without_bits (m : Machine) (t : STy) (d : Def) (hb : t.bytewise false = true)
    (hs : t.plain ⟨true, true⟩ = true) (hd : t.compile = some d) (hv : d.valid m.native = true) (env : Env) (v : Val)
    (h1 : d.has v = true) (h2 : d.good m env v = true) :
    ∃ out, toBytesNoBits ((d.toTy m).writeP withoutBits m env v) = .ok out ∧
      ∀ extra, fromBytesNoBits ((d.toTy m).readP withoutBits m env) (out ++ extra) 0 = .ok ((extra, 0), v) := by
  obtain ⟨out, e1, e2⟩ := C69_consistent_values_round_trip m t d hs hd hv env v h1 h2
  refine ⟨out, (C73_written_the_same m t d hb hd env v).trans e1, fun extra => ?_⟩
  exact (C73_parsed_the_same m t d hb hd env _ _ _ _).mpr (e2 extra)

/-- **C73, with `seek_*`.** For definitions of any kind, `seek_*` included: what is parsed without the feature is parsed
with it. The converse is missing: a padding that a later `seek_*` goes back over may lie beyond the end of the data. -/
theorem C73_seeking_partial (m : Machine) (t : Ty) (hb : t.Bytewise true false) (env : Env) (data rest : List Byte)
    (n : Nat) (v : Val) (h : fromBytesNoBits (t.readP withoutBits m env) data 0 = .ok ((rest, n), v)) :
    fromBytes (t.read m env) data 0 = .ok ((rest, n), v) := by
  have hs := t.readP_rsim m true false hb env
  rw [Ty.readP_eq] at hs
  rcases fromBytes_noBits hs data with e | ⟨⟨k, e⟩, _⟩
  · rw [← e, h]
  · rw [e] at h; cases h

/-- **C73.** Attributes that do not need the feature are accepted without it if they are with it. The only ones accepted
in addition are `read_all` beside another limit. -/
theorem C73_attributes_accepted (a : SAttrs) (h1 : a.bits = none) (h2 : a.bitsRead = none) :
    a.validateNoBits = true ↔
      a.validate = true ∨
      (a.readAll = true ∧ (a.untilEq.isSome ∨ a.count.isSome ∨ a.bytesRead.isSome) ∧
        ({ a with readAll := false } : SAttrs).validate = true) := by
  simp only [SAttrs.validateNoBits, SAttrs.validate, h1, h2, Option.isSome_none]
  cases a.count.isSome <;> cases a.bytesRead.isSome <;> cases a.untilEq.isSome <;> cases a.readAll <;>
    cases a.default.isSome <;> cases a.skip.isNone <;> cases a.cond.isNone <;> simp

/-! ### Where the feature makes a difference -/

namespace NoBitsExample


/-- `struct Tail { a: u8, #[deku(pad_bytes_after = "2")] b: u8 }` -/
def padded : STy := .struct {} (.cons {} (.base (.uint 1)) (.cons { padBytesAfter := some 2 } (.base (.uint 1)) .nil))

/-- `struct All { #[deku(read_all)] v: Vec<Elem> }`, `struct Elem { #[deku(pad_bytes_before = "1")] a: u8 }` -/
def paddedElems : STy :=
  .struct {} (.cons { readAll := true }
    (.vec false (.struct {} (.cons { padBytesBefore := some 1 } (.base (.uint 1)) .nil))) .nil)

end NoBitsExample

open Example SourceExample NoBitsExample

/-- **C73 is false of `from_reader` with a padding beyond the end**: it is accepted with the feature and not without. -/
theorem C73_padding_beyond_the_end :
    padded.bytewise false = true ∧
    padded.compile.map (fun d =>
      (fromReader ((d.toTy mach).read mach {}) { data := [1#8, 2#8, 3#8] } 0,
       fromReaderNoBits ((d.toTy mach).readP withoutBits mach {}) { data := [1#8, 2#8, 3#8] } 0)) =
    some (.ok (32, .cons (.num 1) (.cons (.num 2) .nil)), .err (.incomplete 16)) := by decide +kernel

set_option synthInstance.maxSize 1000 in
/-- **C73 is false of padding in elements read with `read_all`**: with the feature the padding is skipped after the byte
that was peeked, which is lost; without the feature that byte is the padding. -/
theorem C73_padding_after_a_peek :
    paddedElems.bytewise false = false ∧
    paddedElems.compile.map (fun d => fromBytes ((d.toTy mach).read mach {}) [1#8, 2#8, 3#8, 4#8] 0) =
      some (.err (.incomplete 8)) ∧
    paddedElems.compile.map (fun d => fromBytesNoBits ((d.toTy mach).readP withoutBits mach {}) [1#8, 2#8, 3#8, 4#8] 0) =
      some (.ok (([], 0), .cons (.cons (.cons (.num 2) .nil) (.cons (.cons (.num 4) .nil) .nil)) .nil)) ∧
    paddedElems.compile.map (fun d => fromBytes ((d.toTy mach).read mach {}) [1#8, 2#8, 3#8] 0) =
      some (.ok (([], 0), .cons (.cons (.cons (.num 3) .nil) .nil) .nil)) ∧
    paddedElems.compile.map (fun d => fromBytesNoBits ((d.toTy mach).readP withoutBits mach {}) [1#8, 2#8, 3#8] 0) =
      some (.err (.incomplete 8)) := by
  decide +kernel

/-- **C73 is false of offsets**: without the feature every offset but 0 panics, whole bytes included. -/
theorem C73_offsets_panic_without_bits (read : M Reader Val) (data : List Byte) (off : Nat) (h : off ≠ 0) :
    fromBytesNoBits read data off = .panic := by
  simp [fromBytesNoBits, readFromNoBits, h, M.bind_def, M.panic]

/-- **Finding.** `read_all` with `count` is only refused if feature `bits` is on. -/
theorem C73_conflicting_limits_accepted :
    ({ readAll := true, count := some (.lit 2) } : SAttrs).validate = false ∧
    ({ readAll := true, count := some (.lit 2) } : SAttrs).validateNoBits = true := by decide

/-! ### The hypotheses can be met -/

theorem message_bytewise : message.bytewise false = true := by decide +kernel

/-- The message of `Props/Source.lean` has an enum, a padding, a count, a size in bytes and a condition. -/
theorem message_without_bits : ∃ d out, message.compile = some d ∧
    toBytesNoBits ((d.toTy mach).writeP withoutBits mach {} messageValue) = .ok out ∧
    out = [2, 0, 80, 0, 1, 2, 1, 2, 3, 0xff, 0xfe, 0x12, 0x34, 8, 9] ∧
    ∀ extra, fromBytesNoBits ((d.toTy mach).readP withoutBits mach {}) (out ++ extra) 0 = .ok ((extra, 0), messageValue) := by
  obtain ⟨h1, _, h2⟩ := message_checked
  cases hd : message.compile with
  | none => rw [hd] at h2; cases h2
  | some d =>
    rw [hd] at h2
    simp only [Option.map_some, Option.some.injEq, Prod.mk.injEq] at h2
    obtain ⟨out, e1, e2⟩ :=
      C73_round_trip_without_bits mach message d message_bytewise h1 hd h2.1 {} messageValue h2.2.1 h2.2.2.1
    refine ⟨d, out, rfl, e1, ?_, e2⟩
    rw [C73_written_the_same mach message d message_bytewise hd, h2.2.2.2] at e1
    simpa using e1.symm

/-- So it is parsed the same by the code with the feature, also by `TryFrom` and by `from_reader`. -/
example : ∃ d, message.compile = some d ∧
    fromBytes ((d.toTy mach).read mach {}) [2, 0, 80, 0, 1, 2, 1, 2, 3, 0xff, 0xfe, 0x12, 0x34, 8, 9, 7] 0 =
      .ok (([7], 0), messageValue) := by
  obtain ⟨d, out, hd, _, rfl, h⟩ := message_without_bits
  exact ⟨d, hd, (C73_parsed_the_same mach message d message_bytewise hd {} _ _ _ _).mp (h [7])⟩

/-- `struct Back { a: u8, #[deku(seek_from_start = "1")] b: u8 }` -/
def back : Ty := .struct (fun _ => []) none [] (.cons {} u8T (.cons { seek := some fun _ => some (.start 1) } u8T .nil))

theorem back_bytewise : back.Bytewise true false := by
  have h : u8T.Bytewise true false :=
    ⟨fun _ => uintCodec_rsim .little 1 rfl, fun _ v => uintCodec_wsim .little 1 rfl v⟩
  exact ⟨fun h => (nomatch h), ⟨fun _ => rfl, fun f hf => (nomatch hf), fun f hf => (nomatch hf)⟩, h,
    ⟨fun h => (nomatch h), fun f hf => (nomatch hf), fun f hf => (nomatch hf)⟩, h, trivial⟩

example : fromBytes (back.read mach {}) [5#8, 6#8, 7#8] 0 = .ok (([7#8], 0), .ofList [.num 5, .num 6]) :=
  C73_seeking_partial mach back back_bytewise {} _ _ _ _ (by decide +kernel)

/-- `struct Over { a: u8, #[deku(pad_bytes_after = "2")] b: u8, #[deku(seek_rewind)] c: u8 }` -/
def over : Ty :=
  .struct (fun _ => []) none [] (.cons {} u8T (.cons { padAfter := some fun _ => 16 } u8T
    (.cons { seek := some fun _ => some (.start 0) } u8T .nil)))

set_option synthInstance.maxSize 1000 in
/-- **The converse of `C73_seeking_partial` is false**: the padding before the seek is beyond the end. -/
theorem C73_padding_beyond_the_end_before_a_seek :
    fromBytes (over.read mach {}) [5#8, 6#8] 0 = .ok (([6#8], 0), .ofList [.num 5, .num 6, .num 5]) ∧
    fromBytesNoBits (over.readP withoutBits mach {}) [5#8, 6#8] 0 = .err (.incomplete 16) := by decide +kernel

end Deku
