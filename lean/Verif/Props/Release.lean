import Verif.Lemmas.Release
import Verif.Props.CoreRead

/-!
# C83: A release build does what a debug build does

In a release build arithmetic wraps around instead of panicking and `debug_assert!` is not checked
(`Model/Release.lean`). Whatever a debug build does without panicking, a release build does too: the same result, the
same error, the same state of the stream. So all theorems about results of the debug build are about the release build
as well, and definitions that were checked not to panic do not panic in a release build. Where the debug build panics
the release build may go on with a wrong number; the cases are shown at the end.
-/

namespace Deku

open M (Follows)

/-! ## Definitions with any leaves -/

/-- **C83.** `from_reader` of a release build, for every definition whose leaves are the same or those of the release
build, on every source and at every offset: where the debug build does not panic, result and stream are the same. -/
theorem C83_from_reader_is_the_same (m : Machine) (t u : Ty) (h : t.Follows u) (env : Env) (src : Src) (off : Nat)
    (hp : (fromReaderOn (t.read m env) src off).1 ≠ .panic) :
    Rel.fromReaderOn (Rel.read m u env) src off = fromReaderOn (t.read m env) src off :=
  fromReaderOn_release (Ty.read_release m t u h env) src off hp

/-- **C83.** The same for writing to a sink. -/
theorem C83_to_writer_is_the_same (m : Machine) (t u : Ty) (h : t.Follows u) (env : Env) (v : Val) (sink : Sink)
    (hp : (writeTo (t.write m env v) sink).1 ≠ .panic) :
    Rel.writeTo (Rel.write m u env v) sink = writeTo (t.write m env v) sink :=
  writeTo_release (Ty.write_release m t u h env v) sink hp

/-! ## Definitions -/

/-- **C83.** `from_bytes`, `from_reader` and `TryFrom` of a definition. -/
theorem C83_parsed_the_same (m : Machine) (d : Def) (env : Env) :
    (∀ data off, fromBytes ((d.toTy m).read m env) data off ≠ .panic →
      Rel.fromBytes (Rel.read m (Rel.toTy m d) env) data off = fromBytes ((d.toTy m).read m env) data off) ∧
    (∀ src off, (fromReaderOn ((d.toTy m).read m env) src off).1 ≠ .panic →
      Rel.fromReaderOn (Rel.read m (Rel.toTy m d) env) src off = fromReaderOn ((d.toTy m).read m env) src off) ∧
    ∀ data, tryFrom ((d.toTy m).read m env) data ≠ .panic →
      Rel.tryFrom (Rel.read m (Rel.toTy m d) env) data = tryFrom ((d.toTy m).read m env) data := by
  have h := Ty.read_release m _ _ (Def.toTy_release m d) env
  exact ⟨fromBytes_release h, fromReaderOn_release h, tryFrom_release h⟩

/-- **C83.** `to_bytes`, `to_slice` and writing to any sink. -/
theorem C83_written_the_same (m : Machine) (d : Def) (env : Env) (v : Val) :
    (toBytes ((d.toTy m).write m env v) ≠ .panic →
      Rel.toBytes (Rel.write m (Rel.toTy m d) env v) = toBytes ((d.toTy m).write m env v)) ∧
    (∀ buf, (toSlice ((d.toTy m).write m env v) buf).1 ≠ .panic →
      Rel.toSlice (Rel.write m (Rel.toTy m d) env v) buf = toSlice ((d.toTy m).write m env v) buf) ∧
    ∀ sink, (writeTo ((d.toTy m).write m env v) sink).1 ≠ .panic →
      Rel.writeTo (Rel.write m (Rel.toTy m d) env v) sink = writeTo ((d.toTy m).write m env v) sink := by
  have h := Ty.write_release m _ _ (Def.toTy_release m d) env v
  exact ⟨toBytes_release h, toSlice_release h, writeTo_release h⟩

/-- **C83.** In the middle of a stream: on every state of the reader and of the writer. -/
theorem C83_same_in_every_state (m : Machine) (d : Def) (env : Env) :
    (∀ r : Reader, ((d.toTy m).read m env r).1 ≠ .panic →
      Rel.read m (Rel.toTy m d) env r = (d.toTy m).read m env r) ∧
    ∀ (v : Val) (w : Writer), ((d.toTy m).write m env v w).1 ≠ .panic →
      Rel.write m (Rel.toTy m d) env v w = (d.toTy m).write m env v w :=
  ⟨Ty.read_release m _ _ (Def.toTy_release m d) env, Ty.write_release m _ _ (Def.toTy_release m d) env⟩

/-- **C83.** A release build does not panic where a debug build does not. -/
theorem C83_panics_are_panics_of_the_debug_build (m : Machine) (d : Def) (env : Env) (data : List Byte) (off : Nat)
    (v : Val) :
    (Rel.fromBytes (Rel.read m (Rel.toTy m d) env) data off = .panic →
      fromBytes ((d.toTy m).read m env) data off = .panic) ∧
    (Rel.toBytes (Rel.write m (Rel.toTy m d) env v) = .panic → toBytes ((d.toTy m).write m env v) = .panic) := by
  constructor
  · intro h
    refine Classical.byContradiction fun hp => hp ?_
    rw [← (C83_parsed_the_same m d env).1 data off hp, h]
  · intro h
    refine Classical.byContradiction fun hp => hp ?_
    rw [← (C83_written_the_same m d env v).1 hp, h]

/-! ## Checked definitions -/

/-- **C83.** Definitions that pass the check of C64: every input is parsed in a release build as in a debug build, and
never with a panic. -/
theorem C83_safe_definitions (m : Machine) (len : Nat) (d : Def) (sc : Scope) (env : Env) (s t : Stage)
    (hmem : 8 * len + 1 ≤ m.mem) (hd : d.valid m.native = true) (hs : d.safe m sc s = some t) (henv : sc.holds env)
    (data : List Byte) (hl : data.length ≤ len) (off : Nat) (ho : 8 * data.length < off → s.past = true) :
    Rel.fromBytes (Rel.read m (Rel.toTy m d) env) data off = fromBytes ((d.toTy m).read m env) data off ∧
    Rel.tryFrom (Rel.read m (Rel.toTy m d) env) data = tryFrom ((d.toTy m).read m env) data ∧
    Rel.fromBytes (Rel.read m (Rel.toTy m d) env) data off ≠ .panic ∧
    Rel.tryFrom (Rel.read m (Rel.toTy m d) env) data ≠ .panic := by
  obtain ⟨h1, _, h3⟩ := C64_safe_definitions_parse_without_panics m len d sc env s t hmem hd hs henv data hl off ho
  obtain ⟨e1, _, e3⟩ := C83_parsed_the_same m d env
  have e1 := e1 data off h1
  have e3 := e3 data h3
  exact ⟨e1, e3, by rw [e1]; exact h1, by rw [e3]; exact h3⟩

/-- **C83.** Every value of the type is written by a release build as by a debug build, or refused with the same
error. -/
theorem C83_values_of_the_type (m : Machine) (d : Def) (env : Env) (v : Val) (hd : d.valid m.native = true)
    (hv : d.has v = true) :
    Rel.toBytes (Rel.write m (Rel.toTy m d) env v) = toBytes ((d.toTy m).write m env v) ∧
    ∀ buf, Rel.toSlice (Rel.write m (Rel.toTy m d) env v) buf = toSlice ((d.toTy m).write m env v) buf := by
  obtain ⟨h1, _, h3, _⟩ := C62_values_of_the_type_never_panic m d env v hd hv
  obtain ⟨e1, e2, _⟩ := C83_written_the_same m d env v
  exact ⟨e1 h1, fun buf => e2 buf (h3 buf)⟩

/-- **C83.** The round trip of C61 in a release build. -/
theorem C83_round_trip (m : Machine) (o : Order) (d : Def) (env : Env) (v : Val)
    (hd : d.valid m.native = true) (hc : d.check m.native o (some 0) = some (some 0))
    (hv : d.has v = true) (hg : d.good m env v = true) (hr : d.refusal m.native env v = none) :
    ∃ out, Rel.toBytes (Rel.write m (Rel.toTy m d) env v) = .ok out ∧
      ∀ extra, Rel.fromBytes (Rel.read m (Rel.toTy m d) env) (out ++ extra) 0 = .ok ((extra, 0), v) := by
  obtain ⟨out, h1, h2⟩ := C61_rest_is_what_was_appended m o d env v hd hc hv hg hr
  refine ⟨out, (C83_values_of_the_type m d env v hd hv).1.trans h1, fun extra => ?_⟩
  rw [(C83_parsed_the_same m d env).1 _ _ (by rw [h2 extra]; exact fun e => nomatch e), h2 extra]

/-- **C83.** Messages cross builds: what one writes the other reads. -/
theorem C83_builds_understand_each_other (m : Machine) (o : Order) (d : Def) (env : Env) (v : Val)
    (hd : d.valid m.native = true) (hc : d.check m.native o (some 0) = some (some 0))
    (hv : d.has v = true) (hg : d.good m env v = true) (hr : d.refusal m.native env v = none) (out : List Byte) :
    (Rel.toBytes (Rel.write m (Rel.toTy m d) env v) = .ok out → fromBytes ((d.toTy m).read m env) out 0 = .ok (([], 0), v)) ∧
    (toBytes ((d.toTy m).write m env v) = .ok out →
      Rel.fromBytes (Rel.read m (Rel.toTy m d) env) out 0 = .ok (([], 0), v)) := by
  obtain ⟨out', h1, h2⟩ := C61_rest_is_what_was_appended m o d env v hd hc hv hg hr
  have e := (C83_values_of_the_type m d env v hd hv).1
  have h2 := h2 []
  rw [List.append_nil] at h2
  constructor
  · intro h
    rw [e, h1] at h
    cases h
    exact h2
  · intro h
    rw [h1] at h
    cases h
    rw [(C83_parsed_the_same m d env).1 _ _ (by rw [h2]; exact fun e => nomatch e), h2]

/-! ## Writing again after a failure -/

/-- **Finding.** If the sink refuses the byte that is pending, the byte stays pending. In a debug build calling
`finalize` again panics (src/writer.rs:408), in a release build it tries to write the byte again. -/
theorem C83_finalize_after_a_failure (w : Writer) (h : w.leftover.length = 8) (ht : w.tag = .msb0) :
    Writer.finalize w = (.panic, w) ∧ Rel.finalize w = Writer.flushFull w := by
  obtain ⟨inner, lo, tag, n⟩ := w
  dsimp only at h ht
  subst ht
  constructor
  · simp [Writer.finalize, M.bind_def, M.get, M.assert, h, M.panic]
  · match lo, h with
    | [a, b, c, d, e, f, g, i], _ =>
      rcases hw : inner.writeAll [byteOf [a, b, c, d, e, f, g, i]] with ⟨x, s⟩
      cases x <;>
        simp [Rel.finalize, Rel.writeBitsOrder, Rel.msbMsb, Writer.flushFull, Writer.takeLeftover, Writer.extend,
          Writer.writeBulk, Writer.writeChunks, Writer.writeAll, Writer.fwdRemainder, M.bind_def, M.get, M.modify,
          M.assert, M.pure, Pure.pure, chunks8, hw]

/-! ## Examples -/

namespace ReleaseExample

open Example CoreExample

/-- The record of `Props/Core.lean` in a release build. -/
example : ∃ out, Rel.toBytes (Rel.write mach (Rel.toTy mach record) {} recordValue) = .ok out ∧
    ∀ extra, Rel.fromBytes (Rel.read mach (Rel.toTy mach record) {}) (out ++ extra) 0 = .ok ((extra, 0), recordValue) := by
  obtain ⟨h1, h2, h3, h4, h5, _⟩ := record_checked
  exact C83_round_trip mach .msb0 record {} recordValue h1 h2 h3 h4 h5

example : Rel.toBytes (Rel.write mach (Rel.toTy mach record) {} recordValue) =
    .ok [0xab, 0x31, 2, 0xff, 0xfe, 1, 0x2c, 0, 7, 104, 105, 0, 1, 0, 80, 5, 0xe4] := by decide +kernel

/-- No input of up to 100 GiB makes the release build of the record panic. -/
example (data : List Byte) (h : data.length ≤ 100 * 2 ^ 30) :
    Rel.fromBytes (Rel.read large (Rel.toTy large record) {}) data 0 ≠ .panic :=
  (C83_safe_definitions large (100 * 2 ^ 30) record {} {} .fresh .fresh (by decide) (by decide +kernel)
    record_safe Scope.holds_nil data h 0 (by omega)).2.2.1

/-- A writer whose sink has refused the pending byte once: `write_bits` of four bits on four pending ones fails, and
then the sink works again. -/
def refused : Writer := { inner := {}, leftover := [true, false, true, false, false, false, false, true] }

example : ((Rel.finalize refused).1, (Rel.finalize refused).2.inner.data) = (.ok (), [0xa1]) ∧
    (Writer.finalize refused).1 = .panic := by decide +kernel

/-- Such a state comes about: the sink refuses its first call. -/
example :
    let w : Writer := { inner := { faults := { fails := fun i => if i = 0 then some (0, .other 5) else none } }, leftover := [true, false, true, false] }
    let f := Writer.writeBitsOrder [false, false, false, true] .msb0 w
    f.1 = .err (.io (.other 5)) ∧ f.2.leftover = [true, false, true, false, false, false, false, true] ∧ f.2.tag = .msb0 ∧
    (Writer.finalize f.2).1 = .panic ∧
    (Rel.finalize f.2).1 = .ok () ∧ (Rel.finalize f.2).2.inner.data = [0xa1] := by
  refine ⟨?_, ?_, ?_, ?_, ?_, ?_⟩ <;> decide +kernel

/-- ```
struct Sized { #[deku(endian = "big")] size: u64, #[deku(bytes_read = "size")] data: Vec<u8> }
``` -/
def sized : Def :=
  .struct [] [] (.cons {} (.leaf (some 64) (.uint 8 (.endian .big)))
    (.cons {} (.vec false (.bytes (.field 0)) (.leaf (some 8) (.uint 1 .unit))) .nil))

/-- `#[deku(bits = 0, endian = "little")] u32` and `i32`. -/
def zeroBits : Def := .leaf (some 0) (.uint 4 (.endianBits .little 0))
def zeroBitsSigned : Def := .leaf (some 0) (.sint 4 (.endianBits .little 0))

/-- `#[deku(bits = 0)] u8`. -/
def zeroByte : Def := .leaf (some 0) (.uint 1 (.bits 0))

/-- `#[deku(pad_bytes_before = "2", count = n)] Vec<u8>`, read with `ReadExact` (src/impls/vec.rs:13-43). -/
def behind (n : Nat) : Def := .struct [] [] (.cons { padBefore := some 16 } (.bytes (.lit n) .unit) .nil)

/-- ```
struct Back { a: u8, #[deku(seek_from_start = 0)] b: u8 }
struct List { head: [u8; 2], #[deku(count = 2)] items: Vec<Back> }
``` -/
def back : Ty := .struct (fun _ => []) none [] (.cons {} u8T (.cons { seek := some fun _ => some (.start 0) } u8T .nil))
def backList : Ty :=
  .struct (fun _ => []) none [] (.cons {} (.array 2 u8T) (.cons {} (.vec 1 (.count (fun _ => 2)) back) .nil))

end ReleaseExample

open Example CoreExample ReleaseExample

/-- **C83 is false where the debug build panics, and the release build accepts a wrong message.** A size of `2^61 + 1`
bytes is multiplied by 8 without a check (src/impls/vec.rs:160-161): the debug build panics, the release build goes on
with a size of one byte and returns a value whose `data` has one byte and whose `size` is `2^61 + 1`. -/
theorem C83_size_wraps_around :
    fromBytes ((sized.toTy mach).read mach {}) [0x20, 0, 0, 0, 0, 0, 0, 1, 5, 6] 0 = .panic ∧
    Rel.fromBytes (Rel.read mach (Rel.toTy mach sized) {}) [0x20, 0, 0, 0, 0, 0, 0, 1, 5, 6] 0 =
      .ok (([6], 0), .ofList [.num (2 ^ 61 + 1), .ofList [.num 5]]) ∧
    fromBytes ((sized.toTy mach).read mach {}) [0x20, 0, 0, 0, 0, 0, 0, 0] 0 = .panic ∧
    Rel.fromBytes (Rel.read mach (Rel.toTy mach sized) {}) [0x20, 0, 0, 0, 0, 0, 0, 0] 0 =
      .ok (([], 0), .ofList [.num (2 ^ 61), .nil]) := by
  refine ⟨?_, ?_, ?_, ?_⟩ <;> decide +kernel

/-- **C83 is false where the debug build panics.** Fields of no bits: a little endian one is read as 0 by the release
build, `u8` fields are written as nothing. -/
theorem C83_zero_bits_are_accepted :
    fromBytes ((zeroBits.toTy mach).read mach {}) [1, 2] 0 = .panic ∧
    Rel.fromBytes (Rel.read mach (Rel.toTy mach zeroBits) {}) [1, 2] 0 = .ok (([1, 2], 0), .num 0) ∧
    fromBytes ((zeroBitsSigned.toTy mach).read mach {}) [1, 2] 0 = .panic ∧
    Rel.fromBytes (Rel.read mach (Rel.toTy mach zeroBitsSigned) {}) [1, 2] 0 = .ok (([1, 2], 0), .num 0) ∧
    toBytes ((zeroByte.toTy mach).write mach {} (.num 0)) = .panic ∧
    Rel.toBytes (Rel.write mach (Rel.toTy mach zeroByte) {} (.num 0)) = .ok [] := by
  refine ⟨?_, ?_, ?_, ?_, ?_, ?_⟩ <;> decide +kernel

/-- **C83 is false where the debug build panics.** Behind the end of the input the number of remaining bytes wraps
around (src/impls/vec.rs:35): the debug build panics, the release build reports `Incomplete` after it has allocated as
many bytes as the count says; a large count from the input exhausts the memory, which this check was added to
prevent. A list whose
elements seek backwards panics in the debug build, for it computes how far the element has come; the release build
reads it. -/
theorem C83_positions_wrap_around :
    fromBytes (((behind 1).toTy mach).read mach {}) [1] 0 = .panic ∧
    Rel.fromBytes (Rel.read mach (Rel.toTy mach (behind 1)) {}) [1] 0 = .err (.incomplete 8) ∧
    Rel.fromBytes (Rel.read mach (Rel.toTy mach (behind (2 ^ 60))) {}) [1] 0 = .panic ∧
    Rel.fromBytes (Rel.read mach (Rel.toTy mach (behind (2 ^ 60))) {}) [1, 2] 0 = .err (.incomplete (2 ^ 63)) ∧
    fromBytes (backList.read mach {}) [1, 2, 3] 0 = .panic ∧
    Rel.fromBytes (Rel.read mach backList {}) [1, 2, 3] 0 =
      .ok (([2, 3], 0), .ofList [.ofList [.num 1, .num 2], .ofList [.ofList [.num 3, .num 1], .ofList [.num 2, .num 1]]]) := by
  refine ⟨?_, ?_, ?_, ?_, ?_, ?_⟩ <;> decide +kernel

/-- **C83 is false where the debug build panics.** A `Vec<u8>` of `2^61 + 1` bytes with too little input: the number of
bits that are missing wraps around (src/impls/vec.rs:36), so that the release build asks for one more byte, and with
`2^61` bytes for none. -/
theorem C83_incomplete_wraps_around :
    fromBytes (((behind (2 ^ 61 + 1)).toTy mach).read mach {}) [1, 2] 0 = .panic ∧
    Rel.fromBytes (Rel.read mach (Rel.toTy mach (behind (2 ^ 61 + 1))) {}) [1, 2] 0 = .err (.incomplete 8) ∧
    Rel.fromBytes (Rel.read mach (Rel.toTy mach (behind (2 ^ 61))) {}) [1, 2] 0 = .err (.incomplete 0) := by
  refine ⟨?_, ?_, ?_⟩ <;> decide +kernel

end Deku
