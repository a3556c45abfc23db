import Verif.Lemmas.FaithfulTypes
import Verif.Props.Parse

/-!
# Properties of parsing and writing again: C77

`Spec/Faithful.lean` tells from the attributes alone which sources are such that every value that is parsed is described,
and whether every bit of the input is part of the value. What these parse can be written; without paddings, exactly what
was parsed is written.
-/

namespace Deku

/-! ## C77 -/

/-- **C77.** A value that the source says of an input is one that it describes, with as many bits as there are not left.
Without paddings these are the bits of the input. -/
theorem C77_parsed_values_are_described (m : Machine) (t : STy) (o : Order) (ho : t.ordered o m.native [] = true)
    (hz : t.sized [] = true) (hf : t.faithful [] [] = true) (data : List Byte) (hm : data.length ≤ m.mem)
    (hl : data.length < 2 ^ 61) (v : Val) (k : Bool) (left : List Bool) (hv : t.parseBytes o m data 0 = .ok v k left) :
    t.consistent o m [] [] {} v = true ∧ (t.described o m.native {} v).length + left.length = 8 * data.length ∧
      (t.padless = true → orderBits o data = t.described o m.native {} v ++ left) ∧
      (o = .msb0 → t.aligned o m.native {} v = true) := by
  have hlen : (orderBits o data).length = 8 * data.length := Reader.length_orderBits o data
  have h := STy.gives (o := o) (N := 8 * data.length) m ⟨by omega, by omega⟩ t [] [] {} ho hz hf false (orderBits o data) v k
    left 0 (by omega) (by omega) (by rw [STy.parseBytes, if_pos rfl] at hv; exact hv)
  obtain ⟨u, h1, h2, h3, _⟩ := h
  refine ⟨h2, ?_, fun hp => ?_, h3.settled⟩
  · have := h3.len
    unfold STy.described
    rw [h1, List.length_append] at hlen
    omega
  · unfold STy.described
    rw [h3.bits hp, h1]

/-- **C77.** What `from_bytes` gives can be written, and what is written gives it back, whatever follows. (In Lsb0 if
bytes begin at bytes, as in C75.) -/
theorem C77_parsed_values_can_be_written (m : Machine) (t : STy) (d : Def) (o : Order) (ho : t.ordered o m.native [] = true)
    (hi : t.idsNamed = true) (hz : t.sized [] = true) (hd : t.compile = some d) (hc : t.clear o 0 = true)
    (hf : t.faithful [] [] = true) (data : List Byte) (hm : data.length ≤ m.mem) (hl : data.length < 2 ^ 61)
    (rest : List Byte × Nat) (v : Val) (hv : fromBytes ((d.toTy m).read m {}) data 0 = .ok (rest, v))
    (ha : o = .lsb0 → t.aligned o m.native {} v = true) :
    ∃ out, toBytes ((d.toTy m).write m {} v) = .ok out ∧ ∀ extra, ∃ rest,
      fromBytes ((d.toTy m).read m {}) (out ++ extra) 0 = .ok (rest, v) := by
  obtain ⟨k, left, h1, _⟩ := (C76_clear_sources_are_parsed_exactly m t d o hz hd 0 hc data rest.1 rest.2 v).1 hv
  obtain ⟨h2, _, _, h3⟩ := C77_parsed_values_are_described m t o ho hz hf data hm hl v k left h1
  exact C75_consistent_values_round_trip m t d o ho hi hz hd {} v h2 (by
    cases o with
    | msb0 => exact h3 rfl
    | lsb0 => exact ha rfl)

/-- **C77.** Without paddings, writing what `from_bytes` gives is writing the bits that were parsed: the input, if these
are whole bytes. -/
theorem C77_parsed_bits_are_written (m : Machine) (t : STy) (d : Def) (o : Order) (ho : t.ordered o m.native [] = true)
    (hi : t.idsNamed = true) (hz : t.sized [] = true) (hd : t.compile = some d) (hc : t.clear o 0 = true)
    (hf : t.faithful [] [] = true) (hp : t.padless = true) (data : List Byte) (hm : data.length ≤ m.mem)
    (hl : data.length < 2 ^ 61) (rest : List Byte) (b : Nat) (v : Val)
    (hv : fromBytes ((d.toTy m).read m {}) data 0 = .ok ((rest, b), v))
    (ha : o = .lsb0 → t.aligned o m.native {} v = true) :
    ∃ out n, toBytes ((d.toTy m).write m {} v) = .ok out ∧ n ≤ 8 * data.length ∧ rest = data.drop (n / 8) ∧ b = n % 8 ∧
      Packed o out ((orderBits o data).take n) ∧ (b = 0 → out ++ rest = data) := by
  obtain ⟨k, left, h1, h4, h5, h6⟩ := (C76_clear_sources_are_parsed_exactly m t d o hz hd 0 hc data rest b v).1 hv
  obtain ⟨h2, h7, h8, h3⟩ := C77_parsed_values_are_described m t o ho hz hf data hm hl v k left h1
  obtain ⟨out, h9, h10⟩ := C75_consistent_values_are_written_as_described m t d o ho hi hz hd {} v h2 (by
    cases o with
    | msb0 => exact h3 rfl
    | lsb0 => exact ha rfl)
  have h8 := h8 hp
  have ht : (orderBits o data).take (8 * data.length - left.length) = t.described o m.native {} v := by
    rw [h8, List.take_append_of_le_length (by omega), List.take_of_length_le (by omega)]
  refine ⟨out, 8 * data.length - left.length, h9, by omega, h5, h6, by rw [ht]; exact h10, fun hb => ?_⟩
  unfold Packed at h10
  rw [show (8 - (t.described o m.native {} v).length % 8) % 8 = 0 by omega, List.replicate_zero, List.append_nil,
    ← ht] at h10
  rw [hb] at h6
  have hn : 8 * data.length - left.length = 8 * ((8 * data.length - left.length) / 8) := by omega
  rw [hn, orderBits_take] at h10
  have := congrArg (Prim.bytesOf o) h10
  rw [Prim.bytesOf_orderBits, Prim.bytesOf_orderBits] at this
  rw [this, h5, List.take_append_drop]

/-- **C77.** Without paddings, the bytes that `TryFrom` takes are the bytes that `to_bytes` makes of the value. -/
theorem C77_to_bytes_after_try_from (m : Machine) (t : STy) (d : Def) (o : Order) (ho : t.ordered o m.native [] = true)
    (hi : t.idsNamed = true) (hz : t.sized [] = true) (hd : t.compile = some d) (hc : t.clear o 0 = true)
    (hf : t.faithful [] [] = true) (hp : t.padless = true) (data : List Byte) (hm : data.length ≤ m.mem)
    (hl : data.length < 2 ^ 61) (v : Val) (hv : tryFrom ((d.toTy m).read m {}) data = .ok v)
    (ha : o = .lsb0 → t.aligned o m.native {} v = true) : toBytes ((d.toTy m).write m {} v) = .ok data := by
  obtain ⟨k, h1⟩ := (C76_try_from_takes_all_of_the_input m t d o hz hd data
    (C76_clear_sources_decide_every_input m t o 0 hc data) v).1 hv
  have h2 := (C76_inputs_are_parsed_as_described m t d o hz hd data 0 v k [] h1).2
  obtain ⟨out, n, h3, h4, h5, h6, _, h8⟩ := C77_parsed_bits_are_written m t d o ho hi hz hd hc hf hp data hm hl _ _ v h2 ha
  rw [h3]
  have : (8 * data.length - ([] : List Bool).length) % 8 = 0 := by simp
  have h8 := h8 this
  rw [List.drop_eq_nil_of_le (by simp), List.append_nil] at h8
  rw [h8]

/-- **C77.** Without paddings, different inputs of `TryFrom` are different values. -/
theorem C77_try_from_is_injective (m : Machine) (t : STy) (d : Def) (o : Order) (ho : t.ordered o m.native [] = true)
    (hi : t.idsNamed = true) (hz : t.sized [] = true) (hd : t.compile = some d) (hc : t.clear o 0 = true)
    (hf : t.faithful [] [] = true) (hp : t.padless = true) (data data' : List Byte) (hm : data.length ≤ m.mem)
    (hm' : data'.length ≤ m.mem) (hl : data.length < 2 ^ 61) (hl' : data'.length < 2 ^ 61) (v : Val)
    (hv : tryFrom ((d.toTy m).read m {}) data = .ok v) (hv' : tryFrom ((d.toTy m).read m {}) data' = .ok v)
    (ha : o = .lsb0 → t.aligned o m.native {} v = true) : data = data' := by
  have h1 := C77_to_bytes_after_try_from m t d o ho hi hz hd hc hf hp data hm hl v hv ha
  have h2 := C77_to_bytes_after_try_from m t d o ho hi hz hd hc hf hp data' hm' hl' v hv' ha
  rw [h1] at h2
  cases h2
  rfl

/-- **C77.** Without paddings, the inputs of `TryFrom` in Msb0 are exactly the descriptions of the values that are
described. -/
theorem C77_try_from_takes_exactly_the_descriptions (m : Machine) (t : STy) (d : Def)
    (ho : t.ordered .msb0 m.native [] = true) (hi : t.idsNamed = true) (hz : t.sized [] = true) (hd : t.compile = some d)
    (hc : t.clear .msb0 0 = true) (hf : t.faithful [] [] = true) (hp : t.padless = true) (data : List Byte)
    (hm : data.length ≤ m.mem) (hl : data.length < 2 ^ 61) (v : Val) :
    tryFrom ((d.toTy m).read m {}) data = .ok v ↔ t.consistent .msb0 m [] [] {} v = true ∧
      t.aligned .msb0 m.native {} v = true ∧ bytesBits data = t.described .msb0 m.native {} v := by
  have hu := C76_clear_sources_decide_every_input m t .msb0 0 hc data
  rw [C76_try_from_takes_all_of_the_input m t d .msb0 hz hd data hu v]
  constructor
  · rintro ⟨k, h⟩
    obtain ⟨h1, _, h2, h3⟩ := C77_parsed_values_are_described m t .msb0 ho hz hf data hm hl v k [] h
    exact ⟨h1, h3 rfl, by rw [← List.append_nil (t.described _ _ _ _)]; exact h2 hp⟩
  · rintro ⟨h1, h2, h3⟩
    obtain ⟨k, left, h4, h5⟩ := C76_described_values_are_recognised m t d .msb0 ho hi hz hd v h1 h2 data [] (by
      rw [List.append_nil]; exact h3) hu
    rw [List.eq_nil_of_length_eq_zero h5] at h4
    exact ⟨k, h4⟩

/-! ### Examples -/

open Example SourceExample

/-- ```
#[deku(magic = b"F")]
struct Frame {
    #[deku(bits = 3)] version: u8,
    #[deku(bits = 13, endian = "big")] offset: i16,
    n: u8,
    #[deku(count = "n")] name: Vec<u8>,
    #[deku(cond = "*version == 2", endian = "big")] extra: Option<u16>,
    #[deku(bytes_read = "*n", endian = "big")] items: Vec<Item>,
    #[deku(skip, default = "7")] cache: u8,
    note: CString,
}
#[deku(id_type = "u8", id_endian = "big", ctx = "endian: Endian", endian = "endian")]
enum Item {
    #[deku(id = "1")] A(u16),
    #[deku(id_pat = "2..=9")] B(u8, bool),
    #[deku(id_pat = "_")] C(u8),
}
``` -/
def SourceExample.frame : STy :=
  let item : STy := .enum { params := [.endian], endian := some (.arg 0) } (.typed 1 (some (.lit .big)) none none)
    (.cons { kind := .id 1 } (.cons {} u16 .nil) (.cons { kind := .range 2 9 } (.cons {} u8 (.cons {} (.base .bool) .nil))
    (.cons { kind := .any } (.cons {} u8 .nil) .nil)))
  .struct { magic := [70] }
    (.cons { bits := some 3 } u8 (.cons { bits := some 13, endian := some (.lit .big) } (.base (.sint 2)) (.cons {} u8
    (.cons { count := some (.field 0) } (.vec false u8)
    (.cons { cond := some (.eq (.field 3) (.lit 2)), endian := some (.lit .big) } (.option u16)
    (.cons { bytesRead := some (.field 2), endian := some (.lit .big) } (.vec false item)
    (.cons { skip := some .all, default := some (.num 7) } u8 (.cons {} (.base .cstring) .nil))))))))

def SourceExample.frameBytes : List Byte := [70, 0x5f, 0xfe, 4, 1, 2, 3, 4, 0, 9, 5, 1, 77, 88, 65, 0]

def SourceExample.frameValue : Val :=
  .ofList [.num 2, .num (-2), .num 4, .ofList [.num 1, .num 2, .num 3, .num 4], .some (.num 9),
    .ofList [.variant 1 (.ofList [.num 5, .num 1]), .variant 2 (.ofList [.num 77]), .variant 2 (.ofList [.num 88])], .num 7,
    .ofList [.num 65]]

theorem SourceExample.frame_checked :
    frame.ordered .msb0 .little [] = true ∧ frame.idsNamed = true ∧ frame.sized [] = true ∧
    frame.compile.isSome = true ∧ frame.clear .msb0 0 = true ∧ frame.faithful [] [] = true ∧ frame.padless = true ∧
    (frame.compile.map fun d => tryFrom ((d.toTy mach).read mach {}) frameBytes) = some (.ok frameValue) := by
  refine ⟨?_, ?_, ?_, ?_, ?_, ?_, ?_, ?_⟩ <;> decide +kernel

/-- `TryFrom` on `Frame`, for every input. -/
example (d : Def) (hd : frame.compile = some d) (data : List Byte) (hm : data.length ≤ mach.mem) (v : Val) :
    tryFrom ((d.toTy mach).read mach {}) data = .ok v ↔ frame.consistent .msb0 mach [] [] {} v = true ∧
      frame.aligned .msb0 .little {} v = true ∧ bytesBits data = frame.described .msb0 .little {} v := by
  obtain ⟨h1, h2, h3, _, h5, h6, h7, _⟩ := frame_checked
  exact C77_try_from_takes_exactly_the_descriptions mach frame d h1 h2 h3 hd h5 h6 h7 data hm
    (Nat.lt_of_le_of_lt hm (by decide)) v

example : ∃ d, frame.compile = some d ∧ frame.consistent .msb0 mach [] [] {} frameValue = true ∧
    toBytes ((d.toTy mach).write mach {} frameValue) = .ok frameBytes ∧
    (∃ out n, toBytes ((d.toTy mach).write mach {} frameValue) = .ok out ∧ n ≤ 8 * (frameBytes ++ [3]).length ∧
      [3] = (frameBytes ++ [3]).drop (n / 8) ∧ 0 = n % 8 ∧ Packed .msb0 out ((orderBits .msb0 (frameBytes ++ [3])).take n) ∧
      ((0 : Nat) = 0 → out ++ [3] = frameBytes ++ [3])) := by
  obtain ⟨h1, h2, h3, h4, h5, h6, h7, h8⟩ := frame_checked
  obtain ⟨d, hd⟩ := Option.isSome_iff_exists.1 h4
  rw [hd] at h8
  have h8 : tryFrom ((d.toTy mach).read mach {}) frameBytes = .ok frameValue := Option.some.inj h8
  have hv : frame.parseBytes .msb0 mach (frameBytes ++ [3]) 0 = .ok frameValue false (orderBits .msb0 [3]) := by
    decide +kernel
  refine ⟨d, hd, (C77_parsed_values_are_described mach frame .msb0 h1 h3 h6 (frameBytes ++ [3]) (by decide) (by decide)
    frameValue false _ hv).1, C77_to_bytes_after_try_from mach frame d .msb0 h1 h2 h3 hd h5 h6 h7 frameBytes (by decide)
    (by decide) frameValue h8 nofun, C77_parsed_bits_are_written mach frame d .msb0 h1 h2 h3 hd h5 h6 h7 (frameBytes ++ [3])
    (by decide) (by decide) [3] 0 frameValue (C76_inputs_are_parsed_as_described mach frame d .msb0 h3 hd _ 0 _ _ _ hv).2 nofun⟩

example (d : Def) (hd : frame.compile = some d) (data : List Byte) (hm : data.length ≤ mach.mem)
    (hv : tryFrom ((d.toTy mach).read mach {}) data = .ok frameValue) : data = frameBytes := by
  obtain ⟨h1, h2, h3, h4, h5, h6, h7, h8⟩ := frame_checked
  rw [hd] at h8
  exact C77_try_from_is_injective mach frame d .msb0 h1 h2 h3 hd h5 h6 h7 data frameBytes hm (by decide)
    (Nat.lt_of_le_of_lt hm (by decide)) (by decide) frameValue hv (Option.some.inj h8) nofun

/-- With paddings (here in Lsb0) what is written is not what was parsed, and comes back. -/
example (d : Def) (hd : lsb.compile = some d) :
    fromBytes ((d.toTy mach).read mach {}) [76, 0xcd, 0xab, 0x97, 0x34, 0x12] 0 = .ok (([], 0), lsbValue) ∧
    ∃ out, toBytes ((d.toTy mach).write mach {} lsbValue) = .ok out ∧ ∀ extra, ∃ rest,
      fromBytes ((d.toTy mach).read mach {}) (out ++ extra) 0 = .ok (rest, lsbValue) := by
  obtain ⟨h1, h2, h3, _⟩ := lsb_described
  have hv : lsb.parseBytes .lsb0 mach [76, 0xcd, 0xab, 0x97, 0x34, 0x12] 0 = .ok lsbValue false [] := by decide +kernel
  have hb := (C76_inputs_are_parsed_as_described mach lsb d .lsb0 h3 hd _ 0 _ _ _ hv).2
  exact ⟨hb, C77_parsed_values_can_be_written mach lsb d .lsb0 h1 h2 h3 hd (by decide +kernel) (by decide +kernel) _
    (by decide) (by decide) _ lsbValue hb fun _ => consistent_values.2.2.2.2⟩

/-- **C77** needs `padless`: bits of a padding are not part of the value. -/
theorem C77_paddings_are_lost :
    lsb.faithful [] [] = true ∧ lsb.padless = false ∧
    (lsb.compile.map fun d => (tryFrom ((d.toTy mach).read mach {}) [76, 0xcd, 0xab, 0x97, 0x34, 0x12],
      toBytes ((d.toTy mach).write mach {} lsbValue))) =
      some (.ok lsbValue, .ok [76, 0xcd, 0xab, 0x90, 0x34, 0x12]) := by
  refine ⟨?_, ?_, ?_⟩ <;> decide +kernel

/-- **C77** needs `faithful`: negative numbers in `bits` with a `bit_order` are parsed and cannot be written; a `default`
variant with an `id` is written with that id; a field that is skipped when reading is written; a
field with a `cond` and a `default` is written where it was not
parsed. -/
theorem C77_these_are_parsed_and_not_written_again :
    (let t : STy := .struct { order := some (.lit .lsb0) } (.cons { bits := some 4 } (.base (.sint 1)) (.cons { bits := some 4 } u8 .nil))
     t.faithful [] [] = false ∧ (t.compile.map fun d => (tryFrom ((d.toTy mach).read mach {}) [0x1d],
       toBytes ((d.toTy mach).write mach {} (.ofList [.num (-3), .num 1])))) =
       some (.ok (.ofList [.num (-3), .num 1]), .err .invalidParam)) ∧
    (let t : STy := .enum {} (.typed 1 none none none) (.cons { kind := .id 1, default := true } (.cons {} u8 .nil) .nil)
     t.faithful [] [] = false ∧ (t.compile.map fun d => (tryFrom ((d.toTy mach).read mach {}) [9, 5],
       toBytes ((d.toTy mach).write mach {} (.variant 0 (.ofList [.num 5]))))) =
       some (.ok (.variant 0 (.ofList [.num 5])), .ok [1, 5])) ∧
    (let t : STy := .struct {} (.cons { skip := some .read } u8 (.cons {} u8 .nil))
     t.faithful [] [] = false ∧ (t.compile.map fun d => (tryFrom ((d.toTy mach).read mach {}) [9],
       toBytes ((d.toTy mach).write mach {} (.ofList [.num 0, .num 9])))) =
       some (.ok (.ofList [.num 0, .num 9]), .ok [0, 9])) ∧
    (let t : STy := .struct {} (.cons {} u8 (.cons { cond := some (.eq (.field 0) (.lit 1)), default := some (.num 4) } u8 .nil))
     t.faithful [] [] = false ∧ (t.compile.map fun d => (tryFrom ((d.toTy mach).read mach {}) [9],
       toBytes ((d.toTy mach).write mach {} (.ofList [.num 9, .num 4])))) =
       some (.ok (.ofList [.num 9, .num 4]), .ok [9, 4])) := by
  refine ⟨⟨?_, ?_⟩, ⟨?_, ?_⟩, ⟨?_, ?_⟩, ?_, ?_⟩ <;> decide +kernel

end Deku
