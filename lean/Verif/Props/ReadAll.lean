import Verif.Lemmas.ReadAllSource
import Verif.Props.Faithful

/-!
# Properties of lists that go on to the end: C86

`Spec/ReadAll.lean` tells from the attributes whether `read_all` is only at the end of a source, and has the source in
which it is a size. What is known of sources with sizes (C75 to C77) follows for those with `read_all`.
-/

namespace Deku

/-! ## C86 -/

/-- **C86.** A list with `read_all` at the end is a list with a size: `TryFrom` gives the values that it gives if the list
has `bits_read = n` for some `n`. -/
theorem C86_read_all_is_some_size_partial (m : Machine) (t : STy) (d : Def) (o : Order) (hz : t.sized [] = true)
    (hd : t.compile = some d) (hc : t.clear o 0 = true) (he : t.openEnded [] = true) (data : List Byte)
    (hl : data.length < 2 ^ 61) (v : Val) :
    tryFrom ((d.toTy m).read m {}) data = .ok v ↔
      ∃ n d', (t.closing n).compile = some d' ∧ tryFrom ((d'.toTy m).read m {}) data = .ok v := by
  rw [C76_try_from_takes_all_of_the_input m t d o hz hd data (C76_clear_sources_decide_every_input m t o 0 hc data)]
  constructor
  · rintro ⟨k, h⟩
    obtain ⟨n, k', h1⟩ := STy.parseBytes_closes he hl h
    obtain ⟨d', hd', _⟩ := STy.compile_closing n hd
    refine ⟨n, d', hd', (C76_try_from_takes_all_of_the_input m _ d' o (by rw [t.closing_sized]; exact hz) hd' data
      (by rw [h1]; exact nofun) v).2 ⟨k', h1⟩⟩
  · rintro ⟨n, d', hd', h⟩
    obtain ⟨k, h1⟩ := (C76_try_from_takes_all_of_the_input m _ d' o (by rw [t.closing_sized]; exact hz) hd' data
      (C76_clear_sources_decide_every_input m _ o 0 (STy.clear_closing n he hc) data) v).1 h
    exact (STy.parseBytes_opens he h1).resolve_left (C76_clear_sources_decide_every_input m t o 0 hc data)

/-- **C86.** If every value has a list with `read_all`, `from_bytes` leaves nothing, and is `TryFrom`. -/
theorem C86_from_bytes_leaves_nothing_partial (m : Machine) (t : STy) (d : Def) (o : Order) (hz : t.sized [] = true)
    (hd : t.compile = some d) (hc : t.clear o 0 = true) (ha : t.takesAll [] = true) (data rest : List Byte) (b : Nat) (v : Val) :
    fromBytes ((d.toTy m).read m {}) data 0 = .ok ((rest, b), v) ↔
      rest = [] ∧ b = 0 ∧ tryFrom ((d.toTy m).read m {}) data = .ok v := by
  rw [C76_clear_sources_are_parsed_exactly m t d o hz hd 0 hc data rest b v,
    C76_try_from_takes_all_of_the_input m t d o hz hd data (C76_clear_sources_decide_every_input m t o 0 hc data)]
  constructor
  · rintro ⟨k, left, h, _, rfl, rfl⟩
    obtain rfl := STy.parseBytes_full ha h
    refine ⟨List.drop_eq_nil_of_le (by simp), by simp, k, h⟩
  · rintro ⟨rfl, rfl, k, h⟩
    exact ⟨k, [], h, by simp, (List.drop_eq_nil_of_le (by simp)).symm, by simp⟩

/-- **C86.** A value that the source describes with some size of the lists with `read_all` is written as C74 says. -/
theorem C86_values_are_written_as_described (m : Machine) (t : STy) (d : Def) (o : Order)
    (ht : t.ordered o m.native [] = true) (hi : t.idsNamed = true) (hz : t.sized [] = true) (hd : t.compile = some d)
    (v : Val) (n : Nat) (hv : (t.closing n).consistent o m [] [] {} v = true) (ha : t.aligned o m.native {} v = true) :
    ∃ out, toBytes ((d.toTy m).write m {} v) = .ok out ∧ Packed o out (t.described o m.native {} v) := by
  obtain ⟨d', hd', hw⟩ := STy.compile_closing n hd
  obtain ⟨out, h1, h2⟩ := C75_consistent_values_are_written_as_described m (t.closing n) d' o
    (by rw [t.closing_ordered]; exact ht) (by rw [t.closing_idsNamed]; exact hi) (by rw [t.closing_sized]; exact hz) hd' {} v
    hv (by rw [t.closing_aligned]; exact ha)
  rw [hw m] at h1
  rw [t.closing_described] at h2
  exact ⟨out, h1, h2⟩

/-- **C86.** Such a value comes back if its last byte is full. -/
theorem C86_values_come_back_partial (m : Machine) (t : STy) (d : Def) (o : Order)
    (ht : t.ordered o m.native [] = true) (hi : t.idsNamed = true) (hz : t.sized [] = true) (hd : t.compile = some d)
    (hc : t.clear o 0 = true) (he : t.openEnded [] = true) (v : Val) (n : Nat)
    (hv : (t.closing n).consistent o m [] [] {} v = true) (ha : t.aligned o m.native {} v = true)
    (h8 : (t.described o m.native {} v).length % 8 = 0) :
    ∃ out, toBytes ((d.toTy m).write m {} v) = .ok out ∧ orderBits o out = t.described o m.native {} v ∧
      tryFrom ((d.toTy m).read m {}) out = .ok v ∧ fromBytes ((d.toTy m).read m {}) out 0 = .ok (([], 0), v) := by
  obtain ⟨out, h1, h2⟩ := C86_values_are_written_as_described m t d o ht hi hz hd v n hv ha
  unfold Packed at h2
  rw [h8, show (8 - 0) % 8 = 0 from rfl, List.replicate_zero, List.append_nil] at h2
  obtain ⟨d', hd', _⟩ := STy.compile_closing n hd
  have hz' : (t.closing n).sized [] = true := by rw [t.closing_sized]; exact hz
  have hu := C76_clear_sources_decide_every_input m _ o 0 (STy.clear_closing n he hc) out
  obtain ⟨k, left, h3, h4⟩ := C76_described_values_are_recognised m (t.closing n) d' o (by rw [t.closing_ordered]; exact ht)
    (by rw [t.closing_idsNamed]; exact hi) hz' hd' v hv (by rw [t.closing_aligned]; exact ha) out []
    (by rw [t.closing_described, List.append_nil]; exact h2) hu
  rw [List.eq_nil_of_length_eq_zero h4] at h3
  obtain ⟨k', h5⟩ := (STy.parseBytes_opens he h3).resolve_left (C76_clear_sources_decide_every_input m t o 0 hc out)
  refine ⟨out, h1, h2, (C76_try_from_takes_all_of_the_input m t d o hz hd out
    (C76_clear_sources_decide_every_input m t o 0 hc out) v).2 ⟨k', h5⟩, ?_⟩
  rw [(C76_inputs_are_parsed_as_described m t d o hz hd out 0 v k' [] h5).2, List.drop_eq_nil_of_le (by simp)]
  simp

/-- **C86.** What `TryFrom` gives is a value that the source describes with some size of the list, with as many bits as
the input has. Without paddings these are the bits of the input. -/
theorem C86_parsed_values_are_described_partial (m : Machine) (t : STy) (d : Def) (o : Order)
    (ho : t.ordered o m.native [] = true) (hz : t.sized [] = true) (hd : t.compile = some d) (hc : t.clear o 0 = true)
    (he : t.openEnded [] = true) (hf : (t.closing 0).faithful [] [] = true) (data : List Byte) (hm : data.length ≤ m.mem)
    (hl : data.length < 2 ^ 61) (v : Val) (hv : tryFrom ((d.toTy m).read m {}) data = .ok v) :
    ∃ n, (t.closing n).consistent o m [] [] {} v = true ∧ (t.described o m.native {} v).length = 8 * data.length ∧
      (t.padless = true → orderBits o data = t.described o m.native {} v) ∧
      (o = .msb0 → t.aligned o m.native {} v = true) := by
  obtain ⟨k, h⟩ := (C76_try_from_takes_all_of_the_input m t d o hz hd data
    (C76_clear_sources_decide_every_input m t o 0 hc data) v).1 hv
  obtain ⟨n, k', h1⟩ := STy.parseBytes_closes he hl h
  obtain ⟨h2, h3, h4, h5⟩ := C77_parsed_values_are_described m (t.closing n) o (by rw [t.closing_ordered]; exact ho)
    (by rw [t.closing_sized]; exact hz) (by rw [t.closing_faithful n 0 [] [] [] fun _ => rfl]; exact hf) data hm hl v k' [] h1
  rw [t.closing_described] at h3 h4
  rw [t.closing_padless, List.append_nil] at h4
  rw [t.closing_aligned] at h5
  exact ⟨n, h2, h3, h4, h5⟩

/-- **C86.** Without paddings, the bytes that `TryFrom` takes are the bytes that `to_bytes` makes of the value. -/
theorem C86_to_bytes_after_try_from_partial (m : Machine) (t : STy) (d : Def) (o : Order)
    (ho : t.ordered o m.native [] = true) (hi : t.idsNamed = true) (hz : t.sized [] = true) (hd : t.compile = some d)
    (hc : t.clear o 0 = true) (he : t.openEnded [] = true) (hf : (t.closing 0).faithful [] [] = true) (hp : t.padless = true)
    (data : List Byte) (hm : data.length ≤ m.mem) (hl : data.length < 2 ^ 61) (v : Val)
    (hv : tryFrom ((d.toTy m).read m {}) data = .ok v) (ha : o = .lsb0 → t.aligned o m.native {} v = true) :
    toBytes ((d.toTy m).write m {} v) = .ok data := by
  obtain ⟨n, h1, h2, h3, h4⟩ := C86_parsed_values_are_described_partial m t d o ho hz hd hc he hf data hm hl v hv
  obtain ⟨out, h5, h6⟩ := C86_values_are_written_as_described m t d o ho hi hz hd v n h1 (by
    cases o with
    | msb0 => exact h4 rfl
    | lsb0 => exact ha rfl)
  unfold Packed at h6
  rw [h2, show (8 - 8 * data.length % 8) % 8 = 0 by omega, List.replicate_zero, List.append_nil, ← h3 hp] at h6
  have := congrArg (Prim.bytesOf o) h6
  rw [Prim.bytesOf_orderBits, Prim.bytesOf_orderBits] at this
  rw [h5, this]

/-- **C86.** Without paddings, different inputs of `TryFrom` are different values. -/
theorem C86_try_from_is_injective_partial (m : Machine) (t : STy) (d : Def) (o : Order)
    (ho : t.ordered o m.native [] = true) (hi : t.idsNamed = true) (hz : t.sized [] = true) (hd : t.compile = some d)
    (hc : t.clear o 0 = true) (he : t.openEnded [] = true) (hf : (t.closing 0).faithful [] [] = true) (hp : t.padless = true)
    (data data' : List Byte) (hm : data.length ≤ m.mem) (hm' : data'.length ≤ m.mem) (hl : data.length < 2 ^ 61)
    (hl' : data'.length < 2 ^ 61) (v : Val) (hv : tryFrom ((d.toTy m).read m {}) data = .ok v)
    (hv' : tryFrom ((d.toTy m).read m {}) data' = .ok v) (ha : o = .lsb0 → t.aligned o m.native {} v = true) :
    data = data' := by
  have h1 := C86_to_bytes_after_try_from_partial m t d o ho hi hz hd hc he hf hp data hm hl v hv ha
  have h2 := C86_to_bytes_after_try_from_partial m t d o ho hi hz hd hc he hf hp data' hm' hl' v hv' ha
  rw [h1] at h2
  cases h2
  rfl

/-- **C86.** Without paddings, the inputs of `TryFrom` in Msb0 are exactly the descriptions of the values that are
described with some size of the list. -/
theorem C86_try_from_takes_exactly_the_descriptions_partial (m : Machine) (t : STy) (d : Def)
    (ho : t.ordered .msb0 m.native [] = true) (hi : t.idsNamed = true) (hz : t.sized [] = true) (hd : t.compile = some d)
    (hc : t.clear .msb0 0 = true) (he : t.openEnded [] = true) (hf : (t.closing 0).faithful [] [] = true)
    (hp : t.padless = true) (data : List Byte) (hm : data.length ≤ m.mem) (hl : data.length < 2 ^ 61) (v : Val) :
    tryFrom ((d.toTy m).read m {}) data = .ok v ↔ (∃ n, (t.closing n).consistent .msb0 m [] [] {} v = true) ∧
      t.aligned .msb0 m.native {} v = true ∧ bytesBits data = t.described .msb0 m.native {} v := by
  constructor
  · intro h
    obtain ⟨n, h1, _, h2, h3⟩ := C86_parsed_values_are_described_partial m t d .msb0 ho hz hd hc he hf data hm hl v h
    exact ⟨⟨n, h1⟩, h3 rfl, h2 hp⟩
  · rintro ⟨⟨n, h1⟩, h2, h3⟩
    have h8 := congrArg List.length h3
    rw [show bytesBits data = orderBits .msb0 data from rfl, Reader.length_orderBits] at h8
    obtain ⟨out, _, h4, h5, _⟩ := C86_values_come_back_partial m t d .msb0 ho hi hz hd hc he v n h1 h2 (by omega)
    have := congrArg (Prim.bytesOf .msb0) (h4.trans h3.symm)
    rw [Prim.bytesOf_orderBits, show bytesBits data = orderBits .msb0 data from rfl, Prim.bytesOf_orderBits] at this
    rw [← this]
    exact h5

namespace SourceExample

/-- ```
#[deku(magic = b"T", endian = "big")]
struct Records {
    #[deku(bits = 4)] version: u8, #[deku(bits = 4)] flags: u8,
    #[deku(read_all)] items: Vec<Record>,
    #[deku(skip)] cache: u8,
}
struct Record { kind: u16, n: u8, #[deku(count = "n")] data: Vec<u8> }
``` -/
def records : STy :=
  .struct { endian := some (.lit .big), magic := [0x54] }
    (.cons { bits := some 4 } u8 (.cons { bits := some 4 } u8
      (.cons { readAll := true } (.vec false (.struct { params := [.endian], endian := some (.arg 0) }
        (.cons {} u16 (.cons {} u8 (.cons { count := some (.field 0) } (.vec false u8) .nil)))))
      (.cons { skip := some .all } u8 .nil))))

def recordsValue : Val :=
  .ofList [.num 4, .num 5, .ofList [.ofList [.num 0x0102, .num 2, .ofList [.num 8, .num 9]], .ofList [.num 3, .num 0, .nil]],
    .num 0]

def recordsBytes : List Byte := [0x54, 0x45, 1, 2, 2, 8, 9, 0, 3, 0]

/-- `Vec<(u8, u8)>` with `read_all` (/repo/examples/read_all.rs:6-9). -/
def readAll : STy := .struct {} (.cons { readAll := true } (.vec false (.pair u8 u8)) .nil)

/-- ```
#[deku(id_type = "u8")]
enum Packet {
    #[deku(id = "1")] Ping(u8),
    #[deku(id = "2")] Data { len: u8, #[deku(read_all)] rest: Vec<u16> },
}
``` -/
def packet : STy :=
  .enum {} (.typed 1 none none none)
    (.cons { kind := .id 1 } (.cons {} u8 .nil)
    (.cons { kind := .id 2 } (.cons {} u8 (.cons { readAll := true } (.vec false u16) .nil)) .nil))

end SourceExample

open Example SourceExample

theorem SourceExample.records_checked :
    records.ordered .msb0 .little [] = true ∧ records.idsNamed = true ∧ records.sized [] = true ∧
    records.compile.isSome = true ∧ records.clear .msb0 0 = true ∧ records.openEnded [] = true ∧
    (records.closing 0).faithful [] [] = true ∧ records.padless = true ∧ records.takesAll [] = true ∧
    (records.closing 64).consistent .msb0 mach [] [] {} recordsValue = true ∧
    records.aligned .msb0 .little {} recordsValue = true ∧
    records.described .msb0 .little {} recordsValue = bytesBits recordsBytes := by
  refine ⟨?_, ?_, ?_, ?_, ?_, ?_, ?_, ?_, ?_, ?_, ?_, ?_⟩ <;> decide +kernel

/-- What `TryFrom` takes, for every input. -/
example (d : Def) (hd : records.compile = some d) (data : List Byte) (hm : data.length ≤ mach.mem) (v : Val) :
    (tryFrom ((d.toTy mach).read mach {}) data = .ok v ↔ (∃ n, (records.closing n).consistent .msb0 mach [] [] {} v = true) ∧
      records.aligned .msb0 .little {} v = true ∧ bytesBits data = records.described .msb0 .little {} v) ∧
    (tryFrom ((d.toTy mach).read mach {}) data = .ok v ↔
      ∃ n d', (records.closing n).compile = some d' ∧ tryFrom ((d'.toTy mach).read mach {}) data = .ok v) ∧
    ∀ rest b, fromBytes ((d.toTy mach).read mach {}) data 0 = .ok ((rest, b), v) ↔
      rest = [] ∧ b = 0 ∧ tryFrom ((d.toTy mach).read mach {}) data = .ok v := by
  obtain ⟨h1, h2, h3, _, h5, h6, h7, h8, h9, _⟩ := records_checked
  have hl := Nat.lt_of_le_of_lt hm (show mach.mem < 2 ^ 61 by decide)
  exact ⟨C86_try_from_takes_exactly_the_descriptions_partial mach records d h1 h2 h3 hd h5 h6 h7 h8 data hm hl v,
    C86_read_all_is_some_size_partial mach records d .msb0 h3 hd h5 h6 data hl v,
    fun rest b => C86_from_bytes_leaves_nothing_partial mach records d .msb0 h3 hd h5 h9 data rest b v⟩

/-- The value comes back, and is described again. -/
example (d : Def) (hd : records.compile = some d) :
    toBytes ((d.toTy mach).write mach {} recordsValue) = .ok recordsBytes ∧
    tryFrom ((d.toTy mach).read mach {}) recordsBytes = .ok recordsValue ∧
    (∃ n, (records.closing n).consistent .msb0 mach [] [] {} recordsValue = true ∧
      (records.described .msb0 .little {} recordsValue).length = 80) ∧
    ∀ data, data.length ≤ mach.mem → tryFrom ((d.toTy mach).read mach {}) data = .ok recordsValue → data = recordsBytes := by
  obtain ⟨h1, h2, h3, _, h5, h6, h7, h8, h9, h10, h11, h12⟩ := records_checked
  obtain ⟨out, _, h13, h14, _⟩ := C86_values_come_back_partial mach records d .msb0 h1 h2 h3 hd h5 h6 recordsValue 64 h10 h11
    (by rw [show mach.native = .little from rfl, h12]; decide)
  have ho := congrArg (Prim.bytesOf .msb0) (h13.trans h12)
  rw [Prim.bytesOf_orderBits, show bytesBits recordsBytes = orderBits .msb0 recordsBytes from rfl, Prim.bytesOf_orderBits] at ho
  rw [ho] at h14
  refine ⟨C86_to_bytes_after_try_from_partial mach records d .msb0 h1 h2 h3 hd h5 h6 h7 h8 recordsBytes (by decide) (by decide)
    recordsValue h14 nofun, h14, ?_, fun data hm hv => C86_try_from_is_injective_partial mach records d .msb0 h1 h2 h3 hd h5 h6
      h7 h8 data recordsBytes hm (by decide) (Nat.lt_of_le_of_lt hm (by decide)) (by decide) recordsValue hv h14 nofun⟩
  obtain ⟨n, hn, hl, _⟩ := C86_parsed_values_are_described_partial mach records d .msb0 h1 h3 hd h5 h6 h7 recordsBytes
    (by decide) (by decide) recordsValue h14
  exact ⟨n, hn, hl⟩

/-- So it is for the example of the repository and for the `Ipv4Header` with options; an enum of which only one variant
goes on to the end does not take all of the input. -/
theorem SourceExample.open_ended_sources :
    (readAll.ordered .msb0 .little [] && readAll.idsNamed && readAll.sized [] && readAll.compile.isSome &&
      readAll.clear .msb0 0 && readAll.openEnded [] && (readAll.closing 0).faithful [] [] && readAll.padless &&
      readAll.takesAll []) = true ∧
    (ipv4.ordered .msb0 .little [] && ipv4.idsNamed && ipv4.sized [] && ipv4.compile.isSome && ipv4.clear .msb0 0 &&
      ipv4.openEnded [] && (ipv4.closing 0).faithful [] [] && ipv4.padless && ipv4.takesAll []) = true ∧
    (packet.ordered .msb0 .little [] && packet.idsNamed && packet.sized [] && packet.compile.isSome && packet.clear .msb0 0 &&
      packet.openEnded [] && (packet.closing 0).faithful [] [] && packet.padless && !packet.takesAll []) = true := by
  refine ⟨?_, ?_, ?_⟩ <;> decide +kernel

example (d : Def) (hd : ipv4.compile = some d) (data : List Byte) (hm : data.length ≤ mach.mem) (v : Val)
    (hv : tryFrom ((d.toTy mach).read mach {}) data = .ok v) : toBytes ((d.toTy mach).write mach {} v) = .ok data := by
  have h := open_ended_sources.2.1
  simp only [Bool.and_eq_true] at h
  obtain ⟨⟨⟨⟨⟨⟨⟨⟨h1, h2⟩, h3⟩, _⟩, h5⟩, h6⟩, h7⟩, h8⟩, _⟩ := h
  exact C86_to_bytes_after_try_from_partial mach ipv4 d .msb0 h1 h2 h3 hd h5 h6 h7 h8 data hm
    (Nat.lt_of_le_of_lt hm (show mach.mem < 2 ^ 61 by decide)) v hv nofun

/-- **C86** needs a full last byte: of 4-bit elements, `to_bytes` of three is read back as four. -/
theorem C86_elements_are_made_of_the_filling :
    let t : STy := .struct {} (.cons { readAll := true, bits := some 4 } (.vec false u8) .nil)
    let v : Val := .ofList [.ofList [.num 1, .num 2, .num 3]]
    (t.clear .msb0 0 && t.openEnded [] && (t.closing 12).consistent .msb0 mach [] [] {} v && t.aligned .msb0 .little {} v) = true ∧
    (t.compile.map fun d => toBytes ((d.toTy mach).write mach {} v)) = some (.ok [0x12, 0x30]) ∧
    (t.compile.map fun d => tryFrom ((d.toTy mach).read mach {}) [0x12, 0x30]) =
      some (.ok (.ofList [.ofList [.num 1, .num 2, .num 3, .num 0]])) := by
  refine ⟨?_, ?_, ?_⟩ <;> decide +kernel

/-- **C86** needs that nothing is after the list: a second list, a padding, a field. Such values are written, and what is
written is not read, or as another value. -/
theorem C86_nothing_is_left_for_what_follows :
    (let t : STy := .struct {} (.cons { readAll := true } (.vec false u8) (.cons { readAll := true } (.vec false u8) .nil))
     let v : Val := .ofList [.ofList [.num 1], .ofList [.num 2]]
     (t.clear .msb0 0 && !t.openEnded [] && (t.closing 8).consistent .msb0 mach [] [] {} v) = true ∧
     (t.compile.map fun d => toBytes ((d.toTy mach).write mach {} v)) = some (.ok [1, 2]) ∧
     (t.compile.map fun d => tryFrom ((d.toTy mach).read mach {}) [1, 2]) =
       some (.ok (.ofList [.ofList [.num 1, .num 2], .nil]))) ∧
    (let t : STy := .struct {} (.cons { readAll := true, padBytesAfter := some 1 } (.vec false u8) .nil)
     let v : Val := .ofList [.ofList [.num 1]]
     (t.clear .msb0 0 && !t.openEnded [] && (t.closing 8).consistent .msb0 mach [] [] {} v) = true ∧
     (t.compile.map fun d => toBytes ((d.toTy mach).write mach {} v)) = some (.ok [1, 0]) ∧
     (t.compile.map fun d => tryFrom ((d.toTy mach).read mach {}) [1, 0]) = some (.err (.incomplete 8))) ∧
    (let t : STy := .struct {} (.cons { readAll := true } (.vec false u8) (.cons {} u8 .nil))
     let v : Val := .ofList [.ofList [.num 1], .num 2]
     (t.clear .msb0 0 && !t.openEnded [] && (t.closing 8).consistent .msb0 mach [] [] {} v) = true ∧
     (t.compile.map fun d => toBytes ((d.toTy mach).write mach {} v)) = some (.ok [1, 2]) ∧
     (t.compile.map fun d => tryFrom ((d.toTy mach).read mach {}) [1, 2]) = some (.err (.incomplete 8))) := by
  refine ⟨⟨?_, ?_, ?_⟩, ⟨?_, ?_, ?_⟩, ?_, ?_, ?_⟩ <;> decide +kernel

end Deku
