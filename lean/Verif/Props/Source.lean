import Verif.Lemmas.Source
import Verif.Props.Conform

/-!
# Properties of sources: C67, C68, C69, C70

From the attributes as they are written.
-/

namespace Deku

set_option synthInstance.maxSize 1000
set_option synthInstance.maxHeartbeats 200000

/-! ## C67 -/

/-- **C67.** The limit in the emitted code is one that was written. -/
theorem C67_the_limit_was_written (a : SAttrs) (l : Lim) (h : a.limit = some l) : l ∈ a.limits := a.limit_mem l h

/-- **C67.** Some limit that was written is ignored exactly if `until` is written together with `count`,
`bytes_read` or `bits_read`; the macro rejects every other combination. -/
theorem C67_what_is_ignored (a : SAttrs) (h : a.validate = true) :
    (∃ l ∈ a.limits, a.limit ≠ some l) ↔
      a.untilEq ≠ none ∧ (a.count ≠ none ∨ a.bytesRead ≠ none ∨ a.bitsRead ≠ none) := by
  rw [a.limits_ignored h]
  simp only [SAttrs.untilAlone]
  cases a.untilEq <;> cases a.count <;> cases a.bytesRead <;> cases a.bitsRead <;> simp

/-- **C67.** In a struct in which `until` is not combined with another limit, every limit written on a list is kept
by every value that is parsed, from any source and whatever its context: the number of elements is that given by the
field or argument named in `count`, and the list ends with the only element that `until` asks for. (The sizes in
`bytes_read` and `bits_read` are compared only with 0.) -/
theorem C67_limits_are_kept_partial (m : Machine) (c : Container) (fs : SFields) (passed : List Arg) (d : Def)
    (hd : (STy.struct c fs).elab none passed = some d) (hu : fs.all (·.untilAlone) = true) (args before : List Val)
    (r r' : Reader) (v : Val)
    (h : (d.toTy m).read m { ctx := args, vars := before.reverse } r = (.ok v, r')) :
    ∃ env vals, c.bind passed = some env ∧ Passed args before (env.map Arg.expr) vals ∧ fs.Kept vals [] v := by
  have hc := C66_what_was_parsed_satisfies_the_definition m d args before r r' v h
  simp only [STy.elab, Option.isSome_none, Bool.false_eq_true, if_false, Option.bind_eq_bind,
    Option.bind_eq_some_iff, Option.pure_def, Option.some.injEq] at hd
  obtain ⟨env, h1, ds, h2, rfl⟩ := hd
  rw [Def.Conforms] at hc
  obtain ⟨vals, h3, h4⟩ := hc
  exact ⟨env, vals, h1, h3, SFields.kept c env fs ds vals [] v hu h2 h4⟩

/-! ## C68 -/

/-- **C68.** `endian` and `bit_order` on a type mean the same as on each of its fields that does not have its own, and
`endian` on an enum the same as `id_endian`: the emitted code is the same, and if one does not compile neither does the
other. At every depth, with every context; for enums that store their id in a field only with an `id_endian`, or
without an `endian`. -/
theorem C68_attributes_of_the_type_go_to_its_fields_partial (t : STy) (h : t.idsNamed = true) (lim : Option Lim)
    (args : List Arg) : t.spread.elab lim args = t.elab lim args := t.spread_elab h lim args

/-! ## C69 -/

/-- **C69.** A source that names no bit order and gives all sizes and paddings in bytes: if it compiles and the sizes
are possible, every consistent value that is not refused round-trips, and what was appended is left over. Nothing else
is asked of the definition. -/
theorem C69_definitions_in_bytes_round_trip (m : Machine) (t : STy) (d : Def) (x : Bool)
    (ht : t.plain ⟨true, x⟩ = true) (hd : t.compile = some d) (hv : d.valid m.native = true) (env : Env) (v : Val)
    (hh : d.has v = true) (hg : d.good m env v = true) (hr : d.refusal m.native env v = none) :
    ∃ out, toBytes ((d.toTy m).write m env v) = .ok out ∧
      ∀ extra, fromBytes ((d.toTy m).read m env) (out ++ extra) 0 = .ok ((extra, 0), v) :=
  C61_rest_is_what_was_appended m .msb0 d env v hv
    (d.check_whole m.native x (t.elab_plain _ none [] d ht rfl hd)) hh hg hr

/-- **C69.** If it asserts nothing either, `to_bytes` succeeds for every value of the type, consistent or not. -/
theorem C69_definitions_in_bytes_always_serialise (m : Machine) (t : STy) (d : Def)
    (ht : t.plain ⟨true, true⟩ = true) (hd : t.compile = some d) (hv : d.valid m.native = true) (env : Env) (v : Val)
    (hh : d.has v = true) :
    ∃ out, toBytes ((d.toTy m).write m env v) = .ok out ∧ out.length = (d.bits m.native env v + 7) / 8 := by
  have h := C62_to_bytes_decides m d env v hv hh
  rw [d.refusal_plain m.native (t.elab_plain _ none [] d ht rfl hd)] at h
  exact h

/-- **C69.** Both together. -/
theorem C69_consistent_values_round_trip (m : Machine) (t : STy) (d : Def)
    (ht : t.plain ⟨true, true⟩ = true) (hd : t.compile = some d) (hv : d.valid m.native = true) (env : Env) (v : Val)
    (hh : d.has v = true) (hg : d.good m env v = true) :
    ∃ out, toBytes ((d.toTy m).write m env v) = .ok out ∧
      ∀ extra, fromBytes ((d.toTy m).read m env) (out ++ extra) 0 = .ok ((extra, 0), v) :=
  C69_definitions_in_bytes_round_trip m t d true ht hd hv env v hh hg
    (d.refusal_plain m.native (t.elab_plain _ none [] d ht rfl hd) env v)

/-! ## C70 -/

/-- **C70.** A source that names no bit order, with sizes and paddings in bits or bytes and fields at any alignment,
but without a `Vec<u8>` with a `count`: every consistent value that is not refused round-trips, at any alignment. -/
theorem C70_bit_fields_round_trip_partial (m : Machine) (t : STy) (d : Def) (x : Bool)
    (ht : t.plain ⟨false, x⟩ = true) (hd : t.compile = some d) (hv : d.valid m.native = true) (env : Env) (v : Val)
    (hh : d.has v = true) (hg : d.good m env v = true) (hr : d.refusal m.native env v = none) :
    ∃ out, toBytes ((d.toTy m).write m env v) = .ok out ∧ out.length = (d.bits m.native env v + 7) / 8 ∧
      ∀ extra, fromBytes ((d.toTy m).read m env) (out ++ extra) 0 =
        .ok (((out ++ extra).drop (d.bits m.native env v / 8), d.bits m.native env v % 8), v) := by
  obtain ⟨b, hb⟩ := Option.isSome_iff_exists.1
    (d.check_msb m.native x (t.elab_plain _ none [] d ht rfl hd) (some 0))
  exact C61_checked_definitions_round_trip m .msb0 d env v b hv hb hh hg hr

/-! ### Examples -/

namespace SourceExample

open Example

def u8 : STy := .base (.uint 1)
def u16 : STy := .base (.uint 2)

/-- ```
struct Counted { n: u8, #[deku(count = "n", until = "|x| *x == 0")] items: Vec<u16> }
``` -/
def counted : STy :=
  .struct {} (.cons {} u8 (.cons { count := some (.field 0), untilEq := some 0 } (.vec false u16) .nil))

/-- `#[deku(bits_read = "8", until = "|x| *x == 0")] items: Vec<u8>` -/
def untilBits : STy :=
  .struct {} (.cons { bitsRead := some (.lit 8), untilEq := some 0 } (.vec false u8) .nil)

end SourceExample

open Example SourceExample

/-- **C67** is false of the code: the combination is accepted, and `until` is ignored (no element is 0). -/
theorem C67_until_is_ignored_with_count :
    (SourceExample.counted.compile.map fun d => fromBytes ((d.toTy mach).read mach {}) [2, 1, 0, 2, 0, 0, 0] 0) =
      some (.ok (([0, 0], 0), .ofList [.num 2, .ofList [.num 1, .num 2]])) := by decide +kernel

/-- **C67.** With `bits_read` it is the other way round: three elements of 8 bits are read where 8 bits are asked
for. -/
theorem C67_bits_read_is_ignored_with_until :
    (untilBits.compile.map fun d => fromBytes ((d.toTy mach).read mach {}) [1, 2, 0] 0) =
      some (.ok (([], 0), .ofList [.ofList [.num 1, .num 2, .num 0]])) := by decide +kernel

namespace SourceExample

/-- ```
#[deku(endian = "big")]
struct Message {
    #[deku(temp, temp_value = "self.body.len() as u8")] n: u8,
    #[deku(pad_bytes_after = "1")] port: u16,
    #[deku(count = "n")] body: Vec<u8>,
    #[deku(bytes = 3, endian = "little")] total: u32,
    #[deku(cond = "*port == 80")] extra: Option<i16>,
    kind: Kind,
}

#[deku(ctx = "endian: Endian", endian = "endian", id_type = "u16", id_endian = "endian")]
enum Kind {
    #[deku(id = "1")] Pair((u16, u16)),
    #[deku(id_pat = "_")] Other(u16, [u8; 2]),
}
``` -/
def kind : STy :=
  .enum { params := [.endian], endian := some (.arg 0) } (.typed 2 (some (.arg 0)) none none)
    (.cons { kind := .id 1 } (.cons {} (.pair u16 u16) .nil)
    (.cons { kind := .any } (.cons {} u16 (.cons {} (.array 2 u8) .nil)) .nil))

def message : STy :=
  .struct { endian := some (.lit .big) }
    (.cons { temp := some ⟨1, 1⟩ } u8
    (.cons { padBytesAfter := some 1 } u16
    (.cons { count := some (.field 1) } (.vec false u8)
    (.cons { bytes := some 3, endian := some (.lit .little) } (.base (.uint 4))
    (.cons { cond := some (.eq (.field 2) (.lit 80)) } (.option (.base (.sint 2)))
    (.cons {} kind .nil))))))

def messageValue : Val :=
  .ofList [.num 80, .ofList [.num 1, .num 2], .num 0x030201, .some (.num (-2)),
    .variant 1 (.ofList [.num 0x1234, .ofList [.num 8, .num 9]])]

/-- The conditions of the theorems, and what is written. -/
theorem message_checked :
    message.plain ⟨true, true⟩ = true ∧ message.idsNamed = true ∧
    (message.compile.map fun d => (d.valid mach.native, d.has messageValue, d.good mach {} messageValue,
        toBytes ((d.toTy mach).write mach {} messageValue))) =
      some (true, true, true, .ok [2, 0, 80, 0, 1, 2, 1, 2, 3, 0xff, 0xfe, 0x12, 0x34, 8, 9]) := by
  decide +kernel

example : ∃ d out, message.compile = some d ∧ toBytes ((d.toTy mach).write mach {} messageValue) = .ok out ∧
    ∀ extra, fromBytes ((d.toTy mach).read mach {}) (out ++ extra) 0 = .ok ((extra, 0), messageValue) := by
  obtain ⟨h1, _, h2⟩ := message_checked
  cases hd : message.compile with
  | none => rw [hd] at h2; cases h2
  | some d =>
    rw [hd] at h2
    simp only [Option.map_some, Option.some.injEq, Prod.mk.injEq] at h2
    obtain ⟨out, e1, e2⟩ := C69_consistent_values_round_trip mach message d h1 hd h2.1 {} messageValue h2.2.1 h2.2.2.1
    exact ⟨d, out, rfl, e1, e2⟩

/-- With the attributes on the fields, the definition is another one and the code the same. -/
example : message.spread.elab none [] = message.elab none [] :=
  C68_attributes_of_the_type_go_to_its_fields_partial message message_checked.2.1 none []

/-- Without the context argument `Kind` does not compile. -/
example : kind.compile.isNone = true ∧ (kind.elab none [.endian .big]).isSome = true := by decide +kernel

/-- Whatever is parsed as a list with a count before it has as many elements. -/
example (c : Container) (d : Def)
    (hd : (STy.struct c (.cons {} u8 (.cons { count := some (.field 0) } (.vec false u16) .nil))).compile = some d)
    (r r' : Reader) (v : Val) (h : (d.toTy mach).read mach {} r = (.ok v, r')) :
    ∃ n items tl : Val, v = .cons n (.cons items tl) ∧ ∀ k, n = .num k → (items.elems.length : Int) = k := by
  obtain ⟨env, vals, _, _, hk⟩ := C67_limits_are_kept_partial mach c _ [] d hd rfl [] [] r r' v h
  simp only [SFields.Kept, Option.isSome_none, Bool.false_eq_true, if_false] at hk
  obtain ⟨n, _, rfl, ⟨items, tl, rfl, _, h1⟩, _⟩ := hk
  refine ⟨n, items, tl, rfl, ?_⟩
  rintro k rfl
  exact h1 rfl ⟨_, rfl⟩ (.count (.field 0)) (by simp [SAttrs.limits]) k ⟨by simp, by simp⟩

/-- ```
struct Bits { #[deku(bits = 3)] a: u8, #[deku(count = "a", bits = 5)] b: Vec<u16>, #[deku(pad_bits_before = "2")] c: u16 }
``` -/
def bits : STy :=
  .struct {} (.cons { bits := some 3 } u8 (.cons { count := some (.field 0), bits := some 5 } (.vec false u16)
    (.cons { padBitsBefore := some 2 } u16 .nil)))

theorem bits_checked :
    bits.plain ⟨false, true⟩ = true ∧
    (bits.compile.map fun d => let v := Val.ofList [.num 2, .ofList [.num 31, .num 1], .num 258]
      (d.valid mach.native, d.has v, d.good mach {} v, decide (d.refusal mach.native {} v = none),
        toBytes ((d.toTy mach).write mach {} v))) =
      some (true, true, true, true, .ok [0x5f, 0x08, 0x04, 0x02]) := by
  decide +kernel

end SourceExample

/-- **C68** is false of the code for ids that are stored: `endian = "big"` on the enum is used for reading the id and
not for writing it. With `id_endian = "big"` it is used for both. -/
theorem C68_stored_ids_are_written_without_the_endianness :
    let t : STy := .enum { endian := some (.lit .big) } (.typed 2 none none none)
      (.cons { kind := .any } (.cons {} u16 .nil) .nil)
    let v := Val.variant 0 (.ofList [.num 1])
    t.idsNamed = false ∧
    (t.compile.map fun d => (toBytes ((d.toTy mach).write mach {} v), fromBytes ((d.toTy mach).read mach {}) [0, 1] 0)) =
      some (.ok [1, 0], .ok (([], 0), v)) ∧
    (t.spread.compile.map fun d =>
        (toBytes ((d.toTy mach).write mach {} v), fromBytes ((d.toTy mach).read mach {}) [0, 1] 0)) =
      some (.ok [0, 1], .ok (([], 0), v)) := by
  decide +kernel

/-- **C70** is false of the code with a `Vec<u8>` with a `count` behind bits: its bytes are read in another bit
order than they are written in. -/
theorem C70_byte_lists_behind_bits_do_not_round_trip :
    let t : STy := .struct {} (.cons { bits := some 4 } u8 (.cons { count := some (.lit 1) } (.vec false u8)
      (.cons { bits := some 4 } u8 .nil)))
    let v := Val.ofList [.num 1, .ofList [.num 0x23], .num 4]
    (t.compile.map fun d => d.valid mach.native && d.has v && d.good mach {} v &&
        decide (d.refusal mach.native {} v = none)) = some true ∧
    (t.compile.map fun d => (toBytes ((d.toTy mach).write mach {} v), fromBytes ((d.toTy mach).read mach {}) [0x12, 0x34] 0)) =
      some (.ok [0x12, 0x34], .ok (([], 0), .ofList [.num 1, .ofList [.num 0x42], .num 3])) := by
  decide +kernel

end Deku
