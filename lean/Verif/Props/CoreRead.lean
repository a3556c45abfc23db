import Verif.Lemmas.CoreSafe
import Verif.Props.Core
import Verif.Props.Safe

/-!
# Properties of reading definitions given as data: C63, C64
-/

namespace Deku

/-! ## C63 -/

/-- **C63.** Whatever the source contains and however it fails, and in whatever state the reader is, the value
a read succeeds with is one of the type: integers are in the range of the type, `NonZero` values are not zero,
strings have no NUL, arrays have their length, variants have the fields of their variant. -/
theorem C63_values_read_are_of_the_type (m : Machine) (d : Def) (env : Env) (hd : d.valid m.native = true)
    (ht : d.typed = true) (r r' : Reader) (v : Val) (h : (d.toTy m).read m env r = (.ok v, r')) :
    d.has v = true := (Def.read_has m d env hd ht r v r' trivial h).2

/-- **C63.** The same for the entry points, at any offset. -/
theorem C63_entry_points_return_values_of_the_type (m : Machine) (d : Def) (env : Env)
    (hd : d.valid m.native = true) (ht : d.typed = true) :
    (∀ data off rest v, fromBytes ((d.toTy m).read m env) data off = .ok (rest, v) → d.has v = true) ∧
    (∀ src off n v, fromReader ((d.toTy m).read m env) src off = .ok (n, v) → d.has v = true) ∧
    ∀ data v, tryFrom ((d.toTy m).read m env) data = .ok v → d.has v = true := by
  have hf : ∀ src off n v, fromReader ((d.toTy m).read m env) src off = .ok (n, v) → d.has v = true := by
    intro src off n v h
    unfold fromReader at h
    have hk : Yields (fun v => d.has v = true) (readFrom ((d.toTy m).read m env) off) := by
      unfold readFrom
      dsimp only
      exact Yields.ite (fun _ => Yields.after fun _ => Def.read_has m d env hd ht) fun _ => Def.read_has m d env hd ht
    split at h
    · rename_i x r e
      cases h
      exact (hk _ _ _ trivial e).2
    · cases h
    · cases h
  refine ⟨?_, hf, ?_⟩
  · intro data off rest v h
    have : ∃ n, fromReader ((d.toTy m).read m env) { data := data } off = .ok (n, v) := by
      unfold fromBytes at h
      unfold fromReader
      split at h
      · rename_i x r e
        split at h
        · cases h; exact ⟨_, rfl⟩
        · cases h
      · cases h
      · cases h
    obtain ⟨n, hn⟩ := this
    exact hf _ _ _ _ hn
  · intro data v h
    unfold tryFrom at h
    split at h
    · rename_i n x e
      split at h
      · cases h
      · split at h
        · cases h
        · cases h; exact hf _ _ _ _ e
    · cases h
    · cases h

/-- **C63.** So what was parsed can be written again without a panic, in any context: `to_bytes` returns
bytes, as many as `bits` computes, or the error `refusal` computes. -/
theorem C63_what_was_parsed_is_written_without_panic (m : Machine) (d : Def) (env env' : Env)
    (hd : d.valid m.native = true) (ht : d.typed = true) (src : Src) (off n : Nat) (v : Val)
    (h : fromReader ((d.toTy m).read m env) src off = .ok (n, v)) :
    match d.refusal m.native env' v with
    | none => ∃ out, toBytes ((d.toTy m).write m env' v) = .ok out ∧ out.length = (d.bits m.native env' v + 7) / 8
    | some e => toBytes ((d.toTy m).write m env' v) = .err e :=
  C62_to_bytes_decides m d env' v hd ((C63_entry_points_return_values_of_the_type m d env hd ht).2.1 _ _ _ _ h)

/-! ### Examples -/

open Example CoreExample

/-- The record of `Props.Core`. -/
example : record.valid mach.native = true ∧ record.typed = true := by decide +kernel

example : fromReader ((record.toTy mach).read mach {})
    { data := [0xab, 0x31, 2, 0xff, 0xfe, 1, 0x2c, 0, 7, 104, 105, 0, 1, 0, 80, 5, 0xe4] } 0 =
      .ok (136, recordValue) := by decide +kernel

/-- A source whose first call fails with an error that the reader ignores: the value is not what the source
contains, but it is of the type. -/
example :
    let d : Def := .leaf none (.nonzero 2 (.endianBits .little 16))
    d.valid .little = true ∧ d.typed = true ∧
    fromReader ((d.toTy mach).read mach {})
      { data := [1, 2], faults := { fails := fun i => if i = 0 then some (0, .other 1) else none } } 0 =
        .ok (16, .num 256) ∧ d.has (.num 256) = true := by decide +kernel

/-- The condition on defaults is needed: a field that is skipped has the default value, of whatever type it is
given. (In Rust that does not compile.) -/
theorem C63_wrong_default_is_not_of_the_type :
    let d : Def := .struct [] [] (.cons { skip := some .read, default := .num 256 } (.leaf none (.uint 1 .unit)) .nil)
    d.valid .little = true ∧ d.typed = false ∧
    fromBytes ((d.toTy mach).read mach {}) [] 0 = .ok (([], 0), .ofList [.num 256]) ∧
    d.has (.ofList [.num 256]) = false ∧
    toBytes ((d.toTy mach).write mach {} (.ofList [.num 256])) = .panic := by
  decide +kernel

/-! ## C64 -/

/-- **C64.** If `safe` computes a stage for the definition, no input of at most `len` bytes makes `from_bytes`,
`from_reader` or `TryFrom` panic, at any offset (behind the end of the input if the definition is safe there),
in any context within the bounds. The only condition on the machine is that it can hold one element per bit of
the input. -/
theorem C64_safe_definitions_parse_without_panics (m : Machine) (len : Nat) (d : Def) (sc : Scope) (env : Env)
    (s t : Stage) (hmem : 8 * len + 1 ≤ m.mem) (hd : d.valid m.native = true) (hs : d.safe m sc s = some t)
    (henv : sc.holds env) (data : List Byte) (hl : data.length ≤ len) (off : Nat)
    (ho : 8 * data.length < off → s.past = true) :
    fromBytes ((d.toTy m).read m env) data off ≠ .panic ∧
    fromReader ((d.toTy m).read m env) { data := data } off ≠ .panic ∧
    tryFrom ((d.toTy m).read m env) data ≠ .panic := by
  have h := Def.safe_sound m hmem d sc s t t env (fun _ => True) hd hs (Stage.le_refl _) henv fun _ _ => trivial
  exact ⟨C50_from_bytes_never_panics_partial m len _ env s t _ hmem h data hl off ho,
    C50_from_reader_never_panics_partial m len _ env s t _ hmem h data hl off ho,
    C50_try_from_never_panics_partial m len _ env s t _ hmem h data hl⟩

/-- **C64.** Without a context, from the start of the input: parse, then serialise what was parsed. Neither
panics. -/
theorem C64_parse_and_serialise_without_panics (m : Machine) (d : Def) (t : Stage) (hd : d.valid m.native = true)
    (ht : d.typed = true) (hs : d.safe m {} .fresh = some t) (data : List Byte) (hmem : 8 * data.length + 1 ≤ m.mem) :
    (∃ e, fromBytes ((d.toTy m).read m {}) data 0 = .err e) ∨
    ∃ rest v, fromBytes ((d.toTy m).read m {}) data 0 = .ok (rest, v) ∧ d.has v = true ∧
      toBytes ((d.toTy m).write m {} v) ≠ .panic := by
  have h := (C64_safe_definitions_parse_without_panics m data.length d {} {} .fresh t hmem hd hs Scope.holds_nil data
    (Nat.le_refl _) 0 (by omega)).1
  cases hx : fromBytes ((d.toTy m).read m {}) data 0 with
  | panic => exact absurd hx h
  | err e => exact .inl ⟨e, rfl⟩
  | ok a =>
    obtain ⟨rest, v⟩ := a
    have hv := (C63_entry_points_return_values_of_the_type m d {} hd ht).1 _ _ _ _ hx
    exact .inr ⟨rest, v, rfl, hv, (C62_values_of_the_type_never_panic m d {} v hd hv).1⟩

/-! ### Examples -/

namespace CoreExample

/-- A machine that can hold a tebibyte. -/
def large : Machine := { native := .little, mem := 2 ^ 40 }

theorem record_safe : record.safe large {} .fresh = some .fresh := by decide +kernel

/-- No input of up to 100 GiB makes the parser of the record panic. -/
example (data : List Byte) (h : data.length ≤ 100 * 2 ^ 30) : fromBytes ((record.toTy large).read large {}) data 0 ≠ .panic :=
  (C64_safe_definitions_parse_without_panics large (100 * 2 ^ 30) record {} {} .fresh .fresh (by decide) (by decide +kernel)
    record_safe Scope.holds_nil data h 0 (by omega)).1

/-- A list of records until the end of the input, also when the offset is beyond the end. -/
example : (Def.vec false .all record).safe large {} .any = some ⟨true, false⟩ := by decide +kernel

/-- ```
struct Sized { #[deku(endian = "big")] n: uW, #[deku(count = "n")] items: Vec<u16> }
``` -/
def counted (W : Nat) : Def :=
  .struct [] [] (.cons {} (.leaf (some (8 * W)) (.uint W (.endian .big)))
    (.cons {} (.vec false (.count (.field 0)) (.leaf (some 16) (.uint 2 (.endian .big)))) .nil))

end CoreExample

/-- A count of one or two bytes is safe, a count of eight bytes is not, and indeed there is an input that makes
the parser panic. -/
theorem C64_large_count_is_rejected :
    (counted 2).safe large {} .fresh = some .fresh ∧ (counted 8).safe large {} .fresh = none ∧
    fromBytes (((counted 8).toTy large).read large {}) [0xff, 0xff, 0xff, 0xff, 0xff, 0xff, 0xff, 0xff, 1, 2] 0 =
      .panic := by decide +kernel

/-- With an assertion the count is bounded again. -/
example : (Def.struct [] [] (.cons { assertEq := some (.lit 7) } (.leaf (some 64) (.uint 8 (.endian .big)))
    (.cons {} (.vec false (.count (.field 0)) (.leaf (some 16) (.uint 2 (.endian .big)))) .nil))).safe large {}
      .fresh = some .fresh := by decide +kernel

/-- Or with `count = "min(*n, 1000)"`, or half of a count that is small enough. -/
example : (Def.struct [] [] (.cons {} (.leaf (some 64) (.uint 8 (.endian .big)))
    (.cons {} (.vec false (.count (.op .min (.field 0) (.lit 1000))) (.leaf (some 16) (.uint 2 (.endian .big))))
    (.cons {} (.vec false (.count (.lop (.shr 40) (.field 1))) (.leaf (some 16) (.uint 2 (.endian .big)))) .nil)))).safe
      large {} .fresh = some .fresh := by decide +kernel

/-- Other definitions that `safe` rejects, each with an input on which the parser panics: bytes after padding,
bytes in a `read_all` list, elements that read nothing. -/
theorem C64_rejected_definitions_panic :
    (let d : Def := .struct [] [] (.cons { padBefore := some 16 } (.bytes (.lit 0) .unit) .nil)
     d.safe large {} .fresh = none ∧ fromBytes ((d.toTy large).read large {}) [1] 0 = .panic) ∧
    (let d : Def := .vec false .all (.struct [] [] (.cons {} (.bytes (.lit 0) .unit)
      (.cons {} (.leaf (some 8) (.uint 1 .unit)) .nil)))
     d.safe large {} .fresh = none ∧ fromBytes ((d.toTy large).read large {}) [1, 2] 0 = .panic) ∧
    (let d : Def := .struct [] [] (.cons {} (.vec false (.until 1) (.struct [] []
      (.cons { padBefore := some 8, skip := some .all } (.leaf (some 8) (.uint 1 .unit)) .nil))) .nil)
     d.safe mach {} .fresh = none ∧ fromBytes ((d.toTy mach).read mach {}) [1, 2] 0 = .panic) := by
  decide +kernel

end Deku
