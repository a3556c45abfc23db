import Verif.Lemmas.CoreAccept
import Verif.Lemmas.CoreFits
import Verif.Props.Quiet

/-!
# Properties of definitions given as data: C61, C62

Nothing is assumed of the parts of a definition here: whether a definition and a value meet the conditions
is found out by computation.
-/

namespace Deku

/-! ## C61 -/

/-- **C61.** `d` is a definition whose sizes are possible and that is read and written in one layout
(`check`). Every value of the type that is consistent (`good`) and not refused is accepted by `to_bytes`,
has the size that `bits` computes, and is returned by `from_bytes`, whatever comes after the message. -/
theorem C61_checked_definitions_round_trip (m : Machine) (o : Order) (d : Def) (env : Env) (v : Val) (b : Align)
    (hd : d.valid m.native = true) (hc : d.check m.native o (some 0) = some b)
    (hv : d.has v = true) (hg : d.good m env v = true) (hr : d.refusal m.native env v = none) :
    ∃ out, toBytes ((d.toTy m).write m env v) = .ok out ∧ out.length = (d.bits m.native env v + 7) / 8 ∧
      ∀ extra, fromBytes ((d.toTy m).read m env) (out ++ extra) 0 =
        .ok (((out ++ extra).drop (d.bits m.native env v / 8), d.bits m.native env v % 8), v) := by
  have hdec := Def.decides m d env v hd hv
  rw [hr] at hdec
  obtain ⟨out, hout, hlen⟩ := hdec.toBytes_ok (Def.puts m d env v hd)
  refine ⟨out, hout, hlen, ?_⟩
  have hp : ∀ p : Nat, p = 0 → Align.holds (some 0) p := by rintro _ rfl k hk; cases hk; rfl
  have hf := Def.fits m o d (· = 0) (fun _ => True) (some 0) b env v hd hg hc hp fun _ _ => trivial
  intro extra
  obtain ⟨n, _, _, ⟨p, rfl, h3⟩, h4⟩ := ((Ty.sound m o _ _ _ _ _ hf).sized (Def.puts m d env v hd)).round_trip hout
  rw [Nat.zero_add] at h3
  subst h3
  exact h4 extra

/-- **C61.** If the alignment after the message is that of a byte, what was appended is left over. -/
theorem C61_rest_is_what_was_appended (m : Machine) (o : Order) (d : Def) (env : Env) (v : Val)
    (hd : d.valid m.native = true) (hc : d.check m.native o (some 0) = some (some 0))
    (hv : d.has v = true) (hg : d.good m env v = true) (hr : d.refusal m.native env v = none) :
    ∃ out, toBytes ((d.toTy m).write m env v) = .ok out ∧
      ∀ extra, fromBytes ((d.toTy m).read m env) (out ++ extra) 0 = .ok ((extra, 0), v) := by
  have hdec := Def.decides m d env v hd hv
  rw [hr] at hdec
  obtain ⟨out, hout, _⟩ := hdec.toBytes_ok (Def.puts m d env v hd)
  refine ⟨out, hout, ?_⟩
  have hp : ∀ p : Nat, p = 0 → Align.holds (some 0) p := by rintro _ rfl k hk; cases hk; rfl
  have hf := Def.fits m o d (· = 0) (fun n => n % 8 = 0) (some 0) (some 0) env v hd hg hc hp fun p h => h 0 rfl
  intro extra
  obtain ⟨n, h1, h2, h3, h4⟩ := (Ty.sound m o _ _ _ _ _ hf).round_trip hout
  rw [h4, show n / 8 = out.length by omega, List.drop_left, h3]

/-! ## C62 -/

/-- **C62.** For a value of the type, `to_bytes` returns the error that `refusal` computes, and if there is
none it returns as many bytes as `bits` computes. It never panics. -/
theorem C62_to_bytes_decides (m : Machine) (d : Def) (env : Env) (v : Val) (hd : d.valid m.native = true)
    (hv : d.has v = true) :
    match d.refusal m.native env v with
    | none => ∃ out, toBytes ((d.toTy m).write m env v) = .ok out ∧ out.length = (d.bits m.native env v + 7) / 8
    | some e => toBytes ((d.toTy m).write m env v) = .err e := by
  have hdec := Def.decides m d env v hd hv
  split
  · rename_i h
    rw [h] at hdec
    exact hdec.toBytes_ok (Def.puts m d env v hd)
  · rename_i h
    rw [h] at hdec
    exact hdec.toBytes_err

/-- **C62.** No way of serialising a value of the type panics: not `to_bytes`, not `to_bits`, not `to_slice`
with any buffer, and not `to_writer` on any sink with any faults and any bits pending. -/
theorem C62_values_of_the_type_never_panic (m : Machine) (d : Def) (env : Env) (v : Val)
    (hd : d.valid m.native = true) (hv : d.has v = true) :
    toBytes ((d.toTy m).write m env v) ≠ .panic ∧ toBits ((d.toTy m).write m env v) ≠ .panic ∧
    (∀ buf, (toSlice ((d.toTy m).write m env v) buf).1 ≠ .panic) ∧
    ∀ w : Writer, w.leftover.length < 8 → ((do (d.toTy m).write m env v; Writer.finalize : M Writer Unit) w).1 ≠ .panic := by
  have h := Def.writes m d env v hd hv
  obtain ⟨h1, h2, h3⟩ := C57_entry_points_do_not_panic_partial h
  exact ⟨h1, h2, h3, fun w hw => (C57_to_writer_does_not_panic_partial h w hw).2⟩

/-! ### Examples -/

namespace CoreExample

open Example

/-- ```
#[deku(id_type = "u8")]
enum Kind {
    #[deku(id = "1")] Port(#[deku(endian = "big")] NonZeroU16),
    #[deku(id_pat = "2..=9")] Small(u8, #[deku(bits = 1)] bool, #[deku(bits = 7)] u8),
    #[deku(id_pat = "_")] Other(u8),
}
``` -/
def kind : Def :=
  .enum [] [] (.typed (some 8) 1 .unit .unit)
    (.cons { kind := .id 1 } (.cons {} (.leaf none (.nonzero 2 (.endian .big))) .nil)
    (.cons { kind := .range 2 9 } (.cons {} (.leaf (some 8) (.uint 1 .unit))
      (.cons {} (.leaf (some 1) (.bool (.bits 1))) (.cons {} (.leaf (some 7) (.uint 1 (.bits 7))) .nil)))
    (.cons { kind := .any } (.cons {} (.leaf (some 8) (.uint 1 .unit)) .nil) .nil)))

/-- ```
#[deku_derive(DekuRead, DekuWrite)]
#[deku(magic = b"\xab")]
struct Record {
    #[deku(bits = 4, assert_eq = "3")] version: u8,
    #[deku(bits = 4)] flags: u8,
    #[deku(temp, temp_value = "self.items.len() as u8")] count: u8,
    #[deku(count = "count", endian = "big")] items: Vec<i16>,
    #[deku(cond = "*flags == 1", pad_bytes_before = 1)] extra: Option<u8>,
    name: CString,
    #[deku(count = "2")] kinds: Vec<Kind>,
}
``` -/
def record : Def :=
  .struct [] [0xab] (
    .cons { assertEq := some (.lit 3) } (.leaf (some 4) (.uint 1 (.bits 4)))
    (.cons {} (.leaf (some 4) (.uint 1 (.bits 4)))
    (.temp {} (.leaf (some 8) (.uint 1 .unit)) ⟨2, 1⟩
    (.cons {} (.vec false (.count (.field 0)) (.leaf (some 16) (.sint 2 (.endian .big))))
    (.cons { padBefore := some 8, cond := some (.eq (.field 2) (.lit 1)), default := .none }
      (.option (.leaf (some 8) (.uint 1 .unit)))
    (.cons {} (.leaf none .cstring)
    (.cons {} (.vec false (.count (.lit 2)) kind) .nil)))))))

def recordValue : Val :=
  .ofList [.num 3, .num 1, .ofList [.num (-2), .num 300], .some (.num 7), .ofList [.num 104, .num 105],
    .ofList [.variant 0 (.ofList [.num 80]), .variant 1 (.ofList [.num 5, .num 1, .num 100])]]

/-- The conditions of the theorems are checked by computation. -/
theorem record_checked :
    record.valid mach.native = true ∧ record.check mach.native .msb0 (some 0) = some (some 0) ∧
    record.has recordValue = true ∧ record.good mach {} recordValue = true ∧
    record.refusal mach.native {} recordValue = none ∧ record.bits mach.native {} recordValue = 136 := by
  decide +kernel

example : ∃ out, toBytes ((record.toTy mach).write mach {} recordValue) = .ok out ∧
    ∀ extra, fromBytes ((record.toTy mach).read mach {}) (out ++ extra) 0 = .ok ((extra, 0), recordValue) := by
  obtain ⟨h1, h2, h3, h4, h5, _⟩ := record_checked
  exact C61_rest_is_what_was_appended mach .msb0 record {} recordValue h1 h2 h3 h4 h5

/-- The bytes. -/
example : toBytes ((record.toTy mach).write mach {} recordValue) =
    .ok [0xab, 0x31, 2, 0xff, 0xfe, 1, 0x2c, 0, 7, 104, 105, 0, 1, 0, 80, 5, 0xe4] := by decide +kernel

/-- A value that is refused: the flags do not fit in four bits; and one with a wrong version. -/
example :
    let v := fun (version flags : Int) => Val.ofList [.num version, .num flags, .nil, .none, .nil, .nil]
    record.has (v 3 16) = true ∧ record.refusal mach.native {} (v 3 16) = some .invalidParam ∧
    record.has (v 4 16) = true ∧ record.refusal mach.native {} (v 4 16) = some .assertion := by decide +kernel

/-- A definition in Lsb0 order: `bits = 3`, `bits = 13, endian = "little"`, then a whole `u32`. -/
def lsbWord : Def :=
  .struct [] [] (.cons {} (.leaf (some 3) (.uint 1 (.bitsOrder 3 .lsb0)))
    (.cons {} (.leaf (some 13) (.uint 2 (.endianBitsOrder .little 13 .lsb0)))
    (.cons {} (.leaf (some 32) (.sint 4 (.order .lsb0))) .nil)))

example : lsbWord.valid .little = true ∧ lsbWord.check .little .lsb0 (some 0) = some (some 0) ∧
    lsbWord.has (.ofList [.num 5, .num 4000, .num (-1)]) = true ∧
    lsbWord.good mach {} (.ofList [.num 5, .num 4000, .num (-1)]) = true ∧
    lsbWord.refusal .little {} (.ofList [.num 5, .num 4000, .num (-1)]) = none := by decide +kernel

end CoreExample

open Example CoreExample in
/-- The condition `check` is needed: with big endian the same bits do not come back. -/
theorem C61_big_endian_lsb0_is_not_checked :
    let d : Def := .leaf (some 13) (.uint 2 (.endianBitsOrder .big 13 .lsb0))
    d.valid .little = true ∧ d.has (.num 4000) = true ∧ d.good mach {} (.num 4000) = true ∧
    d.refusal .little {} (.num 4000) = none ∧ d.check .little .lsb0 (some 0) = none ∧
    toBytes ((d.toTy mach).write mach {} (.num 4000)) = .ok [15, 0] ∧
    fromBytes ((d.toTy mach).read mach {}) [15, 0] 0 = .ok (([0], 5), .num 3840) := by
  decide +kernel

end Deku
