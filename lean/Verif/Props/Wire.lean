import Verif.Lemmas.Wire
import Verif.Props.Source

/-!
# Properties of what a source describes: C71, C72, C74

C71 is about the attributes on one integer, C72 about whole definitions, C74 about whole definitions in either bit
order. What a source describes is computed from its attributes alone (`Spec/Wire.lean`).
-/

namespace Deku

/-! ## C71 -/

/-- The size asked for, in bits. -/
def sizeAsked (W : Nat) (bits bytes : Option Nat) : Nat := (bits.or (bytes.map (8 * ·))).getD (8 * W)

/-- **C71.** Which combinations of `endian`, `bits`, `bytes` and `bit_order` compile on an integer: all but two
sizes, and `bytes` with `bit_order` where there is no `endian`. -/
theorem C71_which_attributes_compile (W : Nat) (e : Option Endian) (bits bytes : Option Nat) (o : Option Order) :
    ((STy.base (.uint W)).elab none (fieldArgs e bits bytes o [])).isSome = true ↔
      ¬(bits.isSome ∧ bytes.isSome) ∧ ¬(e = none ∧ bytes.isSome ∧ o.isSome) := by
  rw [STy.elab]
  cases e <;> cases bits <;> cases bytes <;> cases o <;> simp [fieldArgs, Base.leaf, intArgs]

/-- **C71.** A `NonZero` type needs an `endian` for anything else, and a size for a `bit_order`. -/
theorem C71_which_attributes_compile_on_nonzero (W : Nat) (e : Option Endian) (bits bytes : Option Nat)
    (o : Option Order) :
    ((STy.base (.nonzero W)).elab none (fieldArgs e bits bytes o [])).isSome = true ↔
      ¬(bits.isSome ∧ bytes.isSome) ∧ (e = none → bits = none ∧ bytes = none ∧ o = none) ∧
      (o.isSome → bits.isSome ∨ bytes.isSome) := by
  rw [STy.elab]
  cases e <;> cases bits <;> cases bytes <;> cases o <;> simp [fieldArgs, Base.leaf, nonzeroArgs]

/-- **C71.** If it compiles, the attributes mean what they say. An integer of `n` bits that fits is written as its
bits in the endianness and bit order given, otherwise those of the machine and Msb0, and filled up with zeros; and it is
read from any data that starts with these bits. The exception is `bits` of more than a byte and less than the type in
big endian and Lsb0. -/
theorem C71_integer_attributes_mean_what_they_say (m : Machine) (W : Nat) (e : Option Endian) (bits bytes : Option Nat)
    (o : Option Order) (d : Def) (hd : (STy.base (.uint W)).elab none (fieldArgs e bits bytes o []) = some d)
    (h1 : 1 ≤ sizeAsked W bits bytes) (hW : 1 ≤ W) (hn : sizeAsked W bits bytes ≤ 8 * W) (v : Nat)
    (hv : v < 2 ^ sizeAsked W bits bytes)
    (hs : bits.isSome → o = some .lsb0 → e.getD m.native = .big →
      sizeAsked W bits bytes ≤ 8 ∨ sizeAsked W bits bytes = 8 * W) (env : Env) :
    let image := fieldBits (e.getD m.native) (o.getD .msb0) (sizeAsked W bits bytes) v
    (∃ out, toBytes ((d.toTy m).write m env (.num v)) = .ok out ∧
      orderBits (o.getD .msb0) out = image ++ List.replicate ((8 - image.length % 8) % 8) false) ∧
    ∀ data rest, orderBits (o.getD .msb0) data = image ++ rest →
      fromBytes ((d.toTy m).read m env) data 0 =
        .ok ((data.drop (sizeAsked W bits bytes / 8), sizeAsked W bits bytes % 8), .num v) := by
  intro image
  rw [STy.elab] at hd
  rw [if_neg (fun h => nomatch h.1)] at hd
  simp only [Option.bind_eq_bind, Option.bind_eq_some_iff, Option.pure_def, Option.some.injEq] at hd
  obtain ⟨l, hl, rfl⟩ := hd
  simp only [Base.leaf, Option.map_eq_some_iff] at hl
  obtain ⟨ctx, hc, rfl⟩ := hl
  have hshape : ctx.shape m.native W = (e.getD m.native, sizeAsked W bits bytes, o.getD .msb0) ∧
      ctx.isBits = bits.isSome := by
    unfold sizeAsked at *
    cases e <;> cases bits <;> cases bytes <;> cases o <;>
      simp only [fieldArgs, Option.map_some, Option.map_none, Option.toList_some, Option.toList_none, List.nil_append,
        List.cons_append, List.append_nil, intArgs, Option.some.injEq, reduceCtorEq] at hc <;>
      subst hc <;> simp [IntCtx.shape, IntCtx.isBits] <;> (simp at h1 hn; intro h; omega)
  obtain ⟨hshape, hbits⟩ := hshape
  have hcomp : Prim.Compatible m.native W ctx 0 := by
    unfold Prim.Compatible
    rw [hshape, hbits]
    split
    · rename_i hb
      intro ho he
      refine hs hb ?_ he
      cases o with
      | none => cases ho
      | some o => simp only [Option.getD_some] at ho; rw [ho]
    · intro _; rfl
  obtain ⟨hWr, hRd⟩ := round_trip hW hshape h1 hn hv hcomp
  have hlt : v < 256 ^ W := by
    rw [show (256 : Nat) ^ W = 2 ^ (8 * W) by rw [Nat.pow_mul]]
    exact Nat.lt_of_lt_of_le hv (Nat.pow_le_pow_right (by omega) hn)
  rw [← uint_write_num hlt] at hWr
  have hRd := hRd.map fun n => Val.num n
  constructor
  · exact hWr.toBytes
  · intro data rest hdata
    have := hRd.parses hdata
    rwa [Prim.length_fieldBits] at this

/-! ## C74 -/

/-- **C74.** Whatever `to_bytes` returns for a definition in one bit order is what its source describes in this bit
order, filled up with zeros; for every value that it accepts, consistent or not. In Lsb0 bytes have to begin at bytes. -/
theorem C74_written_as_described_in_either_bit_order (m : Machine) (t : STy) (d : Def) (o : Order)
    (ht : t.ordered o m.native [] = true) (hi : t.idsNamed = true) (hz : t.sized [] = true) (hd : t.compile = some d)
    (env : Env) (v : Val) (he : t.even o m.native env v = true) (out : List Byte)
    (h : toBytes ((d.toTy m).write m env v) = .ok out) : Packed o out (t.described o m.native env v) :=
  (STy.emits m t none [] d ht hi hz hd env env (Env.Same.refl env) v).toBytes (STy.even_onBytes he) h

/-- **C74.** A definition that passes the check of C61: a value of its type that is consistent and not refused is parsed
from any data that starts with the bits that the source describes, and exactly these bits are consumed. -/
theorem C74_described_is_parsed_in_either_bit_order (m : Machine) (t : STy) (d : Def) (o : Order)
    (ht : t.ordered o m.native [] = true) (hi : t.idsNamed = true) (hz : t.sized [] = true) (hd : t.compile = some d)
    (b : Align) (hc : d.check m.native o (some 0) = some b) (env : Env) (v : Val)
    (he : t.even o m.native env v = true) (hh : t.has v = true) (hg : d.good m env v = true)
    (hr : d.refusal m.native env v = none) (data : List Byte) (rest : List Bool)
    (hb : orderBits o data = t.described o m.native env v ++ rest) :
    fromBytes ((d.toTy m).read m env) data 0 =
      .ok ((data.drop ((t.described o m.native env v).length / 8), (t.described o m.native env v).length % 8), v) := by
  have hv := STy.elab_valid m.native t none [] d hz hd
  have hdec := Def.decides m d env v hv (by rw [STy.elab_has t none [] d hd]; exact hh)
  rw [hr] at hdec
  obtain ⟨out, hout, _⟩ := hdec.toBytes_ok (Def.puts m d env v hv)
  obtain ⟨w, hw⟩ := toBytes_accepted hout
  have hp : ∀ p : Nat, p = 0 → Align.holds (some 0) p := by rintro _ rfl k hk; cases hk; rfl
  have hf := Def.fits m o d (· = 0) (fun _ => True) (some 0) b env v hv hg hc hp fun _ _ => trivial
  obtain ⟨bits, hW, hR, _⟩ := Ty.sound m o _ _ _ _ _ hf 0 _ _ rfl (Writer.new_at o) hw
  obtain ⟨s1, _⟩ := STy.emits m t none [] d ht hi hz hd env env (Env.Same.refl env) v 0 _ _ (Writer.new_at o)
    (STy.even_onBytes he) hw
  obtain ⟨s2, _⟩ := hW.run (Writer.new_at o) hw
  have : bits = t.described o m.native env v := by
    have := s2.produced.symm.trans s1.produced
    exact List.append_cancel_left this
  subst this
  exact hR.parses hb

/-- **C74.** No description is the beginning of another. -/
theorem C74_descriptions_are_prefix_free_in_either_bit_order (m : Machine) (t : STy) (d : Def) (o : Order)
    (ht : t.ordered o m.native [] = true) (hi : t.idsNamed = true) (hz : t.sized [] = true) (hd : t.compile = some d)
    (b : Align) (hc : d.check m.native o (some 0) = some b) (env : Env) (v w : Val)
    (hev : t.even o m.native env v = true) (hew : t.even o m.native env w = true)
    (hv : t.has v = true ∧ d.good m env v = true ∧ d.refusal m.native env v = none)
    (hw : t.has w = true ∧ d.good m env w = true ∧ d.refusal m.native env w = none)
    (h : t.described o m.native env v <+: t.described o m.native env w) : v = w := by
  obtain ⟨rest, hrest⟩ := h
  have hval := STy.elab_valid m.native t none [] d hz hd
  have hdec := Def.decides m d env w hval (by rw [STy.elab_has t none [] d hd]; exact hw.1)
  rw [hw.2.2] at hdec
  obtain ⟨out, hout, _⟩ := hdec.toBytes_ok (Def.puts m d env w hval)
  have hp := C74_written_as_described_in_either_bit_order m t d o ht hi hz hd env w hew out hout
  unfold Packed at hp
  have h1 := C74_described_is_parsed_in_either_bit_order m t d o ht hi hz hd b hc env w hew hw.1 hw.2.1 hw.2.2 out _ hp
  rw [← hrest, List.append_assoc] at hp
  have h2 := C74_described_is_parsed_in_either_bit_order m t d o ht hi hz hd b hc env v hev hv.1 hv.2.1 hv.2.2 out _ hp
  rw [h1] at h2
  simp only [Res.ok.injEq, Prod.mk.injEq] at h2
  exact h2.2.symm

/-! ## C72 -/

/-- **C72.** Whatever `to_bytes` returns for a definition in the bit order of the library is what its source
describes, filled up with zeros; for every value that it accepts, consistent or not. -/
theorem C72_what_is_written_is_what_the_source_describes (m : Machine) (t : STy) (d : Def) (ht : t.msb = true)
    (hi : t.idsNamed = true) (hz : t.sized [] = true) (hd : t.compile = some d) (env : Env) (v : Val) (out : List Byte)
    (h : toBytes ((d.toTy m).write m env v) = .ok out) : Packed .msb0 out (t.described .msb0 m.native env v) :=
  C74_written_as_described_in_either_bit_order m t d .msb0 (t.ordered_msb m.native [] ht rfl) hi hz hd env v rfl out h

theorem STy.plain_checked (m : Machine) {t : STy} {d : Def} {s : Style} (ht : t.plain s = true)
    (hd : t.compile = some d) : ∃ b, d.check m.native .msb0 (some 0) = some b := by
  have hp := t.elab_plain _ none [] d ht rfl hd
  obtain ⟨whole, lax⟩ := s
  cases whole with
  | true => exact ⟨_, d.check_whole m.native lax hp⟩
  | false => exact Option.isSome_iff_exists.1 (d.check_msb m.native lax hp (some 0))

/-- **C72.** A plain source: a value of its type that is consistent and not refused is parsed from any data that starts
with the bits that the source describes, and exactly these bits are consumed. -/
theorem C72_what_the_source_describes_is_parsed_partial (m : Machine) (t : STy) (d : Def) (s : Style)
    (ht : t.plain s = true) (hz : t.sized [] = true) (hd : t.compile = some d) (env : Env) (v : Val)
    (hh : t.has v = true) (hg : d.good m env v = true) (hr : d.refusal m.native env v = none) (data : List Byte)
    (rest : List Bool) (hb : bytesBits data = t.described .msb0 m.native env v ++ rest) :
    fromBytes ((d.toTy m).read m env) data 0 =
      .ok ((data.drop ((t.described .msb0 m.native env v).length / 8),
        (t.described .msb0 m.native env v).length % 8), v) := by
  obtain ⟨b, hc⟩ := STy.plain_checked m ht hd
  obtain ⟨hm, hi⟩ := t.plain_msb s ht
  exact C74_described_is_parsed_in_either_bit_order m t d .msb0 (t.ordered_msb m.native [] hm rfl) hi hz hd b hc env v rfl
    hh hg hr data rest hb

/-- **C72.** No description is the beginning of another: two consistent values of a plain type with the same
arguments, one of which starts as the other, are the same. -/
theorem C72_descriptions_are_prefix_free_partial (m : Machine) (t : STy) (d : Def) (s : Style) (ht : t.plain s = true)
    (hz : t.sized [] = true) (hd : t.compile = some d) (env : Env) (v w : Val)
    (hv : t.has v = true ∧ d.good m env v = true ∧ d.refusal m.native env v = none)
    (hw : t.has w = true ∧ d.good m env w = true ∧ d.refusal m.native env w = none)
    (h : t.described .msb0 m.native env v <+: t.described .msb0 m.native env w) : v = w := by
  obtain ⟨b, hc⟩ := STy.plain_checked m ht hd
  obtain ⟨hm, hi⟩ := t.plain_msb s ht
  exact C74_descriptions_are_prefix_free_in_either_bit_order m t d .msb0 (t.ordered_msb m.native [] hm rfl) hi hz hd b hc
    env v w rfl rfl hv hw h

/-- **C72.** What the macro emits has no size that is impossible and takes values of the type, if this is so of the
source. (So the conditions of C61, C62, C69 and C70 can be found out from the source.) -/
theorem C72_types_and_sizes_are_those_of_the_source (native : Endian) (t : STy) (d : Def) (hd : t.compile = some d) :
    (∀ v, d.has v = t.has v) ∧ (t.sized [] = true → d.valid native = true) :=
  ⟨STy.elab_has t none [] d hd, fun hz => STy.elab_valid native t none [] d hz hd⟩

/-! ### Examples -/

open Example SourceExample

/-- `#[deku(bits = 12, bit_order = "lsb", endian = "little")] x: u16`: 0xabc is written as `bc 0a`. -/
example : ∃ d, (STy.base (.uint 2)).elab none (fieldArgs (some .little) (some 12) none (some .lsb0) []) = some d ∧
    toBytes ((d.toTy mach).write mach {} (.num 0xabc)) = .ok [0xbc, 0x0a] ∧
    fromBytes ((d.toTy mach).read mach {}) [0xbc, 0xfa] 0 = .ok (([0xfa], 4), .num 0xabc) := by
  refine ⟨_, rfl, by decide +kernel, ?_⟩
  exact (C71_integer_attributes_mean_what_they_say mach 2 (some .little) (some 12) none (some .lsb0) _ rfl (by decide)
    (by decide) (by decide) 0xabc (by decide) (by simp) {}).2 [0xbc, 0xfa] [true, true, true, true] (by decide +kernel)

/-- `endian = "big", bytes = 3` on a `u32`, with `bit_order = "msb"`. -/
example : ∃ d, (STy.base (.uint 4)).elab none (fieldArgs (some .big) none (some 3) (some .msb0) []) = some d ∧
    ∀ v : Nat, v < 2 ^ 24 → ∃ out, toBytes ((d.toTy mach).write mach {} (.num v)) = .ok out ∧
      bytesBits out = fieldBits .big .msb0 24 v := by
  refine ⟨_, rfl, fun v hv => ?_⟩
  obtain ⟨out, h1, h2⟩ := (C71_integer_attributes_mean_what_they_say mach 4 (some .big) none (some 3) (some .msb0) _ rfl
    (by decide) (by decide) (by decide) v hv (by simp) {}).1
  refine ⟨out, h1, ?_⟩
  have e : sizeAsked 4 none (some 3) = 24 := rfl
  rw [e, Prim.length_fieldBits] at h2
  simpa [orderBits] using h2

/-- **C71.** The macro does not reject what the compiler does: `bytes = 2, bit_order = "lsb"` without an `endian`, and
`bits = 4` on a `NonZeroU8` without one. -/
theorem C71_accepted_by_the_macro_but_not_by_the_compiler :
    (∀ a : SAttrs, a = { bytes := some 2, order := some (.lit .lsb0) } → a.validate = true ∧
      (STy.struct {} (.cons a u16 .nil)).compile.isNone = true ∧
      (STy.struct {} (.cons { a with endian := some (.lit .little) } u16 .nil)).compile.isSome = true) ∧
    ∀ a : SAttrs, a = { bits := some 4 } → a.validate = true ∧
      (STy.struct {} (.cons a (.base (.nonzero 1)) .nil)).compile.isNone = true ∧
      (STy.struct {} (.cons { a with endian := some (.lit .big) } (.base (.nonzero 1)) .nil)).compile.isSome = true := by
  constructor <;> (rintro _ rfl; decide +kernel)

/-- What the source of `Message` describes. -/
theorem SourceExample.message_described :
    message.msb = true ∧ message.sized [] = true ∧ message.has messageValue = true ∧
    message.described .msb0 .little {} messageValue =
      bytesBits [2, 0, 80, 0, 1, 2, 1, 2, 3, 0xff, 0xfe, 0x12, 0x34, 8, 9] := by
  decide +kernel

/-- It is written as described and parsed from what was described, here with something behind. -/
example : ∃ d, message.compile = some d ∧
    (∀ out, toBytes ((d.toTy mach).write mach {} messageValue) = .ok out →
      Packed .msb0 out (message.described .msb0 mach.native {} messageValue)) ∧
    fromBytes ((d.toTy mach).read mach {}) ([2, 0, 80, 0, 1, 2, 1, 2, 3, 0xff, 0xfe, 0x12, 0x34, 8, 9] ++ [77, 78]) 0 =
      .ok (([77, 78], 0), messageValue) := by
  obtain ⟨h1, h2, h3⟩ := message_checked
  obtain ⟨g1, g2, g3, g4⟩ := message_described
  cases hd : message.compile with
  | none => rw [hd] at h3; cases h3
  | some d =>
    rw [hd] at h3
    simp only [Option.map_some, Option.some.injEq, Prod.mk.injEq] at h3
    refine ⟨d, rfl, fun out => C72_what_is_written_is_what_the_source_describes mach message d g1 h2 g2 hd {} _ out, ?_⟩
    have := C72_what_the_source_describes_is_parsed_partial mach message d _ h1 g2 hd {} messageValue g3 h3.2.2.1
      (d.refusal_plain mach.native (message.elab_plain _ none [] d h1 rfl hd) {} messageValue)
      ([2, 0, 80, 0, 1, 2, 1, 2, 3, 0xff, 0xfe, 0x12, 0x34, 8, 9] ++ [77, 78]) (bytesBits [77, 78])
      (by rw [show mach.native = .little from rfl, g4]; decide +kernel)
    rw [show mach.native = .little from rfl, g4] at this
    exact this

/-- Fields that are not whole bytes: 3 bits, two of 5 bits, 2 bits of padding, and 16 bits. -/
theorem SourceExample.bits_described :
    let v := Val.ofList [.num 2, .ofList [.num 31, .num 1], .num 258]
    bits.msb = true ∧ bits.idsNamed = true ∧ bits.sized [] = true ∧ bits.has v = true ∧
    bits.described .msb0 .little {} v = fieldBits .big .msb0 3 2 ++ fieldBits .big .msb0 5 31 ++ fieldBits .big .msb0 5 1 ++
      [false, false] ++ fieldBits .little .msb0 16 258 := by
  decide +kernel

/-- **C72** is false of the code without `idsNamed`: the id that is stored is described as big endian and written in
little endian. -/
theorem C72_stored_ids_are_not_written_as_described :
    let t : STy := .enum { endian := some (.lit .big) } (.typed 2 none none none)
      (.cons { kind := .any } (.cons {} u16 .nil) .nil)
    let v := Val.variant 0 (.ofList [.num 1])
    t.msb = true ∧ t.idsNamed = false ∧ t.sized [] = true ∧ t.described .msb0 .little {} v = bytesBits [0, 1] ∧
    (t.compile.map fun d => toBytes ((d.toTy mach).write mach {} v)) = some (.ok [1, 0]) := by
  decide +kernel

/-- `#[deku(bit_order = "lsb", endian = "little", magic = b"L")]`, then 3 bits, a flag, 12 bits, a padding of 4 bits, 4
bits and a `u16`. -/
def SourceExample.lsb : STy :=
  .struct { endian := some (.lit .little), order := some (.lit .lsb0), magic := [76] }
    (.cons { bits := some 3 } u8 (.cons { bits := some 1 } (.base .bool) (.cons { bits := some 12 } u16
      (.cons { bits := some 4, padBitsBefore := some 4 } u8 (.cons {} u16 .nil)))))

def SourceExample.lsbValue : Val := .ofList [.num 5, .num 1, .num 0xabc, .num 9, .num 0x1234]

theorem SourceExample.lsb_described :
    lsb.ordered .lsb0 .little [] = true ∧ lsb.idsNamed = true ∧ lsb.sized [] = true ∧ lsb.has lsbValue = true ∧
    lsb.even .lsb0 .little {} lsbValue = true ∧
    lsb.described .lsb0 .little {} lsbValue = orderBits .lsb0 [76, 0xcd, 0xab, 0x90, 0x34, 0x12] ∧
    (lsb.compile.map fun d => (d.check .little .lsb0 (some 0), d.good mach {} lsbValue,
      d.refusal .little {} lsbValue)) = some (some (some 0), true, none) := by
  decide +kernel

/-- It is written as described, and parsed from what was described, here with something behind. -/
example : ∃ d, lsb.compile = some d ∧
    (∀ out, toBytes ((d.toTy mach).write mach {} lsbValue) = .ok out →
      Packed .lsb0 out (lsb.described .lsb0 mach.native {} lsbValue)) ∧
    fromBytes ((d.toTy mach).read mach {}) ([76, 0xcd, 0xab, 0x90, 0x34, 0x12] ++ [77, 78]) 0 =
      .ok (([77, 78], 0), lsbValue) := by
  obtain ⟨g1, g2, g3, g4, g5, g6, g7⟩ := lsb_described
  cases hd : lsb.compile with
  | none => rw [hd] at g7; cases g7
  | some d =>
    rw [hd] at g7
    simp only [Option.map_some, Option.some.injEq, Prod.mk.injEq] at g7
    refine ⟨d, rfl, fun out => C74_written_as_described_in_either_bit_order mach lsb d .lsb0 g1 g2 g3 hd {} _ g5 out, ?_⟩
    have := C74_described_is_parsed_in_either_bit_order mach lsb d .lsb0 g1 g2 g3 hd _ g7.1 {} lsbValue g5 g4 g7.2.1
      g7.2.2 ([76, 0xcd, 0xab, 0x90, 0x34, 0x12] ++ [77, 78]) (orderBits .lsb0 [77, 78])
      (by rw [show mach.native = .little from rfl, g6]; decide +kernel)
    rw [show mach.native = .little from rfl, g6] at this
    exact this

/-- **C74** is false of the code without `even`: a `u8` (without `bits`) behind 4 bits in Lsb0. -/
theorem C74_bytes_within_bytes_are_not_written_as_described :
    let t : STy := .struct { endian := some (.lit .little), order := some (.lit .lsb0) }
      (.cons { bits := some 4 } u8 (.cons {} u8 (.cons { bits := some 4 } u8 .nil)))
    let v := Val.ofList [.num 1, .num 0x23, .num 4]
    t.ordered .lsb0 .little [] = true ∧ t.idsNamed = true ∧ t.sized [] = true ∧ t.even .lsb0 .little {} v = false ∧
    t.described .lsb0 .little {} v = orderBits .lsb0 [0x31, 0x42] ∧
    (t.compile.map fun d => toBytes ((d.toTy mach).write mach {} v)) = some (.ok [0x23, 0x14]) := by
  decide +kernel

/-- **C74** is false of the code without `ordered`: 12 bits of a `u32` in big endian and Lsb0, which are lost, and a field
in Lsb0 behind one in Msb0. -/
theorem C74_other_orders_are_not_written_as_described :
    (let t : STy := .struct { endian := some (.lit .big), order := some (.lit .lsb0) }
        (.cons { bits := some 12 } (.base (.uint 4)) .nil)
     t.ordered .lsb0 .little [] = false ∧
     t.described .lsb0 .little {} (.ofList [.num 0xabc]) ++ List.replicate 4 false = orderBits .lsb0 [0x0a, 0x0c] ∧
     (t.compile.map fun d => toBytes ((d.toTy mach).write mach {} (.ofList [.num 0xabc]))) = some (.ok [0, 0])) ∧
    (let t : STy := .struct { order := some (.lit .lsb0) } (.cons { bits := some 4, order := some (.lit .msb0) } u8
        (.cons { bits := some 4 } u8 .nil))
     t.ordered .lsb0 .little [] = false ∧ t.ordered .msb0 .little [] = false ∧
     t.described .lsb0 .little {} (.ofList [.num 1, .num 2]) = orderBits .lsb0 [0x21] ∧
     (t.compile.map fun d => toBytes ((d.toTy mach).write mach {} (.ofList [.num 1, .num 2]))) = some (.ok [0x12])) := by
  decide +kernel

end Deku
