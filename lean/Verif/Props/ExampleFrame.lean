import Verif.Props.ExampleEnum

/-! # `examples/80211.rs`, for all inputs: C90 -/

namespace Deku

open Example SourceExample Reader Prim

/-- A frame control field: numbers, and eight flags. -/
structure Frame where
  subType : Nat
  version : Nat
  frameType : Nat
  toDs : Bool
  fromDs : Bool
  moreFragments : Bool
  retry : Bool
  power : Bool
  moreData : Bool
  protectedFrame : Bool
  order : Bool

namespace Frame

/-- `FrameType` (examples/80211.rs:6-16). -/
def kind : STy :=
  .enum { params := [.order], order := some (.arg 0) } (.typed 1 none (some 2) none)
    (.cons { kind := .id 0 } .nil (.cons { kind := .id 1 } .nil (.cons { kind := .id 2 } .nil .nil)))

/-- `Flags` (examples/80211.rs:18-37). -/
def flags : STy :=
  .struct { params := [.order], order := some (.arg 0) }
    (.cons { bits := some 1 } u8 (.cons { bits := some 1 } u8 (.cons { bits := some 1 } u8 (.cons { bits := some 1 } u8
    (.cons { bits := some 1 } u8 (.cons { bits := some 1 } u8 (.cons { bits := some 1 } u8 (.cons { bits := some 1 } u8
    .nil))))))))

/-- `FrameControl` (examples/80211.rs:39-49). -/
def ty : STy :=
  .struct { order := some (.lit .lsb0) }
    (.cons { bits := some 4 } u8 (.cons { bits := some 2 } u8 (.cons {} kind (.cons {} flags .nil))))

def flag (b : Bool) : Val := .num b.toNat

def val (f : Frame) : Val :=
  .ofList [.num f.subType, .num f.version, .variant f.frameType .nil,
    .ofList [flag f.toDs, flag f.fromDs, flag f.moreFragments, flag f.retry, flag f.power, flag f.moreData,
      flag f.protectedFrame, flag f.order]]

def Ok (f : Frame) : Prop := f.subType < 16 ∧ f.version < 4 ∧ f.frameType < 3

/-- The first byte from its low bits up: sub type, version, type; the second: the flags. -/
def bytes (f : Frame) : List Byte :=
  [.ofNat 8 (f.subType + 16 * f.version + 64 * f.frameType),
    .ofNat 8 (f.toDs.toNat + 2 * f.fromDs.toNat + 4 * f.moreFragments.toNat + 8 * f.retry.toNat + 16 * f.power.toNat +
      32 * f.moreData.toNat + 64 * f.protectedFrame.toNat + 128 * f.order.toNat)]

theorem static (native : Endian) : ty.ordered .lsb0 native [] = true ∧ ty.idsNamed = true ∧ ty.sized [] = true := by
  cases native <;> decide +kernel

example : ty.compile.isSome = true ∧ (ty.compile.map Def.cuttable) = some true := by decide +kernel

theorem consistent {f : Frame} (hk : f.Ok) (m : Machine) : ty.consistent .lsb0 m [] [] {} f.val = true := by
  obtain ⟨h1, h2, h3⟩ := hk
  have hb (b : Bool) : (b.toNat : Int) < 2 := by cases b <;> decide
  have h3' : f.frameType = 0 ∨ f.frameType = 1 ∨ f.frameType = 2 := by omega
  obtain ⟨s, v, t, a, b, c, d, e, f, g, h⟩ := f
  simp only at h1 h2 h3'
  rcases h3' with rfl | rfl | rfl <;>
  simp [ty, kind, flags, flag, val, STy.consistent, SFields.consistent, SVariants.consistentAt, Val.ofList, SAttrs.consistent, u8, Base.fits, SAttrs.passes,
    SAttrs.parsed, SAttrs.written, sizeArg, Given.means, unsignedFits, padSmall, sizeOf?, Base.has, SId.passes, SVariants.picks, SVariants.heads, VKind.takes, List.findIdx?_cons, Container.scope, hb]
  all_goals
    have := hb a; have := hb b; have := hb c; have := hb d; have := hb e; have := hb f; have := hb g; have := hb h
    omega

theorem low_bits (e : Endian) {n : Nat} (hn : n ≤ 8) (v : Nat) : fieldBits e .lsb0 n v = (bitsBE n v).reverse := by
  cases e
  · rfl
  · by_cases h0 : n = 0
    · subst h0; rfl
    have h1 : (n + 7) / 8 = 1 := by omega
    have h2 : bitsBE 8 v = bitsBE (8 - n) (v / 2 ^ n) ++ bitsBE n v := by
      rw [← bitsBE_add, Nat.sub_add_cancel hn]
    have h3 : bytesBitsLsb (toLE 1 v).reverse = (bitsBE 8 v).reverse := by
      rw [← bytesBitsLsb_toLE 1 v]
      rfl
    simp only [fieldBits, h1, toBE]
    rw [h3, h2, List.reverse_append, List.take_left' (by rw [List.length_reverse, length_bitsBE])]

theorem first_byte : ∀ s < 16, ∀ v < 4, ∀ t < 4, (bitsBE 8 (s + 16 * v + 64 * t)).reverse =
    (bitsBE 4 s).reverse ++ (bitsBE 2 v).reverse ++ (bitsBE 2 t).reverse := by decide +kernel

theorem second_byte : ∀ a b c d e f g h : Bool,
    (bitsBE 8 (a.toNat + 2 * b.toNat + 4 * c.toNat + 8 * d.toNat + 16 * e.toNat + 32 * f.toNat + 64 * g.toNat +
      128 * h.toNat)).reverse = [a, b, c, d, e, f, g, h] := by decide +kernel

theorem one_bit : ∀ a : Bool, (bitsBE 1 ((a.toNat : Int) % 2).toNat).reverse = [a] := by decide +kernel

theorem described {f : Frame} (hk : f.Ok) (m : Machine) :
    bytesBitsLsb f.bytes = ty.described .lsb0 m.native {} f.val ∧ ty.aligned .lsb0 m.native {} f.val = true := by
  obtain ⟨h1, h2, h3⟩ := hk
  have h3' : f.frameType = 0 ∨ f.frameType = 1 ∨ f.frameType = 2 := by omega
  obtain ⟨s, v, t, a, b, c, d, e, f, g, h⟩ := f
  simp only at h1 h2 h3'
  have e1 := first_byte s h1 v h2
  have e2 := second_byte a b c d e f g h
  have r1 : ((s : Int) % 16).toNat = s := by omega
  have r2 : ((v : Int) % 4).toNat = v := by omega
  have l4 (e : Endian) (v) := low_bits e (n := 4) (by omega) v
  have l2 (e : Endian) (v) := low_bits e (n := 2) (by omega) v
  have l1 (e : Endian) (v) := low_bits e (n := 1) (by omega) v
  have e10 := e1 0 (by omega)
  have e11 := e1 1 (by omega)
  have e12 := e1 2 (by omega)
  clear e1
  simp only [Nat.mul_one, Nat.mul_zero, Nat.add_zero] at e10 e11 e12
  rcases h3' with rfl | rfl | rfl <;> constructor <;>
    simp [STy.described, STy.aligned, ty, kind, flags, flag, val, bytes, STy.wire, SVariants.wireAt, SFields.wire, Val.ofList, SAttrs.wire, SAttrs.written,
      SAttrs.passes, sizeArg, Given.means, SId.passes, Base.wire, flat, SAttrs.mark, zerosPiece, bytesPiece, orderBits, settled, u8, Container.scope, intPiece, sizeOf?, bitSized, orderOf, byteBits_ofNat, e10, e11, e12, e2, r1, r2, l1, l2, l4, one_bit]

end Frame

/-- Any two bytes whose high bits of the first are not both set are a frame control field. -/
theorem Frame.every : ∀ a < 192, ∀ b < 256, ∃ f : Frame, f.Ok ∧ f.bytes = [BitVec.ofNat 8 a, BitVec.ofNat 8 b] := by
  intro a ha b hb
  refine ⟨⟨a % 16, a / 16 % 4, a / 64, b.testBit 0, b.testBit 1, b.testBit 2, b.testBit 3, b.testBit 4, b.testBit 5,
    b.testBit 6, b.testBit 7⟩, ⟨by simp only; omega, by simp only; omega, by simp only; omega⟩, ?_⟩
  have h1 : a % 16 + 16 * (a / 16 % 4) + 64 * (a / 64) = a := by omega
  have h2 : ∀ b < 256, (b.testBit 0).toNat + 2 * (b.testBit 1).toNat + 4 * (b.testBit 2).toNat + 8 * (b.testBit 3).toNat +
      16 * (b.testBit 4).toNat + 32 * (b.testBit 5).toNat + 64 * (b.testBit 6).toNat + 128 * (b.testBit 7).toNat = b := by
    decide +kernel
  simp only [Frame.bytes, h1, h2 b hb]

/-- **C90.** The frame control field of `examples/80211.rs` is written as two bytes, from the low bits up, and read back,
whatever follows. -/
theorem C90_frames_are_two_bytes_from_the_low_bits_up (m : Machine) (d : Def) (hd : Frame.ty.compile = some d) (f : Frame)
    (hk : f.Ok) :
    toBytes ((d.toTy m).write m {} f.val) = .ok f.bytes ∧
    ∀ rest, fromBytes ((d.toTy m).read m {}) (f.bytes ++ rest) 0 = .ok ((rest, 0), f.val) := by
  obtain ⟨h1, h2, h3⟩ := Frame.static m.native
  exact both_ways m Frame.ty d .lsb0 h1 h2 h3 hd {} f.val (Frame.consistent hk m) (Frame.described hk m).2 _
    (Frame.described hk m).1

/-- **C90.** Any two bytes whose high bits of the first are not both set are a frame control field, with what follows. -/
theorem C90_two_bytes_are_a_frame (m : Machine) (d : Def) (hd : Frame.ty.compile = some d) (a b : Byte) (ha : a.toNat < 192)
    (rest : List Byte) : ∃ f : Frame, f.Ok ∧ f.bytes = [a, b] ∧
      fromBytes ((d.toTy m).read m {}) (a :: b :: rest) 0 = .ok ((rest, 0), f.val) := by
  obtain ⟨f, hk, hb⟩ := Frame.every a.toNat ha b.toNat b.isLt
  simp only [BitVec.ofNat_toNat, BitVec.setWidth_eq] at hb
  have h := (C90_frames_are_two_bytes_from_the_low_bits_up m d hd f hk).2 rest
  rw [hb] at h
  exact ⟨f, hk, hb, h⟩

/-- The input of the example. -/
example (m : Machine) (d : Def) (hd : Frame.ty.compile = some d) :
    fromBytes ((d.toTy m).read m {}) [0x88, 0x41] 0 =
      .ok (([], 0), .ofList [.num 8, .num 0, .variant 2 .nil,
        .ofList [.num 1, .num 0, .num 0, .num 0, .num 0, .num 0, .num 1, .num 0]]) :=
  (C90_frames_are_two_bytes_from_the_low_bits_up m d hd ⟨8, 0, 2, true, false, false, false, false, false, true, false⟩
    ⟨by decide, by decide, by decide⟩).2 []

end Deku
