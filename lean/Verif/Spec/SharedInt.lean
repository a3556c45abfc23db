import Verif.Spec.Shared
import Verif.Spec.Int

/-!
# Specification vocabulary: integers that share bytes
-/

namespace Deku

/-- One or more bytes of a header. -/
inductive HeadSlot
  /-- An unsigned integer of `W` bytes, with an endianness or without. -/
  | whole (W : Nat) (e : Option Endian) (v : Nat)
  /-- A byte shared by two integers with `bits`. -/
  | pair (f g : IntField)

namespace HeadSlot

/-- The fields of the slot. -/
def fields : HeadSlot → List IntField
  | .whole W none v => [⟨W, .unit, v⟩]
  | .whole W (some e) v => [⟨W, .endian e, v⟩]
  | .pair f g => [f, g]

/-- The values fit, and the two fields of a shared byte fill it and have different bit orders. -/
def Fits (native : Endian) : HeadSlot → Prop
  | .whole W _ v => 1 ≤ W ∧ v < 2 ^ (8 * W)
  | .pair f g => 1 ≤ f.W ∧ 1 ≤ g.W ∧ f.ctx.isBits = true ∧ g.ctx.isBits = true ∧ 1 ≤ f.size native ∧ 1 ≤ g.size native ∧
      f.size native + g.size native = 8 ∧ (g.ctx.shape native g.W).2.2 = (f.ctx.shape native f.W).2.2.opposite ∧
      f.v < 2 ^ f.size native ∧ g.v < 2 ^ g.size native

/-- The bits of the slot: of a shared byte the Msb0 field is the upper part. -/
def bits (native : Endian) : HeadSlot → List Bool
  | .whole W e v => fieldBits (e.getD native) .msb0 (8 * W) v
  | .pair f g =>
    TwoGroups.byte ⟨(f.ctx.shape native f.W).2.2, bitsBE (f.size native) f.v, bitsBE (g.size native) g.v⟩

end HeadSlot

end Deku
