import Verif.Model.Sized
import Verif.Spec.Int
import Verif.Spec.Stream

/-!
# Specification vocabulary: integers whose size is given by a field before
-/

namespace Deku

namespace Sizing

/-- The number of bits that are asked for. -/
def bits (s : Sizing) (n : Nat) : Nat := if s.inBytes then 8 * n else n

/-- The attributes for which the two directions agree: not big endian Lsb0 in bits, of more than a byte and less than the type (C17). -/
def Agrees (s : Sizing) (native : Endian) (n : Nat) : Prop :=
  s.order = some .lsb0 → s.endian.getD native = .big → s.inBytes = true ∨ n ≤ 8 ∨ n = 8 * s.W

/-- The bits of a record: its first byte, and then the value in as many bits as asked for. -/
def image (s : Sizing) (native : Endian) (size : Nat → Nat) (k v : Nat) : List Bool :=
  orderBits (s.order.getD .msb0) [BitVec.ofNat 8 k] ++
    fieldBits (s.endian.getD native) (s.order.getD .msb0) (s.bits (size k)) v

/-- A `u8` of no endianness with a multiple of eight bits, or with a number of bytes, is a byte, whatever the number. -/
def oneByte (s : Sizing) (n : Nat) : Prop :=
  s.W = 1 ∧ (s.inBytes = true ∨ s.endian = none ∧ n % 8 = 0)

/-- The reader extends the sign of a value of `n` bits. -/
def signExtends (s : Sizing) (n : Nat) : Bool := !s.inBytes && (s.endian.isSome || decide (n % 8 ≠ 0))

/-- The number that the reader makes of the bits of a signed value of `n` bits. -/
def signedValue (s : Sizing) (native : Endian) (n : Nat) (bits : List Bool) : Int :=
  let p := fieldValue (s.endian.getD native) (s.order.getD .msb0) bits
  if s.signExtends n then twosComplement n (p % 2 ^ n) else twosComplement (8 * s.W) p

/-- What is accepted by the writer: in bits the range of a signed number, and with a bit order the patterns that fit. -/
def Accepts (s : Sizing) (n : Nat) (v : Int) : Prop :=
  s.inBytes = false → if s.order = none then InRange n v else pattern s.W v < 2 ^ n

end Sizing

end Deku
