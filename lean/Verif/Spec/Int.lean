import Verif.Spec.Stream
import Verif.Spec.Output
import Verif.Model.Primitive

/-!
# Specification vocabulary: integers as bit strings

What an integer field of `n` bits looks like in the bit stream, for each endianness and bit order, in
the order in which the bits are consumed, and the value of such a bit string. Independent of how
`primitive.rs` computes it.
-/

namespace Deku

/-- The number made of successive groups of eight bits, least significant group first, each group
most significant bit first; the last group may be shorter. -/
def leGroups (l : List Bool) : Nat :=
  if l.length ≤ 8 then ofBits l else ofBits (l.take 8) + 256 * leGroups (l.drop 8)
termination_by l.length
decreasing_by simp; omega

/-- The number made of successive groups of eight bits, most significant group first, each group
least significant bit first; the last group may be shorter. -/
def beGroups (acc : Nat) (l : List Bool) : Nat :=
  if l.length = 0 then acc else beGroups (acc * 256 + ofBits (l.take 8).reverse) (l.drop 8)
termination_by l.length
decreasing_by simp; omega

/-- The value of a field whose bits are, in consumption order, `l`. -/
def fieldValue (e : Endian) (o : Order) (l : List Bool) : Nat :=
  match o, e with
  | .msb0, .big => ofBits l
  | .msb0, .little => leGroups l
  | .lsb0, .little => ofBits l.reverse
  | .lsb0, .big => beGroups 0 l

/-- `v` in groups of eight bits, least significant group first, each most significant bit first, the
last group being the remaining low order bits. -/
def leBits (n v : Nat) : List Bool :=
  if n ≤ 8 then bitsBE n v else bitsBE 8 v ++ leBits (n - 8) (v / 256)
termination_by n

/-- The bits, in consumption order, of a field of `n` bits holding `v`. -/
def fieldBits (e : Endian) (o : Order) (n v : Nat) : List Bool :=
  match o, e with
  | .msb0, .big => bitsBE n v
  | .msb0, .little => leBits n v
  | .lsb0, .little => (bitsBE n v).reverse
  | .lsb0, .big => (bytesBitsLsb (toBE ((n + 7) / 8) v)).take n

/-- Endianness, number of bits and bit order an integer is read with under a context argument: those
given, the native endianness, the size of the type and Msb0 otherwise. `u8` has no other byte size
than 1. -/
def IntCtx.shape (native : Endian) (W : Nat) : IntCtx → Endian × Nat × Order
  | .unit => (native, 8 * W, .msb0)
  | .endian e => (e, 8 * W, .msb0)
  | .bits n => (native, n, .msb0)
  | .bytes k => (native, if W = 1 then 8 else 8 * k, .msb0)
  | .order o => (native, 8 * W, o)
  | .endianOrder e o => (e, 8 * W, o)
  | .endianBits e n => (e, n, .msb0)
  | .endianBytes e k => (e, if W = 1 then 8 else 8 * k, .msb0)
  | .bitsOrder n o => (native, n, o)
  | .endianBitsOrder e n o => (e, n, o)
  | .endianBytesOrder e k o => (e, if W = 1 then 8 else 8 * k, o)

/-- The size is given in bits. -/
def IntCtx.isBits : IntCtx → Bool
  | .bits _ | .endianBits _ _ | .bitsOrder _ _ | .endianBitsOrder _ _ _ => true
  | _ => false

/-- The context does not name a bit order. -/
def IntCtx.noOrder : IntCtx → Bool
  | .order _ | .endianOrder _ _ | .bitsOrder _ _ | .endianBitsOrder _ _ _
  | .endianBytesOrder _ _ _ => false
  | _ => true

/-- The range of a signed field of `n` bits. -/
def InRange (n : Nat) (v : Int) : Prop := -(2 ^ (n - 1) : Nat) ≤ v ∧ v < (2 ^ (n - 1) : Nat)

/-- The two's complement value of `n` bits read as the number `p`. -/
def twosComplement (n p : Nat) : Int := if 2 * p < 2 ^ n then p else (p : Int) - (2 ^ n : Nat)

/-- An unsigned integer field: the size of its type in bytes, its attributes and its value. -/
structure IntField where
  W : Nat
  ctx : IntCtx
  v : Nat

/-- Writes the fields one after the other. -/
def writeFields (native : Endian) : List IntField → M Writer Unit
  | [] => pure ()
  | f :: fs => do
    Prim.writeUnsigned native f.W f.ctx f.v
    writeFields native fs

/-- Reads fields of the given types and attributes one after the other. -/
def readFields (native : Endian) : List IntField → M Reader (List Nat)
  | [] => pure []
  | f :: fs => do
    let v ← Prim.readUnsigned native f.W f.ctx
    let vs ← readFields native fs
    pure (v :: vs)

/-- The number of bits a field takes. -/
def IntField.size (native : Endian) (f : IntField) : Nat := (f.ctx.shape native f.W).2.1

/-- Endianness, number of bits and bit order of a signed integer: those of `IntCtx.shape`, but an `i8` has
byte sizes like the other types. -/
def IntCtx.sshape (native : Endian) (W : Nat) : IntCtx → Endian × Nat × Order
  | .bytes k => (native, 8 * k, .msb0)
  | .endianBytes e k => (e, 8 * k, .msb0)
  | .endianBytesOrder e k o => (e, 8 * k, o)
  | ctx => ctx.shape native W

/-- The reader extends the sign. -/
def IntCtx.extends : IntCtx → Bool
  | .bits n | .bitsOrder n _ => n % 8 != 0
  | .endianBits _ _ | .endianBitsOrder _ _ _ => true
  | _ => false

/-- The writer accepts the value of an `n`-bit field. -/
def IntCtx.Accepts (ctx : IntCtx) (W n : Nat) (v : Int) : Prop :=
  ctx.isBits = true → if ctx.noOrder then InRange n v else pattern W v < 2 ^ n

/-- An accepted value comes back. -/
def IntCtx.Returns (ctx : IntCtx) (W n : Nat) (v : Int) : Prop :=
  if ctx.extends then InRange n v else pattern W v < 2 ^ n

end Deku
