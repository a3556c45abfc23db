/-!
# Bits, bytes and numbers

The vocabulary shared by the model and the specifications: a bit string is a `List Bool` with the
first (most significant) bit at the head, a byte is a `BitVec 8`, an unsigned integer is a `Nat`.
-/

namespace Deku

/-- A byte (`u8`). -/
abbrev Byte := BitVec 8

/-- The number whose binary digits are the list, most significant digit first.
This is what `BitField::load_be` computes on a `BitSlice<u8, Msb0>`. -/
def ofBits : List Bool → Nat
  | [] => 0
  | b :: l => b.toNat * 2 ^ l.length + ofBits l

/-- The `n` low order binary digits of a number, most significant first.
This is what `BitField::store_be` puts into a `BitSlice<u8, Msb0>` of length `n`. -/
def bitsBE : Nat → Nat → List Bool
  | 0, _ => []
  | n + 1, v => v.testBit n :: bitsBE n v

/-- The eight bits of a byte, most significant first. -/
def byteBits (b : Byte) : List Bool := bitsBE 8 b.toNat

/-- The byte with the given bits (only meaningful for eight of them). -/
def byteOf (l : List Bool) : Byte := BitVec.ofNat 8 (ofBits l)

/-- All bits of a byte string, most significant bit of each byte first. -/
def bytesBits : List Byte → List Bool
  | [] => []
  | b :: bs => byteBits b ++ bytesBits bs

/-- All bits of a byte string, least significant bit of each byte first. -/
def bytesBitsLsb : List Byte → List Bool
  | [] => []
  | b :: bs => (byteBits b).reverse ++ bytesBitsLsb bs

/-- Value of a big endian byte string (`from_be_bytes`). -/
def beNat : List Byte → Nat
  | [] => 0
  | b :: bs => b.toNat * 256 ^ bs.length + beNat bs

/-- Value of a little endian byte string (`from_le_bytes`). -/
def leNat : List Byte → Nat
  | [] => 0
  | b :: bs => b.toNat + 256 * leNat bs

/-- The `w` low order bytes of `v`, least significant first (`to_le_bytes`). -/
def toLE : Nat → Nat → List Byte
  | 0, _ => []
  | w + 1, v => BitVec.ofNat 8 v :: toLE w (v / 256)

/-- The `w` low order bytes of `v`, most significant first (`to_be_bytes`). -/
def toBE (w v : Nat) : List Byte := (toLE w v).reverse

/-- The first `k` groups of eight bits (`chunks_exact(8)` when `k = len / 8`). -/
def chunks8 : Nat → List Bool → List (List Bool)
  | 0, _ => []
  | k + 1, l => l.take 8 :: chunks8 k (l.drop 8)

/-- The last `k` groups of eight bits, last group first (`rchunks_exact(8)` when `k = len / 8`). -/
def rchunks8 : Nat → List Bool → List (List Bool)
  | 0, _ => []
  | k + 1, l => l.drop (l.length - 8) :: rchunks8 k (l.take (l.length - 8))

end Deku
