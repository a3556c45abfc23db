import Verif.Spec.Program

/-!
# Specification vocabulary: writes in both bit orders on one writer

What a writer has taken in is one string: the bits of the bytes in the sink, most significant bit
first, and the pending bits after them. A write changes the string by moving bits around, whatever the
bits are, so the functions here are on lists of anything.
-/

namespace Deku

namespace Mixed

variable {α : Type}

/-- The part of the string that is in whole bytes. -/
def whole (s : List α) : List α := s.take (8 * (s.length / 8))

/-- The part of the string behind the last whole byte. -/
def pending (s : List α) : List α := s.drop (8 * (s.length / 8))

/-- The first `k` groups of eight reversed, each at its place, and what is behind them reversed. -/
def flips : Nat → List α → List α
  | 0, s => s.reverse
  | k + 1, s => (s.take 8).reverse ++ flips k (s.drop 8)

/-- The string with each byte, and what is behind the last one, reversed: the same bits with the least
significant bit first. -/
def flip (s : List α) : List α := flips (s.length / 8) s

/-- The last `k` groups of eight, the last one first. -/
def backwards : Nat → List α → List α
  | 0, _ => []
  | k + 1, s => s.drop (s.length - 8) ++ backwards k (s.take (s.length - 8))

/-- The string after a write of `l` in order `o`, if the write before was in order `t`:

* Msb0 after Msb0: behind all others;
* Lsb0 after Lsb0: behind all others, least significant bits first;
* Lsb0 after Msb0: in the middle of the pending bits, so far behind that a byte ends with it;
* Msb0 after Lsb0: its bytes in front of the pending bits, the last one first, and then its first bits. -/
def lay : Order → Order → List α → List α → List α
  | .msb0, .msb0, s, l => s ++ l
  | .lsb0, .lsb0, s, l => flip (flip s ++ l.reverse)
  | .msb0, .lsb0, s, l => whole s ++ ((pending s).take (8 - l.length % 8) ++ l ++ (pending s).drop (8 - l.length % 8))
  | .lsb0, .msb0, s, l => whole s ++ (backwards (l.length / 8) l ++ l.take (l.length % 8) ++ pending s)

end Mixed

/-- The string of a writer. -/
def Writer.laid (w : Writer) : List Bool := bytesBits w.inner.written ++ w.rest

/-- How many bits a call that users can make writes, and the bit order it names. -/
def WriteOp.form : WriteOp → Option (Nat × Option Order)
  | .bits l o => some (l.length, some o)
  | .bytes bs => some (8 * bs.length, none)
  | .uint _ _ => none

end Deku
