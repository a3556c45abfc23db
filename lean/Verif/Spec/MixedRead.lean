import Verif.Spec.Mixed

/-!
# Specification vocabulary: reads in both bit orders on one reader

What is still to be read is one string: the pending bits, most significant bit first, and the bits of the
bytes behind them. A read takes bits out of the string, whatever the bits are, so the functions
here are on lists of anything.
-/

namespace Deku

namespace Mixed

variable {α : Type}

/-- The string with the bits before the first whole byte reversed, and then each byte reversed: what is to be read, least
significant bit first. -/
def turned (s : List α) : List α := (s.take (s.length % 8)).reverse ++ flip (s.drop (s.length % 8))

/-- The bits that a read of `n` bits takes. -/
def picked : Order → Nat → List α → List α
  | .msb0, n, s => s.take n
  | .lsb0, n, s => ((turned s).take n).reverse

/-- The bits that a read of `n` bytes takes, byte by byte. -/
def pickedBytes : Order → Nat → List α → List α
  | .msb0, n, s => s.take (8 * n)
  | .lsb0, n, s => flip ((turned s).take (8 * n))

/-- What is left behind a read of `n` bits. -/
def remains : Order → Nat → List α → List α
  | .msb0, n, s => s.drop n
  | .lsb0, n, s => turned ((turned s).drop n)

end Mixed

/-- The bits that a call takes out of the string. -/
def ReadOp.picks {α : Type} : ReadOp → List α → List α
  | .bits n o, s => Mixed.picked o n s
  | .bytes n o, s => Mixed.pickedBytes o n s
  | .atEnd, _ => []

/-- What a call leaves of the string. -/
def ReadOp.leaves {α : Type} : ReadOp → List α → List α
  | .bits n o, s => Mixed.remains o n s
  | .bytes n o, s => Mixed.remains o (8 * n) s
  | .atEnd, s => s

/-- The bits of an answer, of bytes the most significant bit of each first. -/
def ReadOut.content : ReadOut → List Bool
  | .bits l => l
  | .bytes bs => bytesBits bs
  | .flag _ => []

end Deku
