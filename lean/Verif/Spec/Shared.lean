import Verif.Spec.MixedRead
import Verif.Model.Toplevel

/-!
# Specification vocabulary: two bit orders on one byte
-/

namespace Deku

/-- The other bit order. -/
def Order.opposite : Order → Order
  | .msb0 => .lsb0
  | .lsb0 => .msb0

/-- Two groups of bits, the first in order `order`, the second in the other one. -/
structure TwoGroups where
  order : Order
  fst : List Bool
  snd : List Bool

namespace TwoGroups

/-- The calls that write them. -/
def writes (g : TwoGroups) : List WriteOp := [.bits g.fst g.order, .bits g.snd g.order.opposite]

/-- The calls that read as many bits in the same orders. -/
def reads (g : TwoGroups) : List ReadOp := [.bits g.fst.length g.order, .bits g.snd.length g.order.opposite]

/-- The answers if everything comes back. -/
def answers (g : TwoGroups) : List ReadOut := [.bits g.fst, .bits g.snd]

/-- Together a byte, and both take part. -/
def FillsByte (g : TwoGroups) : Prop := g.fst ≠ [] ∧ g.snd ≠ [] ∧ g.fst.length + g.snd.length = 8

/-- The byte of the two: the Msb0 bits are the upper ones, whichever is first. -/
def byte (g : TwoGroups) : List Bool :=
  match g.order with
  | .msb0 => g.fst ++ g.snd
  | .lsb0 => g.snd ++ g.fst

/-- Writing and then reading gives back what was written. -/
def ComesBack (g : TwoGroups) : Prop :=
  ∃ out, toBytes (runWrites g.writes) = .ok out ∧ (runReads g.reads (Reader.new { data := out })).1 = .ok g.answers

end TwoGroups

end Deku
