import Verif.Spec.Stream
import Verif.Spec.Output

/-!
# Specification vocabulary: reading and writing one thing in the middle of a bit stream

`p` is the number of bits of the current byte that are already used up (modulo 8): the alignment.
-/

namespace Deku

/-- A reader in the middle of parsing a healthy source from its start, `p` bits into a byte. -/
structure Reader.At (p : Nat) (r : Reader) : Prop where
  healthy : r.Healthy
  wf : r.WF
  noPeek : r.NoPeek
  sync : r.Synced 0
  bound : r.inner.pos ≤ r.inner.data.length
  phase : r.bitsRead % 8 = p % 8

/-- A writer on a healthy sink, using bit order `o`, `p` bits into a byte. -/
structure Writer.At (o : Order) (p : Nat) (w : Writer) : Prop where
  wf : w.WF
  healthy : w.Healthy
  ready : w.Ready o
  phase : w.leftover.length = p % 8

/-- Wherever a reader at alignment `p` finds `bits`, the computation consumes exactly these and
returns `a`. -/
def Reads {α : Type} (o : Order) (p : Nat) (f : M Reader α) (bits : List Bool) (a : α) : Prop :=
  ∀ r rest, r.At p → r.unread o = bits ++ rest →
    ∃ r', f r = (.ok a, r') ∧ Reader.Step o bits.length r r'

/-- At alignment `p`, the computation writes exactly `bits`. -/
def Writes (o : Order) (p : Nat) (g : M Writer Unit) (bits : List Bool) : Prop :=
  ∀ w, w.At o p → ∃ w', g w = (.ok (), w') ∧ Writer.Wrote o bits w w' ∧ w'.Ready o

/-- The computation fails with `e` and touches nothing. -/
def Refuses {σ α : Type} (f : M σ α) (e : DekuError) : Prop := ∀ s, f s = (.err e, s)

end Deku
