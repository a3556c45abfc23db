import Verif.Model.Writer
import Verif.Spec.Stream

/-!
# Specification vocabulary: a writer as a sequence of produced bits
-/

namespace Deku

/-- A sink that can be in use: its position lies within its contents and a slice keeps its length. -/
def Sink.WF (s : Sink) : Prop := s.pos ≤ s.data.length ∧ ∀ c, s.cap = some c → s.data.length = c

/-- The bytes in front of the sink's position. -/
def Sink.written (s : Sink) : List Byte := s.data.take s.pos

/-- Everything produced so far, in the order in which reads of the given bit order would consume it:
the bytes in front of the sink's position and then the pending bits reported by `rest()`. -/
def Writer.produced (o : Order) (w : Writer) : List Bool :=
  orderBits o w.inner.written ++ present o w.rest

/-- A writer that can be in use. -/
def Writer.WF (w : Writer) : Prop := w.inner.WF ∧ w.leftover.length < 8

/-- The writer is in the middle of bit order `o`, or between bytes. -/
def Writer.Mode (o : Order) (w : Writer) : Prop := w.leftover = [] ∨ w.tag = o

/-- The writer can go on in bit order `o`: it is in that order, or (for Lsb0) between bytes. A writer
that has only been used for Msb0 and byte writes is `Ready .msb0`. -/
def Writer.Ready (o : Order) (w : Writer) : Prop :=
  match o with
  | .msb0 => w.tag = .msb0
  | .lsb0 => w.tag = .lsb0 ∨ w.leftover = []

/-- The sink never fails and can grow. -/
def Writer.Healthy (w : Writer) : Prop := w.inner.faults = noFaults ∧ w.inner.cap = none

/-- `i` is one of the calls made on the sink between the two states. -/
def Writer.Called (w w' : Writer) (i : Nat) : Prop := w.inner.calls ≤ i ∧ i < w'.inner.calls

/-- The writer has produced exactly `bits` (listed in consumption order of `o`). -/
structure Writer.Wrote (o : Order) (bits : List Bool) (w w' : Writer) : Prop where
  produced : w'.produced o = w.produced o ++ bits
  len : 8 * w'.inner.pos + w'.leftover.length = 8 * w.inner.pos + w.leftover.length + bits.length
  wf : w'.WF
  counted : w'.bitsWritten + 8 * w.inner.pos = w.bitsWritten + 8 * w'.inner.pos
  tail : w'.inner.data.drop w'.inner.pos = w.inner.data.drop w'.inner.pos
  cap : w'.inner.cap = w.inner.cap
  faults : w'.inner.faults = w.inner.faults
  calls : w.inner.calls ≤ w'.inner.calls
  quiet : ∀ i, w.Called w' i → w.inner.faults i = none

end Deku
