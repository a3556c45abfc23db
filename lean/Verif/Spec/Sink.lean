import Verif.Model.Writer

/-! # Specification vocabulary: computations and the sink they write to -/

namespace Deku

/-- Started in `w`, the computation reports every error of the sink: if one of the write calls it
makes fails with kind `e`, its result is `Err(Io(e))`. -/
structure ReportsW {α : Type} (w : Writer) (f : M Writer α) : Prop where
  faults : (f w).2.inner.faults = w.inner.faults
  calls : w.inner.calls ≤ (f w).2.inner.calls
  reported : ∀ i k e, w.inner.calls ≤ i → i < (f w).2.inner.calls →
    w.inner.faults i = some (k, e) → (f w).1 = .err (.io e)

/-- Writer `w` on a growing vector and writer `v` on the slice `buf` have produced the same. -/
structure SliceSim (buf : List Byte) (w v : Writer) : Prop where
  leftover : v.leftover = w.leftover
  tag : v.tag = w.tag
  bitsWritten : v.bitsWritten = w.bitsWritten
  faults : w.inner.faults = noFaults
  faults' : v.inner.faults = noFaults
  cap : w.inner.cap = none
  cap' : v.inner.cap = some buf.length
  pos : w.inner.pos = w.inner.data.length
  fits : w.inner.data.length ≤ buf.length
  pos' : v.inner.pos = w.inner.data.length
  data' : v.inner.data = w.inner.data ++ buf.drop w.inner.data.length

/-- The computation does not look at what it writes to: on a slice it does the same as on a vector
as long as the slice is long enough, and fails with `Io(WriteZero)` otherwise. -/
def Agnostic {α : Type} (f : M Writer α) : Prop :=
  ∀ buf w v, SliceSim buf w v →
    w.inner.data.length ≤ (f w).2.inner.data.length ∧ (f v).2.inner.data.length = buf.length ∧
    (((f w).2.inner.data.length ≤ buf.length ∧ (f v).1 = (f w).1 ∧
        SliceSim buf (f w).2 (f v).2) ∨
      (buf.length < (f w).2.inner.data.length ∧ (f v).1 = .err (.io .writeZero)))

/-- The counter `bits_written` follows the sink. -/
def Counted {α : Type} (f : M Writer α) : Prop :=
  ∀ w a w', f w = (.ok a, w') →
    w'.bitsWritten + 8 * w.inner.pos = w.bitsWritten + 8 * w'.inner.pos

end Deku
