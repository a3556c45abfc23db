import Verif.Model.Reader

/-! # Specification vocabulary: reporting source errors -/

namespace Deku

/-- Started in `r`, the computation reports every error of the source other than end-of-file: if one
of the calls it makes on the source fails with such a kind `e`, its result is `Err(Io(e))`. -/
structure Reports {α : Type} (r : Reader) (f : M Reader α) : Prop where
  /-- the schedule is not changed -/
  faults : (f r).2.inner.faults = r.inner.faults
  calls : r.inner.calls ≤ (f r).2.inner.calls
  reported : ∀ i k e, r.inner.calls ≤ i → i < (f r).2.inner.calls →
    r.inner.faults i = some (k, e) → e ≠ .unexpectedEof → (f r).1 = .err (.io e)

end Deku
