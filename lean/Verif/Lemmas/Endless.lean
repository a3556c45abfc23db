import Verif.Model.Core
import Verif.Model.Toplevel

/-!
# A stream that fails for good

What `reader_vec_to_end` makes of it when an element takes one byte.
-/

namespace Deku

/-- A stream that hands out its bytes one call at a time and then fails for good, with `e`. -/
def breaksDown (data : List Byte) (e : IoKind) : Src :=
  { data := data, faults := { fails := fun i => if i < data.length then none else some (0, e) } }

/-- Between two bytes of such a stream. -/
def Reader.Stuck (data : List Byte) (e : IoKind) (r : Reader) : Prop :=
  r.leftover = none ∧ r.inner.data = data ∧ r.inner.faults = (breaksDown data e).faults ∧
    (r.inner.calls < data.length → r.inner.pos = r.inner.calls)

theorem Reader.Stuck.end {data : List Byte} {e : IoKind} (he : e ≠ .unexpectedEof) {r : Reader} (h : r.Stuck data e) :
    ∃ b r', Reader.end r = (.ok false, r') ∧ r'.leftover = some (.byte b) ∧
      ({ r' with leftover := none } : Reader).Stuck data e := by
  obtain ⟨⟨d, p, c, f⟩, l, n⟩ := r
  obtain ⟨h1, h2, h3, h4⟩ := h
  simp only at h1 h2 h3 h4
  subst h1 h2 h3
  by_cases hc : c < d.length
  · have hp := h4 hc
    subst hp
    have h5 : 1 ≤ d.length - p := by omega
    refine ⟨((d.drop p).take 1).headD 0, { inner := ⟨d, p + 1, p + 1, (breaksDown d e).faults⟩, leftover := _, bitsRead := n }, ?_, rfl, rfl, rfl, rfl, fun _ => rfl⟩
    simp [Reader.end, Reader.ioRead, Src.readExact, breaksDown, hc, h5, bind, M.bind, M.get, M.modify, pure, M.pure]
  · refine ⟨0, { inner := ⟨d, p + 0, c + 1, (breaksDown d e).faults⟩, leftover := _, bitsRead := n }, ?_, rfl, rfl, rfl, rfl, fun h => absurd h (by simp only; omega)⟩
    cases e <;> first
      | exact absurd rfl he
      | (simp [Reader.end, Reader.ioRead, Src.readExact, breaksDown, hc, bind, M.bind, M.get, M.modify, pure, M.pure])


theorem Coll.vecEndLoop_stuck {data : List Byte} {e : IoKind} (he : e ≠ .unexpectedEof) {α : Type} {read : M Reader α}
    (hr : ∀ r : Reader, ∀ b, r.leftover = some (.byte b) → ∃ v n, read r = (.ok v, { r with leftover := none, bitsRead := n })) :
    ∀ (mem : Nat) (r : Reader), r.Stuck data e → (Coll.vecEndLoop read mem r).1 = .panic := by
  intro mem
  induction mem with
  | zero =>
    intro r h
    obtain ⟨b, r', h1, h2, h3⟩ := h.end he
    obtain ⟨v, n, h4⟩ := hr r' b h2
    simp [Coll.vecEndLoop, bind, M.bind, h1, h4, M.panic]
  | succ mem ih =>
    intro r h
    obtain ⟨b, r', h1, h2, h3⟩ := h.end he
    obtain ⟨v, n, h4⟩ := hr r' b h2
    have h5 := ih { r' with leftover := none, bitsRead := n } h3
    rcases hx : Coll.vecEndLoop read mem { r' with leftover := none, bitsRead := n } with ⟨x, r2⟩
    rw [hx] at h5
    simp only at h5
    subst h5
    simp [Coll.vecEndLoop, bind, M.bind, h1, h4, hx]

end Deku
