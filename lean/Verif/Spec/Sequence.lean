import Verif.Spec.Laws
import Verif.Model.Containers

/-!
# Specification vocabulary: elements one after the other
-/

namespace Deku

variable {α σ : Type}

/-- Reads `n` elements one after the other; the first failure is the result. -/
def readN (f : M Reader α) : Nat → M Reader (List α)
  | 0 => pure []
  | n + 1 => do
    let v ← f
    let vs ← readN f n
    pure (v :: vs)

/-- Elements read one after the other, with the value of the bit counter after each of them. -/
inductive Trace (f : M Reader α) : Reader → List (α × Nat) → Reader → Prop
  | nil (r : Reader) : Trace f r [] r
  | cons {r r1 r' : Reader} {a : α} {t : List (α × Nat)} (h : f r = (.ok a, r1))
      (ht : Trace f r1 t r') : Trace f r ((a, r1.bitsRead) :: t) r'

/-- On the readers of a class that it does not leave, the element never moves the bit counter back
(only seeks do). -/
def Forward (I : Reader → Prop) (f : M Reader α) : Prop :=
  ∀ r a r', I r → f r = (.ok a, r') → I r' ∧ r.bitsRead ≤ r'.bitsRead

/-- On the readers of a class that it does not leave, the element always moves the bit counter
forward. -/
def Advances (I : Reader → Prop) (f : M Reader α) : Prop :=
  ∀ r a r', I r → f r = (.ok a, r') → I r' ∧ r.bitsRead < r'.bitsRead

/-- Readers in use on a source that does not fail. -/
def Reader.Usable (r : Reader) : Prop := r.Healthy ∧ r.WF

/-- A stateful predicate says yes for the last element of the list, and for no other. -/
def FirstMatch (pred : α → σ → Bool × σ) : σ → List α → Prop
  | _, [] => False
  | s, [v] => (pred v s).1 = true
  | s, v :: vs => (pred v s).1 = false ∧ FirstMatch pred (pred v s).2 vs

/-- A stateful predicate says no for all elements of the list. -/
def NoMatch (pred : α → σ → Bool × σ) : σ → List α → Prop
  | _, [] => True
  | s, v :: vs => (pred v s).1 = false ∧ NoMatch pred (pred v s).2 vs

/-- The bits of a sequence of elements, read one after the other from alignment `p` on. -/
inductive ReadsList (o : Order) (f : M Reader α) : Nat → List Bool → List α → Prop
  | nil (p : Nat) : ReadsList o f p [] []
  | cons {p : Nat} {x xs : List Bool} {a : α} {as : List α} (h : Reads o p f x a)
      (ht : ReadsList o f (p + x.length) xs as) : ReadsList o f p (x ++ xs) (a :: as)

/-- The bits of a sequence of elements, written one after the other from alignment `p` on. -/
inductive WritesList (o : Order) (g : α → M Writer Unit) : Nat → List Bool → List α → Prop
  | nil (p : Nat) : WritesList o g p [] []
  | cons {p : Nat} {x xs : List Bool} {a : α} {as : List α} (h : Writes o p (g a) x)
      (ht : WritesList o g (p + x.length) xs as) : WritesList o g p (x ++ xs) (a :: as)

end Deku
