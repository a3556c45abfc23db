import Verif.Spec.Codec

/-!
# Specification vocabulary: laws of parsers and serialisers

What is asked of a single element, and shown of everything built from elements.
-/

namespace Deku

variable {α : Type}

/-- Like `Reader.At`, except that `end` may have peeked a byte. -/
structure Reader.Live (p : Nat) (r : Reader) : Prop where
  healthy : r.Healthy
  wf : r.WF
  sync : r.Synced 0
  bound : r.inner.pos ≤ r.inner.data.length
  phase : r.bitsRead % 8 = p % 8

/-- `Reads`, also right after `end` has peeked a byte. -/
def PeekReads (o : Order) (p : Nat) (f : M Reader α) (bits : List Bool) (a : α) : Prop :=
  ∀ r rest, r.Live p → r.unread o = bits ++ rest →
    ∃ r', f r = (.ok a, r') ∧ Reader.Step o bits.length r r'

/-- A reader that was made to skip (by seeking) beyond the end of its source. -/
structure Reader.Past (r : Reader) : Prop where
  healthy : r.Healthy
  empty : r.leftover = none
  beyond : r.inner.data.length < r.inner.pos
  counted : r.bitsRead = 8 * r.inner.pos

/-- A parser that takes its result from the bits it consumes: when it succeeds, there is a prefix of
the unread bits such that it gives the same result wherever these bits are found; or it has been made
to skip beyond the end of the input. -/
structure Local (o : Order) (p : Nat) (f : M Reader α) : Prop where
  here : ∀ r a r', r.At p → f r = (.ok a, r') →
    (∃ n, n ≤ (r.unread o).length ∧ Reads o p f ((r.unread o).take n) a) ∨
    (r'.Past ∧ r'.inner.data = r.inner.data)
  past : ∀ r a r', r.Past → f r = (.ok a, r') → r'.Past ∧ r'.inner.data = r.inner.data ∧
    r.bitsRead ≤ r'.bitsRead

/-- `Local` for parsers that never skip beyond the end of the input. -/
def Strict (o : Order) (p : Nat) (f : M Reader α) : Prop :=
  ∀ r a r', r.At p → f r = (.ok a, r') →
    ∃ n, n ≤ (r.unread o).length ∧ Reads o p f ((r.unread o).take n) a

/-- `Strict`, also right after `end` has peeked a byte, and at least one bit is consumed. -/
def PeekStrict (o : Order) (p : Nat) (f : M Reader α) : Prop :=
  ∀ r a r', r.Live p → f r = (.ok a, r') →
    ∃ n, 1 ≤ n ∧ n ≤ (r.unread o).length ∧ PeekReads o p f ((r.unread o).take n) a

/-- A parser that does not panic on inputs of at most `mem` bits. -/
def Calm (mem : Nat) (p : Nat) (f : M Reader α) : Prop :=
  ∀ r, r.At p → 8 * r.inner.data.length ≤ mem → (f r).1 ≠ .panic

/-- A parser that does not panic after skipping beyond the end of the input either. -/
def CalmPast (f : M Reader α) : Prop := ∀ r : Reader, r.Past → (f r).1 ≠ .panic

/-- A serialiser (of `v`) and a parser agree: if the value is accepted at all, it is written as bits
from which the parser gets it back. -/
def Sound (o : Order) (p : Nat) (f : M Reader α) (g : M Writer Unit) (v : α) : Prop :=
  ∀ w w', w.At o p → g w = (.ok (), w') → ∃ bits, Writes o p g bits ∧ Reads o p f bits v

/-- Whatever is parsed is written back as the same bits. -/
def Canonical (o : Order) (p : Nat) (f : M Reader α) (g : α → M Writer Unit) : Prop :=
  ∀ r a r', r.At p → f r = (.ok a, r') →
    ∃ n, n ≤ (r.unread o).length ∧ Reads o p f ((r.unread o).take n) a ∧
      Writes o p (g a) ((r.unread o).take n)

/-- Every success consumes at least one bit. -/
def Consumes (o : Order) (p : Nat) (f : M Reader α) : Prop :=
  ∀ bits a, Reads o p f bits a → bits ≠ []

end Deku
