import Verif.Model.Reader

/-!
# Specification vocabulary: a reader as a sequence of unread bits

Independent of how the reader works: what is still to be read from it, in each bit order.
-/

namespace Deku

/-- The unread input seen most significant bit first: the bits reported by `rest()`, then the bytes
the source has not delivered yet. -/
def Reader.unreadMsb (r : Reader) : List Bool :=
  r.rest ++ bytesBits (r.inner.data.drop r.inner.pos)

/-- The unread input seen least significant bit first. The pending bits of the current byte are its
high order bits, the lowest of them comes next. -/
def Reader.unreadLsb (r : Reader) : List Bool :=
  r.rest.reverse ++ bytesBitsLsb (r.inner.data.drop r.inner.pos)

/-- The unread input in the order in which reads of the given bit order consume it. -/
def Reader.unread (o : Order) (r : Reader) : List Bool :=
  match o with
  | .msb0 => r.unreadMsb
  | .lsb0 => r.unreadLsb

/-- How a group of bits consumed in the given order is presented: most significant bit first. -/
def present (o : Order) (l : List Bool) : List Bool :=
  match o with
  | .msb0 => l
  | .lsb0 => l.reverse

/-- The bits of a byte string in the order in which the given bit order consumes them. -/
def orderBits (o : Order) (bs : List Byte) : List Bool :=
  match o with
  | .msb0 => bytesBits bs
  | .lsb0 => bytesBitsLsb bs

/-- A reader that can be in use: pending bits are a proper nonempty part of a byte (or a whole
byte peeked by `end`). Every reader reachable from `Reader::new` by reads satisfies this. -/
def Reader.WF (r : Reader) : Prop :=
  ∀ l, r.leftover = some (.bits l) → 1 ≤ l.length ∧ l.length ≤ 7

/-- The source does not fail. -/
def Reader.Healthy (r : Reader) : Prop := r.inner.faults = noFaults

/-- No byte is peeked by `end`. -/
def Reader.NoPeek (r : Reader) : Prop := ∀ b, r.leftover ≠ some (.byte b)

/-- Position bookkeeping: the bits delivered by the source since position `p0` are those read plus
those pending. -/
def Reader.Synced (p0 : Nat) (r : Reader) : Prop :=
  8 * r.inner.pos = 8 * p0 + r.bitsRead + r.rest.length

/-- Everything a successful read of `n` bits in order `o` guarantees. -/
structure Reader.Step (o : Order) (n : Nat) (r r' : Reader) : Prop where
  unread : r'.unread o = (r.unread o).drop n
  bitsRead : r'.bitsRead = r.bitsRead + n
  data : r'.inner.data = r.inner.data
  healthy : r'.Healthy
  wf : r'.WF
  noPeek : r.NoPeek ∨ 0 < n → r'.NoPeek
  sync : 8 * r'.inner.pos + r.bitsRead + r.rest.length = 8 * r.inner.pos + r'.bitsRead + r'.rest.length
  bound : r.inner.pos ≤ r.inner.data.length → r'.inner.pos ≤ r.inner.data.length

end Deku
