import Verif.Spec.Format
import Verif.Model.Toplevel

/-!
# Specification vocabulary: parsers that follow the bytes

What a parser does depends on the pending bits and the bytes that come next, and on nothing else.
Unlike `Reads`, this says nothing about bits within a byte, and so it covers formats that mix bit
orders at any alignment.
-/

namespace Deku

variable {α : Type}

/-- A reader in the middle of parsing a healthy source from its start; it may have skipped whole bytes
beyond the end. -/
structure Reader.Good (r : Reader) : Prop where
  healthy : r.Healthy
  wf : r.WF
  noPeek : r.NoPeek
  sync : r.Synced 0
  inside : r.rest ≠ [] → r.inner.pos ≤ r.inner.data.length

/-- `s` looks like `r`, `d` bytes further on in its source: the same bits are pending, and the next `k`
bytes are the same. -/
structure Reader.Alike (d : Int) (k : Nat) (r s : Reader) : Prop where
  good : s.Good
  leftover : s.leftover = r.leftover
  pos : (s.inner.pos : Int) = r.inner.pos + d
  next : (s.inner.data.drop s.inner.pos).take k = (r.inner.data.drop r.inner.pos).take k
  bound : r.inner.pos ≤ r.inner.data.length → s.inner.pos ≤ s.inner.data.length

/-- Whenever the parser succeeds, it succeeds with the same value on every reader that looks the same
as far as the bytes it took, and ends up in the same place. If `fixed`, only at the same position. -/
def Follows (fixed : Bool) (f : M Reader α) : Prop :=
  ∀ r a r', r.Good → f r = (.ok a, r') →
    r'.Good ∧ r'.inner.data = r.inner.data ∧ r.inner.pos ≤ r'.inner.pos ∧ r.bitsRead ≤ r'.bitsRead ∧
    ∀ d k s, (fixed = true → d = 0) → r.Alike d (r'.inner.pos - r.inner.pos + k) s →
      ∃ s', f s = (.ok a, s') ∧ r'.Alike d k s'

/-- No seek, and `deku::bit_offset` only if positions are fixed. -/
def Attrs.Streams (fixed : Bool) (a : Attrs) : Prop :=
  a.seek = none ∧ (a.usesOffset = true → fixed = true)

mutual

/-- The definition has no seeks and no `read_all`, its leaves follow the bytes, and it uses
`deku::bit_offset` only if positions are fixed. -/
def Ty.Streams (fixed : Bool) : Ty → Prop
  | .prim _ c => ∀ env, Follows fixed (c env).read
  | .option t => t.Streams fixed
  | .array _ t => t.Streams fixed
  | .pair a b => a.Streams fixed ∧ b.Streams fixed
  | .vec _ l t => (match l with | .end => False | _ => True) ∧ t.Streams fixed
  | .bytes _ _ => True
  | .struct _ seek _ fs => seek = none ∧ fs.Streams fixed
  | .enum _ _ id _ vs =>
    (match id with | .ctx _ => True | .typed _ c => ∀ env, Follows fixed (c env).read) ∧
    vs.Streams fixed

def Fields.Streams (fixed : Bool) : Fields → Prop
  | .nil => True
  | .cons a t rest => a.Streams fixed ∧ t.Streams fixed ∧ rest.Streams fixed
  | .temp a t _ rest => a.Streams fixed ∧ t.Streams fixed ∧ rest.Streams fixed

def Variants.Streams (fixed : Bool) : Variants → Prop
  | .nil => True
  | .cons _ fs rest => fs.Streams fixed ∧ rest.Streams fixed

end

/-! ### sequences of messages -/

/-- Feed what `from_bytes` returns into the next call. -/
def chain : List (M Reader α) → List Byte → Nat → Res ((List Byte × Nat) × List α)
  | [], data, off => .ok ((data, off), [])
  | f :: fs, data, off =>
    match fromBytes f data off with
    | .ok ((rest, b), v) =>
      match chain fs rest b with
      | .ok (x, vs) => .ok (x, v :: vs)
      | .err e => .err e
      | .panic => .panic
    | .err e => .err e
    | .panic => .panic

/-- Read the messages one after the other. -/
def onePass : List (M Reader α) → M Reader (List α)
  | [] => Pure.pure []
  | f :: fs => do
    let v ← f
    let vs ← onePass fs
    Pure.pure (v :: vs)

/-- What is left to read is the input after the bits read, counted from the high end of each byte. -/
def Reader.MsbTail (r : Reader) : Prop :=
  r.unread .msb0 = (bytesBits r.inner.data).drop r.bitsRead

/-- A parser that, if it leaves off in the middle of a byte, leaves the low bits. -/
def KeepsTail (f : M Reader α) : Prop :=
  ∀ r a r', r.Good → r.MsbTail → f r = (.ok a, r') → r'.MsbTail

/-- A parser of whole bytes. -/
def WholeBytes (f : M Reader α) : Prop :=
  ∀ r a r', r.Good → r.bitsRead % 8 = 0 → f r = (.ok a, r') → r'.bitsRead % 8 = 0

end Deku
