import Verif.Model.NoBits
import Verif.Spec.Int

/-!
# Specification vocabulary: definitions that do without feature `bits`
-/

namespace Deku

/-- None of the attributes that need feature `bits`; a padding is a number of bytes that can be given in bits. If `peek`,
no padding at all. -/
def SAttrs.bytewise (peek : Bool) (a : SAttrs) : Bool :=
  a.bits.isNone && a.bitsRead.isNone && a.padBitsBefore.isNone && a.padBitsAfter.isNone &&
  a.padBytesBefore.all (fun k => !peek && decide (k < 2 ^ 61)) &&
  a.padBytesAfter.all (fun k => !peek && decide (k < 2 ^ 61))

/-- The id has no `bits`. -/
def SId.bytewise : SId → Bool
  | .typed _ _ bits _ => bits.isNone
  | .ctx _ => true

mutual

/-- A source in which none of the attributes that need feature `bits` occur, and no padding within the elements of a
list that is read with `read_all` (`peek`). -/
def STy.bytewise (peek : Bool) : STy → Bool
  | .base _ => true
  | .option t => t.bytewise peek
  | .array _ t => t.bytewise peek
  | .pair a b => a.bytewise peek && b.bytewise peek
  | .vec _ t => t.bytewise peek
  | .struct _ fs => fs.bytewise peek
  | .enum _ id vs => id.bytewise && vs.bytewise peek

def SFields.bytewise (peek : Bool) : SFields → Bool
  | .nil => true
  | .cons a t rest => a.bytewise peek && t.bytewise (peek || a.readAll) && rest.bytewise peek

def SVariants.bytewise (peek : Bool) : SVariants → Bool
  | .nil => true
  | .cons _ fs rest => fs.bytewise peek && rest.bytewise peek

end

/-! ### Code -/

variable {α : Type}

/-- Two readers that have got equally far in the same input `d`, and stand between two bytes of it; both may have peeked
the next one. -/
structure Reader.Level (d : List Byte) (r s : Reader) : Prop where
  data : r.inner.data = d
  data' : s.inner.data = d
  pos : s.inner.pos = r.inner.pos
  bitsRead : s.bitsRead = r.bitsRead
  leftover : s.leftover = r.leftover
  healthy : r.Healthy
  healthy' : s.Healthy
  whole : ∀ l, r.leftover ≠ some (.bits l)
  sync : r.Synced 0

/-- A reader that has skipped beyond the end of the input `d`. -/
structure Reader.Beyond (d : List Byte) (r : Reader) : Prop where
  data : r.inner.data = d
  healthy : r.Healthy
  empty : r.leftover = none
  beyond : d.length < r.inner.pos
  counted : r.bitsRead = 8 * r.inner.pos

/-- From level readers, `g` gives the same as `f` and the readers stay level, or it asks for more data and `f`, should it
succeed, has skipped beyond the end of the input (this last part not if `seeks`). If `peek`, this also holds right after
`end` has peeked a byte. -/
structure RSim (seeks peek : Bool) (f g : M Reader α) : Prop where
  step : ∀ d r s, Reader.Level d r s → (peek = true ∨ r.NoPeek) →
    (∃ x r' s', f r = (x, r') ∧ g s = (x, s') ∧
      ∀ a, x = .ok a → Reader.Level d r' s' ∧ (r.NoPeek → r'.NoPeek)) ∨
    ((∃ n, (g s).1 = .err (.incomplete n)) ∧
      (seeks = false → ∀ a r', f r = (.ok a, r') → r'.Beyond d))
  beyond : seeks = false → ∀ d r a r', Reader.Beyond d r → f r = (.ok a, r') → r'.Beyond d

/-- Two writers that have written the same, whole bytes, to a vector. -/
structure Writer.Level (w s : Writer) : Prop where
  data : s.inner.data = w.inner.data
  pos : s.inner.pos = w.inner.pos
  bitsWritten : s.bitsWritten = w.bitsWritten
  healthy : w.Healthy
  healthy' : s.Healthy
  empty : w.leftover = []
  empty' : s.leftover = []

/-- From level writers, both do the same. -/
def WSim (f g : M Writer α) : Prop :=
  ∀ w s, Writer.Level w s → ∃ x w' s', f w = (x, w') ∧ g s = (x, s') ∧ ∀ a, x = .ok a → Writer.Level w' s'

/-- A padding of whole bytes, and none if `peek`. -/
def WholePad (peek : Bool) (pad : Option (Env → Int)) : Prop :=
  ∀ f, pad = some f → peek = false ∧ ∀ env, f env % 8 = 0 ∧ f env < 2 ^ 64

/-- `seek_*` only if `seeks`, paddings of whole bytes. -/
def Attrs.Bytewise (seeks peek : Bool) (a : Attrs) : Prop :=
  (seeks = false → a.seek = none) ∧ WholePad peek a.padBefore ∧ WholePad peek a.padAfter

mutual

/-- A definition that is read and written bytewise: the paddings are, and the leaves do not tell level readers and level
writers apart. `seek_*` only if `seeks`; no padding in the elements of a list that is read with `read_all`. -/
def Ty.Bytewise (seeks peek : Bool) : Ty → Prop
  | .prim _ c => (∀ env, RSim seeks peek (c env).read (c env).read) ∧ ∀ env v, WSim ((c env).write v) ((c env).write v)
  | .option t => t.Bytewise seeks peek
  | .array _ t => t.Bytewise seeks peek
  | .pair a b => a.Bytewise seeks peek ∧ b.Bytewise seeks peek
  | .vec _ l t => (match l with | .end => t.Bytewise seeks true | _ => True) ∧ t.Bytewise seeks peek
  | .bytes _ ctx => ∀ env, (ctx env).isBits = false
  | .struct _ seek _ fs => (seeks = false → seek = none) ∧ fs.Bytewise seeks peek
  | .enum _ _ id store vs =>
    (match id with
      | .ctx _ => True
      | .typed _ c =>
        (∀ env, RSim seeks peek (c env).read (c env).read) ∧ ∀ env v, WSim ((c env).write v) ((c env).write v)) ∧
    (∀ i env v, WSim (store i env v) (store i env v)) ∧ vs.Bytewise seeks peek

def Fields.Bytewise (seeks peek : Bool) : Fields → Prop
  | .nil => True
  | .cons a t rest => a.Bytewise seeks peek ∧ t.Bytewise seeks peek ∧ rest.Bytewise seeks peek
  | .temp a t _ rest => a.Bytewise seeks peek ∧ t.Bytewise seeks peek ∧ rest.Bytewise seeks peek

def Variants.Bytewise (seeks peek : Bool) : Variants → Prop
  | .nil => True
  | .cons _ fs rest => fs.Bytewise seeks peek ∧ rest.Bytewise seeks peek

end

end Deku
