import Verif.Model.Emit

/-!
# Which attributes of a field are without effect

`Idle`: whatever is written in the place of the attribute, and even if it is left out, the same code comes out. The
tables say when that is so, in terms of the attributes alone.
-/

namespace Deku.Emit

/-- The attribute has no influence on the code: every field with the same other attributes that the macro accepts has
the same code. -/
def Idle {α : Type} (code : Written → α) (a : Attr) (f : Written) : Prop :=
  ∀ g : Written, g.accepted = true → (∀ b, b ≠ a → g b = f b) → code g = code f

variable (s : Site) (f : Written)

/-- `a` is written on the field. -/
def Has (a : Attr) : Prop := (f a).isSome = true

instance (a : Attr) : Decidable (Has f a) := inferInstanceAs (Decidable (_ = true))

/-- The field is never read: `skip` or `skip(read)` without a condition. -/
def NeverRead : Prop := (f .skip = some .all ∨ f .skip = some .read) ∧ ¬ Has f .cond

/-- The field is never written: `skip` or `skip(write)` without a condition. -/
def NeverWritten : Prop := (f .skip = some .all ∨ f .skip = some .write) ∧ ¬ Has f .cond

/-- The type of the field is not asked to read it. -/
def NotReadByType : Prop := NeverRead f ∨ Has f .reader

/-- The type of the field is not asked to write it. -/
def NotWrittenByType : Prop :=
  NeverWritten f ∨ Has f .writer ∨ (Has f .temp ∧ ¬ Has f .tempValue)

/-- The type of the field gets no arguments when it is read. -/
def NoReadArgs : Prop := NotReadByType f ∨ (s.vecU8 = true ∧ Has f .count)

/-- There are bits or bytes of padding. -/
def Padded : Prop := Has f .padBitsBefore ∨ Has f .padBytesBefore ∨ Has f .padBitsAfter ∨ Has f .padBytesAfter

/-- The attributes that are without effect on reading. -/
def UnusedReading : Attr → Prop
  | .endian | .bits | .bytes | .ctx => NoReadArgs s f
  | .bitOrder => NoReadArgs s f ∧ ¬ Padded f
  | .count | .bytesRead | .readAll => NotReadByType f
  | .until => NotReadByType f ∨ Has f .count ∨ Has f .bytesRead
  | .bitsRead => NotReadByType f ∨ Has f .until
  | .map | .reader => NeverRead f
  | .default | .cond => f .skip = some .write
  | .writer | .update | .tempValue => True
  | _ => False

/-- The attributes that are without effect on writing. -/
def UnusedWriting : Attr → Prop
  | .endian | .bits | .bytes | .ctx => NotWrittenByType f
  | .bitOrder => NotWrittenByType f ∧ ¬ Padded f
  | .writer => NeverWritten f
  | .cond => f .skip = none ∨ f .skip = some .read
  | .tempValue => NeverWritten f ∨ ¬ Has f .temp
  | .temp => NeverWritten f ∨ (Has f .writer ∧ ¬ Has f .tempValue)
  | .count | .bitsRead | .bytesRead | .until | .readAll | .map | .reader | .default | .update => True
  | _ => False

/-- The attributes that are without effect on `update`. -/
def UnusedUpdating : Attr → Prop
  | .update => Has f .temp
  | .temp => ¬ Has f .update
  | _ => True

/-- The attributes that are without any effect. -/
def Unused : Attr → Prop
  | .endian | .bits | .bytes | .ctx => NoReadArgs s f ∧ NotWrittenByType f
  | .bitOrder => NoReadArgs s f ∧ NotWrittenByType f ∧ ¬ Padded f
  | .count | .bytesRead | .readAll => NotReadByType f
  | .until => NotReadByType f ∨ Has f .count ∨ Has f .bytesRead
  | .bitsRead => NotReadByType f ∨ Has f .until
  | .map | .reader => NeverRead f
  | .writer => NeverWritten f
  | .default => f .skip = some .write
  | .update => Has f .temp
  | .tempValue => NeverWritten f ∨ ¬ Has f .temp
  | _ => False

/-- The seek attributes that a seek attribute of a type is hidden by. -/
def hiders : Attr → List Attr
  | .seekEnd => [.seekCurrent]
  | .seekStart => [.seekCurrent, .seekEnd]
  | .seekRewind => [.seekCurrent, .seekEnd, .seekStart]
  | _ => []

end Deku.Emit
