import Verif.Spec.Chain
import Verif.Spec.Output
import Verif.Model.Derive

/-!
# Specification vocabulary: how many bits are taken

Sizes are counted where the bits are: on reading as the progress in the source, on writing as the growth
of what the writer has taken in. Which sizes the messages of a definition can have is a set, since an
enum has one size for each variant.
-/

namespace Deku

variable {α : Type}

/-- The bits the writer has taken in: the bytes in front of the sink's position and the pending bits. -/
def Writer.total (w : Writer) : Nat := 8 * w.inner.pos + w.leftover.length

/-- The bits the reader has used up: the bytes taken from the source without the pending bits. -/
def Reader.used (r : Reader) : Nat := 8 * r.inner.pos - r.rest.length

/-- A writer at the end of a sink that never fails. -/
structure Writer.Appending (w : Writer) : Prop where
  wf : w.WF
  healthy : w.Healthy
  atEnd : w.inner.pos = w.inner.data.length

/-- Every successful run uses up a number of bits that is in the set, which may depend on the result. -/
def Uses (S : α → Nat → Prop) (f : M Reader α) : Prop :=
  ∀ r a r', r.Good → f r = (.ok a, r') → r'.Good ∧ ∃ n, S a n ∧ r'.used = r.used + n

/-- Every successful run takes in a number of bits that is in the set. -/
def Puts (S : Nat → Prop) (g : M Writer Unit) : Prop :=
  ∀ w u w', w.Appending → g w = (.ok u, w') → w'.Appending ∧ ∃ n, S n ∧ w'.total = w.total + n

/-- Both directions always take `k` bits. -/
def Codec.Measures (k : Nat) (c : Codec) : Prop :=
  Uses (fun _ => (· = k)) c.read ∧ ∀ v, Puts (· = k) (c.write v)

/-- Sums of one number of each set. -/
def plus (S T : Nat → Prop) (n : Nat) : Prop := ∃ i j, S i ∧ T j ∧ n = i + j

/-- Sums of `k` numbers of the set. -/
def times (S : Nat → Prop) : Nat → Nat → Prop
  | 0 => (· = 0)
  | k + 1 => plus S (times S k)

/-- The size of a padding that does not depend on the message. -/
def PadSize (pad : Option (Env → Int)) (n : Nat) : Prop :=
  match pad with
  | none => n = 0
  | some f => ∀ env, f env = n

/-! ### the possible sizes -/

/-- What surrounds the value of a field. -/
def Attrs.Sizes (a : Attrs) (S : Nat → Prop) : Nat → Prop :=
  plus (· = 8 * a.magic.length) (plus (PadSize a.padBefore) (plus S (PadSize a.padAfter)))

/-- An id from the context takes no space. -/
def IdSrc.Sizes : IdSrc → Nat → Prop
  | .ctx _ => (· = 0)
  | .typed size _ => fun d => size = some d

/-- The id is part of the message. -/
def IdSrc.inMessage : IdSrc → Bool
  | .ctx _ => false
  | .typed _ _ => true

mutual

/-- The sizes of the messages of a definition that has neither optional parts nor lists of variable
length. -/
def Ty.Sizes : Ty → Nat → Prop
  | .prim size _ => fun n => size = some n
  | .option _ => fun _ => False
  | .array k t => times t.Sizes k
  | .pair a b => plus a.Sizes b.Sizes
  | .vec _ _ _ => fun _ => False
  | .bytes _ _ => fun _ => False
  | .struct _ _ magic fs => plus (· = 8 * magic.length) fs.Sizes
  | .enum _ magic id _ vs => fun n =>
    ∃ i, plus (· = 8 * magic.length) (plus id.Sizes (vs.SizesAt id.inMessage i)) n

def Fields.Sizes : Fields → Nat → Prop
  | .nil => (· = 0)
  | .cons a t rest => plus (a.Sizes t.Sizes) rest.Sizes
  | .temp a t _ rest => plus (a.Sizes t.Sizes) rest.Sizes

/-- The sizes of variant number `i`; a field that stores the id takes no space of its own. -/
def Variants.SizesAt (typed : Bool) : Variants → Nat → Nat → Prop
  | .nil, _ => fun _ => False
  | .cons a fs _, 0 => if a.idPat && typed then fs.RestSizes else fs.Sizes
  | .cons _ _ rest, i + 1 => rest.SizesAt typed i

def Fields.RestSizes : Fields → Nat → Prop
  | .nil => (· = 0)
  | .cons _ _ rest => rest.Sizes
  | .temp _ _ _ rest => rest.Sizes

end

/-! ### definitions of fixed size -/

/-- The attributes are the same for every message: no seek, no `skip`, no `cond`, constant paddings. A
size given by `bits` or `bytes` is the size of the type. -/
def Attrs.Regular (a : Attrs) (t : Ty) : Prop :=
  a.seek = none ∧ a.skip = none ∧ a.cond = none ∧ (∃ n, PadSize a.padBefore n) ∧
    (∃ n, PadSize a.padAfter n) ∧ (a.sizeAttr = none ∨ a.sizeAttr = t.size)

mutual

/-- A definition whose leaves have the sizes they declare, in which every field is always there and is
represented in the value. -/
def Ty.Regular : Ty → Prop
  | .prim size c => ∃ k, size = some k ∧ ∀ env, (c env).Measures k
  | .option _ => False
  | .array _ t => t.Regular
  | .pair a b => a.Regular ∧ b.Regular
  | .vec _ _ _ => False
  | .bytes _ _ => False
  | .struct _ sk _ fs => sk = none ∧ fs.Regular
  | .enum _ _ id store vs =>
    (match id with
      | .ctx _ => True
      | .typed size c =>
        ∃ d, size = some d ∧ (∀ env, (c env).Measures d) ∧ ∀ i env v, Puts (· = d) (store i env v)) ∧
    vs.Regular id.inMessage

def Fields.Regular : Fields → Prop
  | .nil => True
  | .cons a t rest => a.Regular t ∧ t.Regular ∧ rest.Regular
  | .temp _ _ _ _ => False

/-- A variant has an id to write, or its first field is the id. -/
def Variants.Regular (typed : Bool) : Variants → Prop
  | .nil => True
  | .cons a fs rest =>
    (if a.idPat then typed = true ∧ a.id = none ∧ fs.RestRegular
      else (typed = true → a.id ≠ none) ∧ fs.Regular) ∧ rest.Regular typed

def Fields.RestRegular : Fields → Prop
  | .nil => False
  | .cons _ _ rest => rest.Regular
  | .temp _ _ _ _ => False

end

mutual

/-- No enum anywhere. -/
def Ty.EnumFree : Ty → Prop
  | .prim _ _ => True
  | .option t => t.EnumFree
  | .array _ t => t.EnumFree
  | .pair a b => a.EnumFree ∧ b.EnumFree
  | .vec _ _ t => t.EnumFree
  | .bytes _ _ => True
  | .struct _ _ _ fs => fs.EnumFree
  | .enum _ _ _ _ _ => False

def Fields.EnumFree : Fields → Prop
  | .nil => True
  | .cons _ t rest => t.EnumFree ∧ rest.EnumFree
  | .temp _ t _ rest => t.EnumFree ∧ rest.EnumFree

end

/-- No enum in the fields of the variants. -/
def Variants.EnumFree : Variants → Prop
  | .nil => True
  | .cons _ fs rest => fs.EnumFree ∧ rest.EnumFree

mutual

/-- Every enum has a variant. -/
def Ty.Inhabited : Ty → Prop
  | .prim _ _ => True
  | .option t => t.Inhabited
  | .array _ t => t.Inhabited
  | .pair a b => a.Inhabited ∧ b.Inhabited
  | .vec _ _ t => t.Inhabited
  | .bytes _ _ => True
  | .struct _ _ _ fs => fs.Inhabited
  | .enum _ _ _ _ vs => vs ≠ .nil ∧ vs.Inhabited

def Fields.Inhabited : Fields → Prop
  | .nil => True
  | .cons _ t rest => t.Inhabited ∧ rest.Inhabited
  | .temp _ t _ rest => t.Inhabited ∧ rest.Inhabited

def Variants.Inhabited : Variants → Prop
  | .nil => True
  | .cons _ fs rest => fs.Inhabited ∧ rest.Inhabited

end

end Deku
