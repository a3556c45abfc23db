import Verif.Spec.NoSeek
import Verif.Spec.Stream

/-!
# Specification vocabulary: inputs that are cut off
-/

namespace Deku

variable {α : Type}

/-- `s` is the reader `r` on an input of which only a part from the start is there. If `inside`, it is
not beyond the end of this part, and inputs have less than 2^61 bytes. -/
structure Reader.CutTo (inside : Bool) (r s : Reader) : Prop where
  same : ∃ data calls, s = { r with inner := { r.inner with data := data, calls := calls } }
  healthy : r.Healthy
  data : s.inner.data <+: r.inner.data
  within : inside = true → s.inner.pos ≤ s.inner.data.length
  small : inside = true → r.inner.data.length < 2 ^ 61

/-- On an input that is cut off, the parser reports `Incomplete` or does not notice: it has the same
result and stops at the same place. -/
def Notices (inside : Bool) (f : M Reader α) : Prop :=
  ∀ r s, r.CutTo inside s → (∃ n, (f s).1 = .err (.incomplete n)) ∨
    (f s).1 = (f r).1 ∧ ∀ a, (f r).1 = .ok a → (f r).2.CutTo inside (f s).2

/-- A field without seeks and, if `inside`, without padding of a byte or more. -/
def Attrs.Cuttable (inside : Bool) (a : Attrs) : Prop :=
  a.seek = none ∧ (inside = true → ShortPad a.padBefore ∧ ShortPad a.padAfter)

mutual

/-- A definition without seeks and `read_all` which does not have both a padding of a byte or more and
a `Vec<u8>` with a count. -/
def Ty.Cuttable (inside : Bool) : Ty → Prop
  | .prim _ c => ∀ env, Notices inside (c env).read
  | .option t => t.Cuttable inside
  | .array _ t => t.Cuttable inside
  | .pair a b => a.Cuttable inside ∧ b.Cuttable inside
  | .vec _ l t => (match l with | .end => False | _ => True) ∧ t.Cuttable inside
  | .bytes _ _ => inside = true
  | .struct _ seek _ fs => seek = none ∧ fs.Cuttable inside
  | .enum _ _ id _ vs =>
    (∀ size c, id = .typed size c → ∀ env, Notices inside (c env).read) ∧ vs.Cuttable inside

def Fields.Cuttable (inside : Bool) : Fields → Prop
  | .nil => True
  | .cons a t rest => a.Cuttable inside ∧ t.Cuttable inside ∧ rest.Cuttable inside
  | .temp a t _ rest => a.Cuttable inside ∧ t.Cuttable inside ∧ rest.Cuttable inside

def Variants.Cuttable (inside : Bool) : Variants → Prop
  | .nil => True
  | .cons _ fs rest => fs.Cuttable inside ∧ rest.Cuttable inside

end

end Deku
