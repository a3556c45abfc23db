import Verif.Spec.Format
import Verif.Spec.Position
import Verif.Spec.Core
import Verif.Model.Seek
import Verif.Model.Toplevel

/-!
# Specification vocabulary: a format that jumps

The fields of a struct each at their own place, as with `#[deku(seek_from_start = "...")]`,
`seek_from_current` and `seek_rewind`. A layout is stated by what each field looks like when it is
written alone, and where it lies.
-/

namespace Deku

/-- The same field without its seek. -/
def Attrs.still (a : Attrs) : Attrs := { a with seek := none }

/-- Where the field begins if the one before it ended at `pos`: there, or where its seek leads.
Nothing is said about seeks from the end. -/
def Attrs.landing (a : Attrs) (env : Env) (pos : Nat) : Option Nat :=
  match a.seek with
  | none => some pos
  | some f =>
    match f env with
    | some (.start n) => some n
    | some (.current k) => if (pos : Int) + k < 0 then none else some ((pos : Int) + k).toNat
    | _ => none

/-- Byte boundaries. -/
def Whole (p : Nat) : Prop := p % 8 = 0

/-- The pieces of the fields: where each field begins, and its bytes when it is written alone. Each
field is one of those that are read back from a byte boundary and take up whole bytes, and a field
that is jumped to takes up at least one byte. -/
def Fields.Lays (m : Machine) (o : Order) : Fields → Env → Val → Nat → List (Nat × List Byte) → Prop
  | .nil, _, v, _, L => v = .nil ∧ L = []
  | .cons a t rest, env, v, pos, L =>
    ∃ x xs p bs L', v = .cons x xs ∧ L = (p, bs) :: L' ∧ a.landing env pos = some p ∧
      toBytes (a.still.write m.native (t.write m) env x) = .ok bs ∧
      a.still.Fits o (t.Fits m o) (t.write m) Whole Whole env x ∧
      t.Plain ∧ (a.seek.isSome = true → bs ≠ []) ∧
      rest.Lays m o (env.push x) xs (p + bs.length) L'
  | .temp _ _ _ _, _, _, _, _ => False

/-- The byte at `i` belongs to the piece. -/
def Covers (c : Nat × List Byte) (i : Nat) : Prop := c.1 ≤ i ∧ i < c.1 + c.2.length

/-- No byte belongs to two pieces. -/
def Apart (L : List (Nat × List Byte)) : Prop := L.Pairwise fun c d => ∀ i, Covers c i → ¬ Covers d i

/-- Where the last piece ends, if the ones before end at `pos`. -/
def lastEnd : Nat → List (Nat × List Byte) → Nat
  | pos, [] => pos
  | _, (p, bs) :: L => lastEnd (p + bs.length) L

/-- Where the piece that reaches farthest ends. -/
def farthest : List (Nat × List Byte) → Nat
  | [] => 0
  | (p, bs) :: L => max (p + bs.length) (farthest L)

/-- The layout of a value, found by computation: each field is one that is read and written in one
layout from a byte boundary to a byte boundary, and the value of the field is consistent. -/
def layout (m : Machine) (o : Order) : List JField → Env → Val → Nat → Option (List (Nat × List Byte))
  | [], _, v, _ => if v = .nil then some [] else none
  | f :: l, env, v, pos =>
    match v with
    | .cons x xs =>
      if f.ty.valid m.native && f.attrs.good f.ty.isOption (fun env x => f.ty.good m env x) env x &&
          decide (f.attrs.check o (fun a => f.ty.check m.native o a) (some 0) = some (some 0)) then
        match f.toAttrs.landing env pos, toBytes (f.attrs.toAttrs.write m.native ((f.ty.toTy m).write m) env x) with
        | some p, .ok bs =>
          if f.seek.isSome && bs.isEmpty then none
          else (layout m o l (env.push x) xs (p + bs.length)).map fun L => (p, bs) :: L
        | _, _ => none
      else none
    | _ => none

end Deku
