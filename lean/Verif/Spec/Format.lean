import Verif.Spec.Sequence
import Verif.Spec.Int
import Verif.Model.Derive

/-!
# Specification vocabulary: when a value fits a format

`Ty.Fits t P Q env v` says, for a definition `t`, that the value `v` is one the definition describes
consistently: lists are as long as their count says, the id of a variant selects that variant, skipped
fields have their default value, `map` undoes the conversion before writing, and every leaf (a type
with its own implementation of the traits) reads back what it writes. `P` and `Q` are the alignments
(bits into the current byte) before and after.
-/

namespace Deku

variable {α : Type}

/-- If the value is accepted at one of the alignments of `P`, it is written as bits from which the
parser gets it back, and the alignment afterwards is in `Q`. -/
def SoundOn (o : Order) (P : Nat → Prop) (f : M Reader α) (g : M Writer Unit) (v : α)
    (Q : Nat → Prop) : Prop :=
  ∀ p w w', P p → w.At o p → g w = (.ok (), w') →
    ∃ bits, Writes o p g bits ∧ Reads o p f bits v ∧ Q (p + bits.length)

/-- The alignments of `P`, `n` bits later. -/
def shift (P : Nat → Prop) (n : Nat) : Nat → Prop := fun q => ∃ p, P p ∧ q = p + n

/-- Whole bytes read and written there in Msb0 order look the same in order `o`. -/
def ByteSafe (o : Order) (P : Nat → Prop) : Prop := o = .msb0 ∨ ∀ p, P p → p % 8 = 0

/-- The size of a padding. -/
def padBits (pad : Option (Env → Int)) (env : Env) : Nat :=
  match pad with
  | none => 0
  | some f => (f env).toNat

/-- A padding in the bit order of the stream. -/
def PadSafe (o : Order) (order : Option Order) (pad : Option (Env → Int)) : Prop :=
  pad = none ∨ order.getD .msb0 = o

/-- The field itself, without magic and padding: it is read and written, or it is not read, has the
default value, and nothing is written. `T` says that a value fits the type, `wr` writes it. -/
def Attrs.ValueFits (o : Order) (T : (Nat → Prop) → (Nat → Prop) → Env → Val → Prop)
    (wr : Env → Val → M Writer Unit) (a : Attrs) (P Q : Nat → Prop) (env : Env) (x : Val) : Prop :=
  (a.isRead env = true ∧ a.isWritten env = true ∧ a.map env (a.unmap env x) = .ok x ∧
    T P Q env (a.unmap env x)) ∨
  (a.isRead env = false ∧ a.default env = x ∧ (∀ p, P p → Q p) ∧
    (a.isWritten env = true → ∀ p, P p → Writes o p (wr env (a.unmap env x)) []))

/-- A field with its attributes. -/
def Attrs.Fits (o : Order) (T : (Nat → Prop) → (Nat → Prop) → Env → Val → Prop)
    (wr : Env → Val → M Writer Unit) (a : Attrs) (P Q : Nat → Prop) (env : Env) (x : Val) : Prop :=
  a.seek = none ∧ a.usesOffset = false ∧ (a.magic = [] ∨ ByteSafe o P) ∧
  PadSafe o a.padOrder a.padBefore ∧ PadSafe o a.padOrder a.padAfter ∧
  ∃ R, a.ValueFits o T wr (shift P (8 * a.magic.length + padBits a.padBefore env)) R (env.at 0) x ∧
    ∀ q, shift R (padBits a.padAfter ((env.at 0).push x)) q → Q q

/-- The list is what the limit asks for. `len p n` says that the list takes `n` bits when it is written
at alignment `p`. -/
def LimitE.Fits (P : Nat → Prop) (len : Nat → Nat → Prop) (env : Env) (vs : List Val) :
    LimitE → Prop
  | .count n => n env = vs.length ∧ n env < 2 ^ 64
  | .until p => FirstMatch (fun v seen => (p env (v :: seen), v :: seen)) [] vs
  | .bits n => ∃ k : Nat, n env = k ∧ k < 2 ^ 64 ∧ ∀ p l, P p → len p l → l = k
  | .bytes n => ∃ k : Nat, n env = k ∧ 8 * k < 2 ^ 64 ∧ ∀ p l, P p → len p l → l = 8 * k
  | .end => False

/-- The limit is a number of bits or bytes. -/
def LimitE.isSize : LimitE → Bool
  | .bits _ => true
  | .bytes _ => true
  | _ => false

mutual

/-- The value fits the type. -/
def Ty.Fits (m : Machine) (o : Order) : Ty → (Nat → Prop) → (Nat → Prop) → Env → Val → Prop
  | .prim _ c, P, Q, env, v => SoundOn o P (c env).read ((c env).write v) v Q
  | .option t, P, Q, env, v => ∃ x, v = .some x ∧ t.Fits m o P Q env x
  | .array _ t, P, Q, env, v =>
    ∃ R, (∀ p, P p → R p) ∧ (∀ x ∈ v.elems, t.Fits m o R R env x) ∧ ∀ p, R p → Q p
  | .pair a b, P, Q, env, v =>
    ∃ x y R, v = .cons x (.cons y .nil) ∧ a.Fits m o P R env x ∧ b.Fits m o R Q env y
  | .vec size l t, P, Q, env, v =>
    ∃ R, (∀ p, P p → R p) ∧ (∀ x ∈ v.elems, t.Fits m o R R env x) ∧ (∀ p, R p → Q p) ∧ size ≠ 0 ∧
    v.elems.length ≤ m.mem ∧
    l.Fits R (fun p n => ∃ bits, Writes o p (Coll.writeAll (t.write m env) v.elems) bits ∧
      bits.length = n) env v.elems ∧
    (l.isSize = true → ∀ x ∈ v.elems, ∀ p bits, R p → Writes o p (t.write m env x) bits → bits ≠ [])
  | .bytes n ctx, P, Q, env, v =>
    n env = v.elems.length ∧ n env < 2 ^ 61 ∧ (∀ p, P p → p % 8 = 0) ∧
    (∀ p, P p → Q (p + 8 * v.elems.length)) ∧ (ctx env).isBits = false
  | .struct args seek magic fs, P, Q, env, v =>
    seek = none ∧ (magic = [] ∨ ByteSafe o P) ∧
    fs.Fits m o (shift P (8 * magic.length)) Q { ctx := args env } v v
  | .enum args magic id store vs, P, Q, env, v =>
    (magic = [] ∨ ByteSafe o P) ∧
    ∃ i fs, v = .variant i fs ∧
      vs.FitsAt m o (fun x => vs.select { ctx := args env } x = some i) id (store i) i
        (shift P (8 * magic.length)) Q { ctx := args env } fs

/-- The fields fit; `all` is the whole value (which `temp_value` refers to), the last argument the
fields from here on. -/
def Fields.Fits (m : Machine) (o : Order) :
    Fields → (Nat → Prop) → (Nat → Prop) → Env → Val → Val → Prop
  | .nil, P, Q, _, _, _ => ∀ p, P p → Q p
  | .cons a t rest, P, Q, env, all, v =>
    ∃ x xs R, v = .cons x xs ∧ a.Fits o (t.Fits m o) (t.write m) P R env x ∧
      rest.Fits m o R Q (env.push x) all xs
  | .temp a t value rest, P, Q, env, all, v =>
    ∃ f R, value = some f ∧ a.Fits o (t.Fits m o) (t.write m) P R env (f all) ∧
      rest.Fits m o R Q (env.push (f all)) all v

/-- The first field stores the id, which `Id` describes; the other fields fit. -/
def Fields.FitsStored (m : Machine) (o : Order) (Id : Val → (Nat → Prop) → (Nat → Prop) → Prop) :
    Fields → (Nat → Prop) → (Nat → Prop) → Env → Val → Prop
  | .nil, _, _, _, _ => False
  | .cons _ _ rest, P, Q, env, v =>
    ∃ x xs R, v = .cons x xs ∧ Id x P R ∧ rest.Fits m o R Q (env.push x) v xs
  | .temp _ _ _ _, _, _, _, _ => False

/-- The first field, read with its own attributes, is written by `store`; the other fields fit. -/
def Fields.FitsFirst (m : Machine) (o : Order) (store : Env → Val → M Writer Unit) :
    Fields → (Nat → Prop) → (Nat → Prop) → Env → Val → Prop
  | .nil, _, _, _, _ => False
  | .cons a t rest, P, Q, env, v =>
    ∃ x xs R, v = .cons x xs ∧ SoundOn o P (a.read m.native (t.read m) env) (store env x) x R ∧
      rest.Fits m o R Q (env.push x) v xs
  | .temp _ _ _ _, _, _, _, _ => False

/-- Variant `i` with its id: `sel x` says that the id `x` selects it. -/
def Variants.FitsAt (m : Machine) (o : Order) (sel : Val → Prop) (id : IdSrc)
    (store : Env → Val → M Writer Unit) :
    Variants → Nat → (Nat → Prop) → (Nat → Prop) → Env → Val → Prop
  | .nil, _, _, _, _, _ => False
  | .cons a fs _, 0, P, Q, env, v =>
    match id with
    | .ctx e =>
      sel (e env) ∧ (((a.idPat = false ∨ fs = .nil) ∧ fs.Fits m o P Q env v v) ∨
        (a.idPat = true ∧ fs.FitsFirst m o store P Q env v))
    | .typed _ c =>
      ((a.idPat = false ∨ fs = .nil) ∧ ∃ x R, a.id = some x ∧ sel x ∧
        SoundOn o P (c env).read ((c env).write x) x R ∧ fs.Fits m o R Q env v v) ∨
      (a.idPat = true ∧ a.id = none ∧ fs.FitsStored m o
        (fun x P R => sel x ∧ SoundOn o P (c env).read (store env x) x R) P Q env v)
  | .cons _ _ rest, i + 1, P, Q, env, v => rest.FitsAt m o sel id store i P Q env v

end

/-- The variants in source order. -/
def Variants.toList : Variants → List (VAttrs × Fields)
  | .nil => []
  | .cons a fs rest => (a, fs) :: rest.toList

/-- The id `x` selects variant `i`: it is the first one whose pattern matches, or none matches and it
is the (first) default one. -/
def Selects (env : Env) (x : Val) (l : List (VAttrs × Fields)) (i : Nat) : Prop :=
  ∃ a, l[i]? = some a ∧
    ((a.1.pat env x = true ∧ ∀ j b, j < i → l[j]? = some b → b.1.pat env x = false) ∨
      ((∀ b ∈ l, b.1.pat env x = false) ∧ a.1.default = true ∧
        ∀ j b, j < i → l[j]? = some b → b.1.default = false))

end Deku
