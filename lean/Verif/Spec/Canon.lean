import Verif.Spec.Format
import Verif.Spec.Laws

/-!
# Specification vocabulary: formats in which every bit is represented in the value

The converse of the round trip: a serialiser that gives back the bits a value was parsed from.
Positions are counted in bits.
-/

namespace Deku

variable {α : Type}

/-- From the positions of `P`: whenever the parser succeeds with `a`, it has consumed `n` bits, the
serialiser of `a` writes exactly these bits at the same alignment, and the position afterwards is one
of `Q a`. With `peek` this also holds right after `end` has peeked a byte. -/
def CanonOn (o : Order) (peek : Bool) (P : Nat → Prop) (f : M Reader α) (g : α → M Writer Unit)
    (Q : α → Nat → Prop) : Prop :=
  ∀ p r a r', P p → r.Live p → (peek = false → r.NoPeek) → f r = (.ok a, r') →
    ∃ n, n ≤ (r.unread o).length ∧ Reader.Step o n r r' ∧ Writes o p (g a) ((r.unread o).take n) ∧
      Q a (p + n)

/-- A field in which every bit is represented: there is no padding, what is read is written, what is
not read writes nothing, and the `writer` undoes `map`. -/
def Attrs.Canon (o : Order) (T : (Nat → Prop) → (Val → Nat → Prop) → Env → Prop)
    (wr : Env → Val → M Writer Unit) (a : Attrs) (P : Nat → Prop) (Q : Val → Nat → Prop) (env : Env) :
    Prop :=
  a.seek = none ∧ a.usesOffset = false ∧ (a.magic = [] ∨ ByteSafe o P) ∧
  a.padBefore = none ∧ a.padAfter = none ∧
  (a.isRead (env.at 0) = true → a.isWritten (env.at 0) = true ∧
    ∃ R : Val → Nat → Prop, T (shift P (8 * a.magic.length)) R (env.at 0) ∧
      ∀ raw v q, R raw q → a.map (env.at 0) raw = .ok v → a.unmap (env.at 0) v = raw ∧ Q v q) ∧
  (a.isRead (env.at 0) = false → ∀ p, shift P (8 * a.magic.length) p →
    (a.isWritten (env.at 0) = true →
      Writes o p (wr (env.at 0) (a.unmap (env.at 0) (a.default (env.at 0)))) []) ∧
    Q (a.default (env.at 0)) p)

/-- What is known of the number of elements of a list that was read with the limit. -/
def LimitE.Met (env : Env) (l : LimitE) (len : Nat) : Prop :=
  match l with
  | .count n => len = (n env).toNat
  | _ => True

/-- The variant stores its id. -/
def Variants.storesAt : Variants → Nat → Bool
  | .nil, _ => false
  | .cons a _ _, 0 => a.idPat
  | .cons _ _ rest, i + 1 => rest.storesAt i

mutual

/-- Every bit of the message is represented in the value: from the positions of `P`, a value `v` ends
at a position of `Q v`. -/
def Ty.Canon (m : Machine) (o : Order) :
    Ty → Bool → (Nat → Prop) → (Val → Nat → Prop) → Env → Prop
  | .prim _ c, pk, P, Q, env => CanonOn o pk P (c env).read (c env).write Q
  | .option t, pk, P, Q, env => t.Canon m o pk P (fun x => Q (.some x)) env
  | .array n t, pk, P, Q, env => ∃ I : Nat → Nat → Prop, (∀ p, P p → I 0 p) ∧
    (∀ j, t.Canon m o pk (I j) (fun _ => I (j + 1)) env) ∧
    ∀ vs q, vs.length = n → I n q → Q (.ofList vs) q
  | .pair a b, pk, P, Q, env => ∃ R : Val → Nat → Prop, a.Canon m o pk P R env ∧
    ∀ x, b.Canon m o pk (R x) (fun y => Q (.cons x (.cons y .nil))) env
  | .vec size l t, pk, P, Q, env => size ≠ 0 ∧ ∃ I : Nat → Nat → Prop, (∀ p, P p → I 0 p) ∧
    (match l with
      | .end => ∀ j p, I j p → t.Canon m o true (· = p) (fun _ q => p < q ∧ I (j + 1) q) env
      | _ => ∀ j, t.Canon m o pk (I j) (fun _ => I (j + 1)) env) ∧
    ∀ vs q, l.Met env vs.length → I vs.length q → Q (.ofList vs) q
  | .bytes n ctx, pk, P, Q, env => pk = false ∧ (ctx env).isBits = false ∧ (∀ p, P p → p % 8 = 0) ∧
    ∀ p (bs : List Byte), P p → bs.length = (n env).toNat → Q (.ofList (bs.map .ofByte)) (p + 8 * bs.length)
  | .struct args seek magic fs, pk, P, Q, env => seek = none ∧ (magic = [] ∨ ByteSafe o P) ∧
    fs.Canon m o pk (shift P (8 * magic.length)) Q { ctx := args env } id
  | .enum args magic id store vs, pk, P, Q, env => (magic = [] ∨ ByteSafe o P) ∧
    match id with
    | .ctx e => ∀ i, vs.select { ctx := args env } (e { ctx := args env }) = some i →
      vs.CanonAt m o i pk (shift P (8 * magic.length)) (fun fs => Q (.variant i fs)) { ctx := args env }
        (e { ctx := args env }) false
    | .typed _ c => ∃ R, CanonOn o pk (shift P (8 * magic.length)) (c { ctx := args env }).read
        (fun x => match vs.select { ctx := args env } x with
          | some i => if vs.storesAt i then store i { ctx := args env } x else (c { ctx := args env }).write x
          | none => (c { ctx := args env }).write x) R ∧
      ∀ x, (∃ q, R x q) → ∀ i, vs.select { ctx := args env } x = some i →
        vs.CanonAt m o i pk (R x) (fun fs => Q (.variant i fs)) { ctx := args env } x true

/-- The same of the fields; `mk` is the value of the type from the fields from here on. A temporary
field is represented if its `temp_value` gives back what was read. -/
def Fields.Canon (m : Machine) (o : Order) :
    Fields → Bool → (Nat → Prop) → (Val → Nat → Prop) → Env → (Val → Val) → Prop
  | .nil, _, P, Q, _, _ => ∀ p, P p → Q .nil p
  | .cons a t rest, pk, P, Q, env, mk => ∃ R, a.Canon o (t.Canon m o pk) (t.write m) P R env ∧
    ∀ x, (∃ q, R x q) →
      rest.Canon m o pk (R x) (fun xs => Q (.cons x xs)) (env.push x) (fun xs => mk (.cons x xs))
  | .temp a t value rest, pk, P, Q, env, mk => match value with
    | none => False
    | some f => ∃ R, a.Canon o (t.Canon m o pk) (t.write m) P R env ∧
      ∀ x, (∃ q, R x q) → rest.Canon m o pk (R x) (fun xs q => f (mk xs) = x ∧ Q xs q) (env.push x) mk

/-- The fields after the one that stores the id `x`. -/
def Fields.CanonStored (m : Machine) (o : Order) :
    Fields → Bool → (Nat → Prop) → (Val → Nat → Prop) → Env → Val → Prop
  | .cons _ _ rest, pk, P, Q, env, x =>
    rest.Canon m o pk P (fun xs => Q (.cons x xs)) (env.push x) (fun xs => .cons x xs)
  | _, _, _, _, _, _ => False

/-- Variant number `i`, selected by the id `x`: it stores the id, or it has no other id. -/
def Variants.CanonAt (m : Machine) (o : Order) :
    Variants → Nat → Bool → (Nat → Prop) → (Val → Nat → Prop) → Env → Val → Bool → Prop
  | .nil, _, _, _, _, _, _, _ => True
  | .cons a fs _, 0, pk, P, Q, env, x, typed =>
    if a.idPat then typed = true ∧ a.id = none ∧ fs.CanonStored m o pk P Q env x
    else (typed = true → a.id = some x) ∧ fs.Canon m o pk P Q env id
  | .cons _ _ rest, i + 1, pk, P, Q, env, x, typed => rest.CanonAt m o i pk P Q env x typed

end

end Deku
