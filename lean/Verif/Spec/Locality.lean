import Verif.Spec.Format
import Verif.Spec.Laws

/-!
# Specification vocabulary: parsers that depend only on the bits they consume

Positions are counted in bits from the start of the message.
-/

namespace Deku

variable {α : Type}

/-- Wherever a reader that has consumed `p` bits finds `bits`, the computation consumes exactly these
and returns `a`. -/
def ReadsAt (o : Order) (p : Nat) (f : M Reader α) (bits : List Bool) (a : α) : Prop :=
  ∀ r rest, r.At p → r.bitsRead = p → r.unread o = bits ++ rest →
    ∃ r', f r = (.ok a, r') ∧ Reader.Step o bits.length r r'

/-- From the positions of `P`, the parser takes its result `a` from the bits it consumes, and ends at a
position of `Q a`; or it has been made to skip beyond the end of the input. -/
structure LocalOn (o : Order) (P : Nat → Prop) (f : M Reader α) (Q : α → Nat → Prop) : Prop where
  here : ∀ p r a r', P p → r.At p → r.bitsRead = p → f r = (.ok a, r') →
    (∃ n, n ≤ (r.unread o).length ∧ ReadsAt o p f ((r.unread o).take n) a ∧ Q a (p + n)) ∨
    (r'.Past ∧ r'.inner.data = r.inner.data)
  past : ∀ r a r', r.Past → f r = (.ok a, r') → r'.Past ∧ r'.inner.data = r.inner.data

/-- A field read in bit order `o`: its magic and paddings are, and so is its type `T` whenever it is
read. -/
def Attrs.InOrder (o : Order) (T : (Nat → Prop) → (Val → Nat → Prop) → Env → Prop) (a : Attrs)
    (P : Nat → Prop) (Q : Val → Nat → Prop) (env : Env) : Prop :=
  a.seek = none ∧ (a.magic = [] ∨ ByteSafe o P) ∧
  PadSafe o a.padOrder a.padBefore ∧ PadSafe o a.padOrder a.padAfter ∧
  ∀ q, shift P (8 * a.magic.length + padBits a.padBefore env) q →
    let env' := env.at (if a.usesOffset then q else 0)
    (a.isRead env' = true → ∃ R : Val → Nat → Prop, T (· = q) R env' ∧
      ∀ raw v q', R raw q' → a.map env' raw = .ok v → Q v (q' + padBits a.padAfter (env'.push v))) ∧
    (a.isRead env' = false →
      Q (a.default env') (q + padBits a.padAfter (env'.push (a.default env'))))

mutual

/-- The definition is read in bit order `o` throughout, without seeks and `read_all`: from the
positions of `P`, a value `v` ends at a position of `Q v`. -/
def Ty.InOrder (m : Machine) (o : Order) : Ty → (Nat → Prop) → (Val → Nat → Prop) → Env → Prop
  | .prim _ c, P, Q, env => LocalOn o P (c env).read Q
  | .option t, P, Q, env => t.InOrder m o P (fun x => Q (.some x)) env
  | .array n t, P, Q, env => ∃ I : Nat → Nat → Prop, (∀ p, P p → I 0 p) ∧
    (∀ j, t.InOrder m o (I j) (fun _ => I (j + 1)) env) ∧
    ∀ vs q, vs.length = n → I n q → Q (.ofList vs) q
  | .pair a b, P, Q, env => ∃ R : Val → Nat → Prop, a.InOrder m o P R env ∧
    ∀ x, b.InOrder m o (R x) (fun y => Q (.cons x (.cons y .nil))) env
  | .vec _ l t, P, Q, env => (match l with | .end => False | _ => True) ∧
    ∃ I : Nat → Nat → Prop, (∀ p, P p → I 0 p) ∧
    (∀ j, t.InOrder m o (I j) (fun _ => I (j + 1)) env) ∧ ∀ vs q, I vs.length q → Q (.ofList vs) q
  | .bytes n _, P, Q, env => (o = .lsb0 ∨ ∀ p, P p → p % 8 = 0) ∧
    ∀ p (bs : List Byte), P p → bs.length = (n env).toNat → Q (.ofList (bs.map .ofByte)) (p + 8 * bs.length)
  | .struct args seek magic fs, P, Q, env => seek = none ∧ (magic = [] ∨ ByteSafe o P) ∧
    fs.InOrder m o (shift P (8 * magic.length)) Q { ctx := args env }
  | .enum args magic id _ vs, P, Q, env => (magic = [] ∨ ByteSafe o P) ∧
    match id with
    | .ctx e => ∀ i, vs.select { ctx := args env } (e { ctx := args env }) = some i →
      vs.InOrderAt m o i (shift P (8 * magic.length)) (fun fs => Q (.variant i fs)) { ctx := args env }
        (e { ctx := args env }) false
    | .typed _ c => ∃ R, LocalOn o (shift P (8 * magic.length)) (c { ctx := args env }).read R ∧
      ∀ x i, vs.select { ctx := args env } x = some i →
        vs.InOrderAt m o i (R x) (fun fs => Q (.variant i fs)) { ctx := args env } x true

def Fields.InOrder (m : Machine) (o : Order) : Fields → (Nat → Prop) → (Val → Nat → Prop) → Env → Prop
  | .nil, P, Q, _ => ∀ p, P p → Q .nil p
  | .cons a t rest, P, Q, env => ∃ R, a.InOrder o (t.InOrder m o) P R env ∧
    ∀ x, rest.InOrder m o (R x) (fun xs => Q (.cons x xs)) (env.push x)
  | .temp a t _ rest, P, Q, env => ∃ R, a.InOrder o (t.InOrder m o) P R env ∧
    ∀ x, rest.InOrder m o (R x) Q (env.push x)

/-- The fields after the one that stores the id `x`. -/
def Fields.InOrderStored (m : Machine) (o : Order) :
    Fields → (Nat → Prop) → (Val → Nat → Prop) → Env → Val → Prop
  | .nil, P, Q, _, _ => ∀ p, P p → Q .nil p
  | .cons _ _ rest, P, Q, env, x => rest.InOrder m o P (fun xs => Q (.cons x xs)) (env.push x)
  | .temp _ _ _ rest, P, Q, env, x => rest.InOrder m o P Q (env.push x)

/-- Variant number `i`, selected by the id `x`. -/
def Variants.InOrderAt (m : Machine) (o : Order) :
    Variants → Nat → (Nat → Prop) → (Val → Nat → Prop) → Env → Val → Bool → Prop
  | .nil, _, _, _, _, _, _ => True
  | .cons a fs _, 0, P, Q, env, x, typed =>
    if a.idPat && typed then fs.InOrderStored m o P Q env x else fs.InOrder m o P Q env
  | .cons _ _ rest, i + 1, P, Q, env, x, typed => rest.InOrderAt m o i P Q env x typed

end

/-- The bits of a message that starts `off` bits into the first byte, counted from its high end, in the
order they are read: what is left of the first byte, then the other bytes. -/
def streamFrom (o : Order) (data : List Byte) (off : Nat) : List Bool :=
  if off % 8 = 0 then orderBits o (data.drop (off / 8))
  else match data.drop (off / 8) with
    | [] => []
    | x :: xs => present o ((byteBits x).drop (off % 8)) ++ orderBits o xs

end Deku
