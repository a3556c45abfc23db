import Verif.Model.Recursive
import Verif.Spec.Safe

/-!
# Specification vocabulary: bodies of types that contain themselves
-/

namespace Deku

variable {ι : Type}

mutual

/-- The grammar of bodies: `σ i` is an occurrence of type `i`. -/
inductive Shape : ((ι → Ty) → Ty) → Prop
  | hole (i : ι) : Shape fun σ => σ i
  | const (t : Ty) : Shape fun _ => t
  | option {F} : Shape F → Shape fun σ => .option (F σ)
  | array {F} (n : Nat) : Shape F → Shape fun σ => .array n (F σ)
  | pair {F G} : Shape F → Shape G → Shape fun σ => .pair (F σ) (G σ)
  | vec {F} (size : Nat) (l : LimitE) : Shape F → Shape fun σ => .vec size l (F σ)
  | struct {fs} (args : Env → List Val) (seek : Option (Env → Option SeekFrom)) (magic : List Byte) :
    ShapeF fs → Shape fun σ => .struct args seek magic (fs σ)
  | enum {vs} (args : Env → List Val) (magic : List Byte) (id : IdSrc) (store : Nat → Env → Val → M Writer Unit) :
    ShapeV vs → Shape fun σ => .enum args magic id store (vs σ)

inductive ShapeF : ((ι → Ty) → Fields) → Prop
  | nil : ShapeF fun _ => .nil
  | cons {F fs} (a : Attrs) : Shape F → ShapeF fs → ShapeF fun σ => .cons a (F σ) (fs σ)
  | temp {F fs} (a : Attrs) (value : Option (Val → Val)) : Shape F → ShapeF fs →
    ShapeF fun σ => .temp a (F σ) value (fs σ)

inductive ShapeV : ((ι → Ty) → Variants) → Prop
  | nil : ShapeV fun _ => .nil
  | cons {fs vs} (a : VAttrs) : ShapeF fs → ShapeV vs → ShapeV fun σ => .cons a (fs σ) (vs σ)

end

mutual

/-- Bodies without seeks in which something is read before a type occurs again. The first argument says that something
has been read already; then a type may occur. -/
inductive Guarded : Prop → ((ι → Ty) → Ty) → Prop
  | hole {g} (i : ι) : g → Guarded g fun σ => σ i
  | const {g} (t : Ty) : t.Runs → Guarded g fun _ => t
  | option {g F} : Guarded g F → Guarded g fun σ => .option (F σ)
  | array {g F} (n : Nat) : Guarded g F → Guarded g fun σ => .array n (F σ)
  | pair {g F G} : Guarded g F → Guarded (g ∨ ∀ σ, (F σ).Hungry) G → Guarded g fun σ => .pair (F σ) (G σ)
  | vec {g F} (size : Nat) (l : LimitE) : Guarded g F → Guarded g fun σ => .vec size l (F σ)
  | struct {g fs} (args : Env → List Val) (magic : List Byte) : GuardedF (g ∨ magic ≠ []) fs →
    Guarded g fun σ => .struct args none magic (fs σ)
  | enum {g vs} (args : Env → List Val) (magic : List Byte) (e : Env → Val) (store : Nat → Env → Val → M Writer Unit) :
    GuardedV (g ∨ magic ≠ []) vs → Guarded g fun σ => .enum args magic (.ctx e) store (vs σ)
  | enumTyped {g vs} (args : Env → List Val) (magic : List Byte) (size : Option Nat) (c : Env → Codec)
    (store : Nat → Env → Val → M Writer Unit) : (∀ env, Moves (c env).read) →
    GuardedV (g ∨ magic ≠ [] ∨ ∀ env, Eats (c env).read) vs →
    Guarded g fun σ => .enum args magic (.typed size c) store (vs σ)

inductive GuardedF : Prop → ((ι → Ty) → Fields) → Prop
  | nil {g} : GuardedF g fun _ => .nil
  | cons {g F fs} (a : Attrs) : a.seek = none → Guarded (g ∨ a.magic ≠ []) F →
    GuardedF (g ∨ a.magic ≠ [] ∨ ((∀ env, a.isRead env = true) ∧ ∀ σ, (F σ).Hungry)) fs →
    GuardedF g fun σ => .cons a (F σ) (fs σ)
  | temp {g F fs} (a : Attrs) (value : Option (Val → Val)) : a.seek = none → Guarded (g ∨ a.magic ≠ []) F →
    GuardedF (g ∨ a.magic ≠ [] ∨ ((∀ env, a.isRead env = true) ∧ ∀ σ, (F σ).Hungry)) fs →
    GuardedF g fun σ => .temp a (F σ) value (fs σ)

inductive GuardedV : Prop → ((ι → Ty) → Variants) → Prop
  | nil {g} : GuardedV g fun _ => .nil
  | cons {g fs vs} (a : VAttrs) : (a.idPat = true → g) → GuardedF g fs → GuardedV g vs → GuardedV g fun σ => .cons a (fs σ) (vs σ)

end

/-- The same result, or a panic of the first. -/
def Under {σ α : Type} (x y : M σ α) : Prop := ∀ s, x s = y s ∨ (x s).1 = .panic

end Deku
