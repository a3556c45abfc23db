import Verif.Spec.Stream
import Verif.Model.Derive

/-!
# Specification vocabulary: parsers that do not panic

`Ty.Safe` lists what can make a derived reader panic, as conditions on the definition. It walks through
the definition in the order in which it is read and keeps track of two facts about the reader (`Stage`)
and of what is known about the values read (`R`).
-/

namespace Deku

variable {α : Type}

/-- What may have happened to the reader: it may have been made to skip beyond the end of the input,
and `end` may have peeked a byte. -/
structure Stage where
  past : Bool
  peek : Bool

namespace Stage

/-- The stage of a reader nothing has happened to. -/
def fresh : Stage := ⟨false, false⟩

/-- Nothing is known. -/
def any : Stage := ⟨true, true⟩

/-- What may have happened by `s` may have happened by `t`. -/
def le (s t : Stage) : Prop := (s.past = true → t.past = true) ∧ (s.peek = true → t.peek = true)

/-- A seek may lead beyond the end, and drops the peeked byte. -/
def afterSeek (seek : Option (Env → Option SeekFrom)) (s : Stage) : Stage :=
  if seek.isSome then ⟨true, false⟩ else s

/-- Reading something clears both. -/
def afterMagic (magic : List Byte) (s : Stage) : Stage := if magic = [] then s else fresh

/-- Padding may lead beyond the end. -/
def afterPad (pad : Option (Env → Int)) (s : Stage) : Stage :=
  if pad.isSome then ⟨true, s.peek⟩ else s

end Stage

/-- A reader in the middle of parsing a healthy source from its start, at the stage given. -/
structure Reader.In (s : Stage) (r : Reader) : Prop where
  healthy : r.Healthy
  wf : r.WF
  sync : r.Synced 0
  inside : r.rest ≠ [] → r.inner.pos ≤ r.inner.data.length
  past : s.past = false → r.inner.pos ≤ r.inner.data.length
  peek : s.peek = false → r.NoPeek

/-- On inputs of at most `len` bytes, from stage `s`, the parser does not panic; if it succeeds, then at
stage `t` and with a value of `R`. -/
def Panicless (len : Nat) (s : Stage) (f : M Reader α) (t : Stage) (R : α → Prop) : Prop :=
  ∀ r, r.In s → r.inner.data.length ≤ len → (f r).1 ≠ .panic ∧
    ∀ a r', f r = (.ok a, r') → r'.In t ∧ r'.inner.data = r.inner.data ∧ R a

/-- The parser does not move back. -/
def Moves (f : M Reader α) : Prop :=
  ∀ r a r', r.In .any → f r = (.ok a, r') →
    r'.In .any ∧ r'.inner.data = r.inner.data ∧ r.inner.pos ≤ r'.inner.pos ∧ r.bitsRead ≤ r'.bitsRead

/-- The parser moves on, and does not succeed beyond the end of the input. -/
def Eats (f : M Reader α) : Prop :=
  ∀ r a r', r.In .any → f r = (.ok a, r') →
    r.inner.pos ≤ r.inner.data.length ∧ r.bitsRead < r'.bitsRead

/-- The value passes the assertions of the field. -/
def Attrs.Passes (a : Attrs) (env : Env) (v : Val) : Prop :=
  a.assert env v = true ∧ ∀ x, a.assertEq env = some x → v = x

/-- The conditions on a field, given those on its type. -/
def Attrs.Safe (a : Attrs) (ty : Env → Stage → Stage → (Val → Prop) → Prop) (env : Env)
    (s t : Stage) (R : Val → Prop) : Prop :=
  (∀ f, a.seek = some f → f env ≠ none) ∧
  ∀ off, (a.usesOffset = false → off = 0) → ∃ s',
    (a.isRead (env.at off) = true → ∃ R', ty (env.at off)
      (.afterPad a.padBefore (.afterMagic a.magic (.afterSeek a.seek s))) s' R' ∧
      ∀ raw v, R' raw → a.map (env.at off) raw = .ok v → a.Passes (env.at off) v → R v) ∧
    (a.isRead (env.at off) = false →
      Stage.le (.afterPad a.padBefore (.afterMagic a.magic (.afterSeek a.seek s))) s' ∧
      (a.Passes (env.at off) (a.default (env.at off)) → R (a.default (env.at off)))) ∧
    Stage.le (.afterPad a.padAfter s') t

/-- The conditions on the limit of a `Vec`: elements go from stage `s'` to stage `t'`. -/
def LimitE.Safe (m : Machine) (env : Env) (el : M Reader Val) (s s' t' t : Stage) : LimitE → Prop
  | .count n => n env ≤ m.mem ∧ Moves el ∧ s.le s' ∧ t'.le s' ∧ t'.le t ∧ (n env = 0 → s.le t)
  | .until _ => Moves el ∧ Eats el ∧ s.le s' ∧ t'.le s' ∧ t'.le t
  | .bytes n => n env < 2 ^ 61 ∧ Moves el ∧ Eats el ∧ s.le s' ∧ t'.le s' ∧ t'.le t ∧ (n env = 0 → s.le t)
  | .bits n => Moves el ∧ Eats el ∧ s.le s' ∧ t'.le s' ∧ t'.le t ∧ (n env = 0 → s.le t)
  | .end => Eats el ∧ Stage.le ⟨false, true⟩ s' ∧ (s.past = true → t.past = true) ∧
    (t'.past = true → t.past = true)

mutual

/-- No input of at most `len` bytes makes the reader of this definition panic when it starts at stage
`s`; it ends at stage `t` with a value of `R`. -/
def Ty.Safe (m : Machine) (len : Nat) : Ty → Env → Stage → Stage → (Val → Prop) → Prop
  | .prim _ c, env, s, t, R => Panicless len s (c env).read t R
  | .option x, env, s, t, R => x.Safe m len env s t fun v => R (.some v)
  | .array n x, env, s, t, R => ∃ s' t' R', x.Safe m len env s' t' R' ∧
    s.le s' ∧ t'.le s' ∧ t'.le t ∧ (n = 0 → s.le t) ∧
    ∀ vs, vs.length = n → (∀ v ∈ vs, R' v) → R (.ofList vs)
  | .pair a b, env, s, t, R => ∃ s' R', a.Safe m len env s s' R' ∧
    ∀ v, R' v → b.Safe m len env s' t fun w => R (.cons v (.cons w .nil))
  | .vec size l x, env, s, t, R => (size = 0 → (∀ n, l = .bytes n → n env < 2 ^ 61) ∧ s.le t ∧ R .nil) ∧
    (size ≠ 0 → ∃ s' t' R', x.Safe m len env s' t' R' ∧ l.Safe m env (x.read m env) s s' t' t ∧
      ∀ vs, (∀ v ∈ vs, R' v) → R (.ofList vs))
  | .bytes n _, env, s, _, R => s.past = false ∧ n env < 2 ^ 61 ∧ (s.peek = true → n env ≠ 0) ∧
    ∀ bs : List Byte, (bs.length : Int) = n env → R (.ofList (bs.map .ofByte))
  | .struct args sk magic fs, env, s, t, R => (∀ f, sk = some f → f { ctx := args env } ≠ none) ∧
    fs.Safe m len { ctx := args env } (.afterMagic magic (.afterSeek sk s)) t R
  | .enum args magic id _ vs, env, s, t, R =>
    match id with
    | .ctx e => ∀ i, vs.select { ctx := args env } (e { ctx := args env }) = some i →
      vs.SafeAt m len { ctx := args env } (e { ctx := args env }) false i (.afterMagic magic s) t
        fun fs => R (.variant i fs)
    | .typed _ c => ∃ s' R', Panicless len (.afterMagic magic s) (c { ctx := args env }).read s' R' ∧
      ∀ x, R' x → ∀ i, vs.select { ctx := args env } x = some i →
        vs.SafeAt m len { ctx := args env } x true i s' t fun fs => R (.variant i fs)

def Fields.Safe (m : Machine) (len : Nat) : Fields → Env → Stage → Stage → (Val → Prop) → Prop
  | .nil, _, s, t, R => s.le t ∧ R .nil
  | .cons a x rest, env, s, t, R => ∃ s' R',
    a.Safe (fun env s t R => x.Safe m len env s t R) env s s' R' ∧
    ∀ v, R' v → rest.Safe m len (env.push v) s' t fun vs => R (.cons v vs)
  | .temp a x _ rest, env, s, t, R => ∃ s' R',
    a.Safe (fun env s t R => x.Safe m len env s t R) env s s' R' ∧
    ∀ v, R' v → rest.Safe m len (env.push v) s' t R

/-- The fields of a variant whose first field stores the id `x`. -/
def Fields.SafeStored (m : Machine) (len : Nat) : Fields → Env → Val → Stage → Stage → (Val → Prop) → Prop
  | .nil, _, _, s, t, R => s.le t ∧ R .nil
  | .cons _ _ rest, env, x, s, t, R => rest.Safe m len (env.push x) s t fun vs => R (.cons x vs)
  | .temp _ _ _ rest, env, x, s, t, R => rest.Safe m len (env.push x) s t R

/-- The fields of variant number `i`. -/
def Variants.SafeAt (m : Machine) (len : Nat) :
    Variants → Env → Val → Bool → Nat → Stage → Stage → (Val → Prop) → Prop
  | .nil, _, _, _, _, _, _, _ => False
  | .cons a fs _, env, x, typed, 0, s, t, R =>
    if a.idPat && typed then fs.SafeStored m len env x s t R else fs.Safe m len env s t R
  | .cons _ _ rest, env, x, typed, i + 1, s, t, R => rest.SafeAt m len env x typed i s t R

end

/-! ### elements -/

mutual

/-- No seeks, and no leaf moves back. -/
def Ty.Runs : Ty → Prop
  | .prim _ c => ∀ env, Moves (c env).read
  | .option x => x.Runs
  | .array _ x => x.Runs
  | .pair a b => a.Runs ∧ b.Runs
  | .vec _ _ x => x.Runs
  | .bytes _ _ => True
  | .struct _ sk _ fs => sk = none ∧ fs.Runs
  | .enum _ _ id _ vs =>
    (match id with | .ctx _ => True | .typed _ c => ∀ env, Moves (c env).read) ∧ vs.Runs

def Fields.Runs : Fields → Prop
  | .nil => True
  | .cons a x rest => a.seek = none ∧ x.Runs ∧ rest.Runs
  | .temp a x _ rest => a.seek = none ∧ x.Runs ∧ rest.Runs

def Variants.Runs : Variants → Prop
  | .nil => True
  | .cons _ fs rest => fs.Runs ∧ rest.Runs

end

mutual

/-- Something is read in every case. -/
def Ty.Hungry : Ty → Prop
  | .prim _ c => ∀ env, Eats (c env).read
  | .option x => x.Hungry
  | .array n x => n ≠ 0 ∧ x.Hungry
  | .pair a b => a.Hungry ∨ b.Hungry
  | .vec size l x => size ≠ 0 ∧ (∃ p, l = .until p) ∧ x.Hungry
  | .bytes _ _ => False
  | .struct _ _ magic fs => magic ≠ [] ∨ fs.Hungry
  | .enum _ magic id _ vs => magic ≠ [] ∨
    (match id with | .ctx _ => False | .typed _ c => ∀ env, Eats (c env).read) ∨ vs.Hungry

def Fields.Hungry : Fields → Prop
  | .nil => False
  | .cons a x rest => a.magic ≠ [] ∨ ((∀ env, a.isRead env = true) ∧ x.Hungry) ∨ rest.Hungry
  | .temp a x _ rest => a.magic ≠ [] ∨ ((∀ env, a.isRead env = true) ∧ x.Hungry) ∨ rest.Hungry

def Variants.Hungry : Variants → Prop
  | .nil => True
  | .cons a fs rest => a.idPat = false ∧ fs.Hungry ∧ rest.Hungry

end

/-! ### a structural condition -/

/-- Padding and seeks are only allowed if the stage allows to be beyond the end. -/
def Attrs.Tame (a : Attrs) (s : Stage) : Prop :=
  (∀ f, a.seek = some f → s.past = true ∧ ∀ env, f env ≠ none) ∧
  (a.padBefore.isSome → s.past = true) ∧ (a.padAfter.isSome → s.past = true)

/-- The limit is harmless whatever was read before. -/
def LimitE.Tame (m : Machine) (t : Ty) : LimitE → Prop
  | .count n => (∀ env, n env ≤ m.mem) ∧ t.Runs
  | .bytes n => (∀ env, n env < 2 ^ 61) ∧ t.Runs ∧ t.Hungry
  | .until _ | .bits _ | .end => t.Runs ∧ t.Hungry

/-- The stage at which the elements are read: `read_all` peeks. -/
def LimitE.stage (s : Stage) : LimitE → Stage
  | .end => ⟨s.past, true⟩
  | _ => s

mutual

/-- A condition for `Ty.Safe` that does not look at the values read, and has one stage throughout. -/
def Ty.Tame (m : Machine) (len : Nat) : Ty → Stage → Prop
  | .prim _ c, s => ∀ env, Panicless len s (c env).read s fun _ => True
  | .option x, s => x.Tame m len s
  | .array _ x, s => x.Tame m len s
  | .pair a b, s => a.Tame m len s ∧ b.Tame m len s
  | .vec size l x, s => size ≠ 0 ∧ l.Tame m x ∧ x.Tame m len (l.stage s)
  | .bytes n _, s => s.past = false ∧ ∀ env, n env < 2 ^ 61 ∧ (s.peek = true → n env ≠ 0)
  | .struct _ sk _ fs, s => (∀ f, sk = some f → s.past = true ∧ ∀ env, f env ≠ none) ∧ fs.Tame m len s
  | .enum _ _ id _ vs, s =>
    (match id with
    | .ctx _ => True
    | .typed _ c => ∀ env, Panicless len s (c env).read s fun _ => True) ∧ vs.Tame m len s

def Fields.Tame (m : Machine) (len : Nat) : Fields → Stage → Prop
  | .nil, _ => True
  | .cons a x rest, s => a.Tame s ∧ x.Tame m len s ∧ rest.Tame m len s
  | .temp a x _ rest, s => a.Tame s ∧ x.Tame m len s ∧ rest.Tame m len s

def Variants.Tame (m : Machine) (len : Nat) : Variants → Stage → Prop
  | .nil, _ => True
  | .cons _ fs rest, s => fs.Tame m len s ∧ rest.Tame m len s

end

end Deku
