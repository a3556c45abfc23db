import Verif.Spec.Offset

/-!
# Ways to write the same definition

A definition in another scope: fields that are moved into a struct of their own see what they need through `ctx`, and
the fields after them see the struct. `under` replaces every attribute expression by the one that looks at the other
scope.
-/

namespace Deku

namespace Val

/-- The value in which element `i`, a list, is replaced by its elements. -/
def flatAt : Nat → Val → Val
  | 0, .cons x xs => x.append xs
  | i + 1, .cons x xs => .cons x (flatAt i xs)
  | _, v => v

/-- The first `n` elements, and the rest. -/
def splitAt : Nat → Val → Val × Val
  | n + 1, .cons x xs => (.cons x (splitAt n xs).1, (splitAt n xs).2)
  | _, v => (.nil, v)

/-- The value in which the `n` elements from `i` on are one element. -/
def nestAt (n : Nat) : Nat → Val → Val
  | 0, v => .cons (splitAt n v).1 (splitAt n v).2
  | i + 1, .cons x xs => .cons x (nestAt n i xs)
  | _, v => v

/-- A list of `n` elements. -/
def IsListOf : Nat → Val → Prop
  | 0, v => v = .nil
  | n + 1, v => ∃ x xs, v = .cons x xs ∧ IsListOf n xs

/-- Element `i` is a list of `n` elements. -/
def HasAt (n : Nat) : Nat → Val → Prop
  | 0, v => ∃ x xs, v = .cons x xs ∧ IsListOf n x
  | i + 1, v => ∃ x xs, v = .cons x xs ∧ HasAt n i xs

/-- The value without element `i`. -/
def dropAt : Nat → Val → Val
  | 0, .cons _ xs => xs
  | i + 1, .cons x xs => .cons x (dropAt i xs)
  | _, v => v

end Val

/-! ## Scopes -/

/-- What is in scope when the fields of `v` have been read. -/
def Env.pushAll (env : Env) (v : Val) : Env := { env with vars := v.elems.reverse ++ env.vars }

/-- `φ k` is the scope of a field with `k` fields before it, seen from the scope of the other definition. -/
structure Scopes (φ : Nat → Env → Env) : Prop where
  «at» : ∀ k env off, φ k (env.at off) = (φ k env).at off
  push : ∀ k env v, φ (k + 1) (env.push v) = (φ k env).push v

/-- The scope inside a struct that is passed `args`, seen from the scope in which its fields follow each other with
those around them: `k` of them have been read. -/
def insideStruct (args : Env → List Val) (k : Nat) (env : Env) : Env :=
  { ctx := args { env with vars := env.vars.drop k, off := 0 }, vars := env.vars.take k, off := env.off }

/-- The scope behind fields that are there one by one, seen from the scope in which they are one struct: `k` fields
have been read after it. -/
def behindStruct (k : Nat) (env : Env) : Env :=
  { env with vars := env.vars.take k ++ ((env.vars.drop k).headD .nil).elems.reverse ++ env.vars.drop (k + 1) }

/-- The same scope. -/
def sameScope (_ : Nat) (env : Env) : Env := env

/-! ## Definitions in another scope -/

def Attrs.under (a : Attrs) (φ φ' : Env → Env) : Attrs :=
  { a with seek := a.seek.map fun f env => f (φ env), padBefore := a.padBefore.map fun f env => f (φ env),
           padAfter := a.padAfter.map fun f env => f (φ' env), cond := a.cond.map fun f env => f (φ env),
           default := fun env => a.default (φ env), map := fun env => a.map (φ env),
           unmap := fun env => a.unmap (φ env), assert := fun env => a.assert (φ env),
           assertEq := fun env => a.assertEq (φ env) }

def LimitE.under (φ : Env → Env) : LimitE → LimitE
  | .count n => .count fun env => n (φ env)
  | .until p => .until fun env => p (φ env)
  | .bytes n => .bytes fun env => n (φ env)
  | .bits n => .bits fun env => n (φ env)
  | .end => .end

/-- Structs and enums see only the arguments passed to them. -/
def Ty.under (φ : Env → Env) : Ty → Ty
  | .prim n c => .prim n fun env => c (φ env)
  | .option t => .option (t.under φ)
  | .array n t => .array n (t.under φ)
  | .pair a b => .pair (a.under φ) (b.under φ)
  | .vec n l t => .vec n (l.under φ) (t.under φ)
  | .bytes n ctx => .bytes (fun env => n (φ env)) fun env => ctx (φ env)
  | .struct args seek magic fs => .struct (fun env => args (φ env)) seek magic fs
  | .enum args magic id store vs => .enum (fun env => args (φ env)) magic id store vs

/-- `g` is for `temp_value`, which sees the whole value. -/
def Fields.under (φ : Nat → Env → Env) (g : Val → Val) : Nat → Fields → Fields
  | _, .nil => .nil
  | k, .cons a t rest => .cons (a.under (φ k) (φ (k + 1))) (t.under (φ k)) (rest.under φ g (k + 1))
  | k, .temp a t value rest =>
    .temp (a.under (φ k) (φ (k + 1))) (t.under (φ k)) (value.map fun f v => f (g v)) (rest.under φ g (k + 1))

namespace Fields

/-- The number of fields that are part of the value. -/
def arity : Fields → Nat
  | .nil => 0
  | .cons _ _ rest => rest.arity + 1
  | .temp _ _ _ rest => rest.arity

def noTemp : Fields → Bool
  | .nil => true
  | .cons _ _ rest => rest.noTemp
  | .temp _ _ _ _ => false

end Fields

/-! ## Fields in a struct of their own -/

/-- The fields one by one. -/
def apart (pre inner post : Fields) (args : Env → List Val) : Fields :=
  pre.append ((inner.under (insideStruct args) id 0).append post)

/-- The middle ones in a struct. -/
def together (pre inner post : Fields) (args : Env → List Val) : Fields :=
  (pre.under sameScope (Val.flatAt pre.arity) 0).append
    (.cons {} (.struct args none [] inner) (post.under behindStruct (Val.flatAt pre.arity) 0))

/-! ## Definitions with other types in them -/

namespace Val

/-- The value in which `f` is applied to element `i`. -/
def mapAt (f : Val → Val) : Nat → Val → Val
  | 0, .cons x xs => .cons (f x) xs
  | i + 1, .cons x xs => .cons x (mapAt f i xs)
  | _, v => v

/-- There is an element `i`, and `P` holds of it. -/
def At (P : Val → Prop) : Nat → Val → Prop
  | 0, v => ∃ x xs, v = .cons x xs ∧ P x
  | i + 1, v => ∃ x xs, v = .cons x xs ∧ At P i xs

/-- `f` applied to every element of a list. -/
def mapAll (f : Val → Val) (v : Val) : Val := ofList (v.elems.map f)

/-- A list of elements of which `P` holds. -/
def All (P : Val → Prop) (v : Val) : Prop := v.isList = true ∧ ∀ x ∈ v.elems, P x

def mapSome (f : Val → Val) : Val → Val
  | .some v => .some (f v)
  | v => v

def AllSome (P : Val → Prop) (v : Val) : Prop := v = .none ∨ ∃ x, v = .some x ∧ P x

/-- `f` applied to the fields of variant `i`. -/
def mapVariant (f : Val → Val) (i : Nat) : Val → Val
  | .variant j fs => .variant j (if j = i then f fs else fs)
  | v => v

def AtVariant (P : Val → Prop) (i : Nat) (v : Val) : Prop := ∃ j fs, v = .variant j fs ∧ (j = i → P fs)

end Val

/-- The scope behind a field, seen from the scope in which `f` has still to be applied to the field. -/
def seenThrough (f : Val → Val) (k : Nat) (env : Env) : Env :=
  { env with vars := env.vars.take k ++ ((env.vars.drop k).take 1).map f ++ env.vars.drop (k + 1) }

/-- A field in the middle of others, which see it through `f`. -/
def around (pre : Fields) (a : Attrs) (t : Ty) (post : Fields) (f : Val → Val) : Fields :=
  (pre.under sameScope (Val.mapAt f pre.arity) 0).append (.cons a t (post.under (seenThrough f) (Val.mapAt f pre.arity) 0))

/-- The attributes `a` of a field mean what `b` do of the field with `f` applied. Only the attributes that look at the
value are different. -/
structure Attrs.Through (P : Val → Prop) (f : Val → Val) (a b : Attrs) : Prop where
  seek : a.seek = b.seek
  magic : a.magic = b.magic
  padBefore : a.padBefore = b.padBefore
  padOrder : a.padOrder = b.padOrder
  usesOffset : a.usesOffset = b.usesOffset
  skip : a.skip = b.skip
  cond : a.cond = b.cond
  padAfter : a.padAfter = b.padAfter.map fun p env => p (seenThrough f 0 env)
  default : ∀ env, a.isRead env = false → b.default env = f (a.default env) ∧ P (a.default env)
  assert : ∀ env v, P v → a.assert env v = b.assert env (f v)
  assertEq : ∀ env v, P v → (a.assertEq env = none ∨ a.assertEq env = some v ↔
    b.assertEq env = none ∨ b.assertEq env = some (f v))
  map : (∀ env v, a.map env v = .ok v) ∧ ∀ env v, b.map env v = .ok v
  unmap : (∀ env v, a.unmap env v = v) ∧ ∀ env v, b.unmap env v = v

/-- The limit of a list, seen through `f`. -/
def LimitE.through (f : Val → Val) : LimitE → LimitE
  | .until p => .until fun env seen => p env (seen.map f)
  | l => l

/-- The variants with other fields in variant `i`. -/
def Variants.withFields (gs : Fields) : Nat → Variants → Variants
  | _, .nil => .nil
  | 0, .cons a _ rest => .cons a gs rest
  | i + 1, .cons a fs rest => .cons a fs (rest.withFields gs i)

/-- Variant `i` has these fields, and its first field does not store the id. -/
def Variants.HasFields (fs : Fields) : Nat → Variants → Prop
  | _, .nil => False
  | 0, .cons a gs _ => gs = fs ∧ a.idPat = false
  | i + 1, .cons _ _ rest => rest.HasFields fs i

/-! ## Meaning the same -/

/-- `u` is another way to write `t`: its values are those of `t` with `f` applied. Reading either uses the same bits,
fails with the same error and leaves the reader in the same state; writing a value and the one it corresponds to is
the same. -/
structure Ty.Same (m : Machine) (t u : Ty) (P : Val → Prop) (f : Val → Val) : Prop where
  read : ∀ env, u.read m env = (do let v ← t.read m env; pure (f v))
  write : ∀ env v, P v → u.write m env (f v) = t.write m env v
  values : ∀ env r v r', t.read m env r = (.ok v, r') → P v

/-- The same for the fields of a struct or variant, of which none has been read. -/
structure Fields.Same (m : Machine) (fs gs : Fields) (P : Val → Prop) (f : Val → Val) : Prop where
  read : ∀ env, env.off = 0 → gs.read m env = (do let v ← fs.read m env; pure (f v))
  write : ∀ env v, env.off = 0 → P v → gs.write m env (f v) (f v) = fs.write m env v v
  values : ∀ env r v r', fs.read m env r = (.ok v, r') → P v

/-- Fields that mean the same wherever they stand. -/
structure Fields.Alike (m : Machine) (fs gs : Fields) : Prop where
  read : ∀ env, gs.read m env = fs.read m env
  write : ∀ env all v, Val.IsListOf fs.arity v → gs.write m env all v = fs.write m env all v
  arity : gs.arity = fs.arity

/-! ## Particular definitions -/

/-- The scope of a struct that is passed `args`. -/
def passed (args : Env → List Val) (env : Env) : Env := { ctx := args env }

/-- The scope of a field that looks at the context only. -/
def onlyCtx (env : Env) : Env := { ctx := env.ctx }

/-- `n` fields of the same type. -/
def Fields.copies (t : Ty) : Nat → Fields
  | 0 => .nil
  | n + 1 => .cons {} t (copies t n)

/-- The lists in a list, one after the other. -/
def Val.concat (v : Val) : Val := ofList (v.elems.flatMap Val.elems)

/-- The value with `x` as element `i`. -/
def Val.insertAt (x : Val) : Nat → Val → Val
  | 0, v => .cons x v
  | i + 1, .cons y ys => .cons y (insertAt x i ys)
  | _, v => v

/-- A list of at least `n` elements. -/
def Val.AtLeast : Nat → Val → Prop
  | 0, _ => True
  | n + 1, v => ∃ x xs, v = .cons x xs ∧ AtLeast n xs

/-- The scope of a type that is passed one argument more than it uses. -/
def withoutFirst (env : Env) : Env := { env with ctx := env.ctx.tail }

def Variants.moved (φ : Env → Env) : Variants → Variants
  | .nil => .nil
  | .cons a fs rest =>
    .cons { a with pat := fun env => a.pat (φ env) } (fs.under (fun _ => φ) id 0) (rest.moved φ)

/-- No variant has an `id_pat`. -/
def Variants.noIdPat : Variants → Bool
  | .nil => true
  | .cons a _ rest => !a.idPat && rest.noIdPat

/-- The id that is written for variant `i`. -/
def Variants.idOf : Nat → Variants → Option Val
  | _, .nil => none
  | 0, .cons a _ _ => a.id
  | i + 1, .cons _ _ rest => rest.idOf i

/-- The enum with the id in front of it as a field: the enum gets it through the context. -/
def idInFront (args : Env → List Val) (magic : List Byte) (size : Option Nat) (c : Env → Codec)
    (store : Nat → Env → Val → M Writer Unit) (vs : Variants) : Ty :=
  .struct args none magic (.cons {} (.prim size c) (.cons {}
    (.enum (fun env => env.vars.headD .none :: env.ctx) [] (.ctx fun env => env.ctx.headD .none) store
      (vs.moved withoutFirst)) .nil))

/-- The second element. -/
def Val.second : Val → Val
  | .cons _ (.cons y _) => y
  | v => v

/-! ## Sizes -/

/-- Every successful run adds `k` to the number of bits read. -/
def Counts {α : Type} (k : Nat) (f : M Reader α) : Prop := ∀ r v r', f r = (.ok v, r') → r'.bitsRead = r.bitsRead + k

mutual

/-- A type of `k` bits: integers, arrays, tuples, and structs of such fields without attributes. -/
def Ty.Takes : Nat → Ty → Prop
  | k, .prim _ c => ∀ env, Counts k (c env).read
  | k, .array n t => ∃ j, t.Takes j ∧ k = n * j
  | k, .pair a b => ∃ i j, a.Takes i ∧ b.Takes j ∧ k = i + j
  | k, .struct _ seek magic fs => seek = none ∧ magic = [] ∧ fs.Takes k
  | _, .option _ => False
  | _, .vec _ _ _ => False
  | _, .bytes _ _ => False
  | _, .enum _ _ _ _ _ => False

def Fields.Takes : Nat → Fields → Prop
  | k, .nil => k = 0
  | k, .cons a t rest => a.seek = none ∧ a.magic = [] ∧ a.padBefore = none ∧ a.padAfter = none ∧ a.skip = none ∧
      a.cond = none ∧ ∃ i j, t.Takes i ∧ rest.Takes j ∧ k = i + j
  | k, .temp a t _ rest => a.seek = none ∧ a.magic = [] ∧ a.padBefore = none ∧ a.padAfter = none ∧ a.skip = none ∧
      a.cond = none ∧ ∃ i j, t.Takes i ∧ rest.Takes j ∧ k = i + j

end

/-- The paddings are constants. -/
def Fields.ConstPads : Fields → Prop
  | .nil => True
  | .cons a _ rest => (∀ p, a.padBefore = some p → ∀ env, p env = p {}) ∧ (∀ p, a.padAfter = some p → ∀ env, p env = p {}) ∧
      rest.ConstPads
  | .temp _ _ _ rest => rest.ConstPads

/-- What is made of a value if there is one. -/
def Res.map {α β : Type} (f : α → β) : Res α → Res β
  | .ok v => .ok (f v)
  | .err e => .err e
  | .panic => .panic

end Deku
