import Verif.Model.Release
import Verif.Model.Hash

/-!
# `HashMap`, `HashSet` and `to_bits` in a release build

As in `Model/Release.lean`: the subtraction of the positions and the multiplication of a size in bytes wrap around.
-/

namespace Deku

namespace Rel

section

variable {α β σ : Type}

/-- The loop of `from_reader_with_ctx_hashmap_with_predicate` (src/impls/hashmap.rs:36-42). -/
def mapLoop [DecidableEq α] (read : M Reader (α × β)) (pred : Nat → α × β → σ → Bool × σ)
    (start : Nat) : Nat → σ → List (α × β) → M Reader (List (α × β))
  | 0, _, _ => do
    let _ ← read
    M.panic
  | mem + 1, st, res => do
    let v ← read
    let r ← M.get
    if (pred (bitsSince start r.bitsRead) v st).1 then
      pure (Coll.insert v.1 v.2 res)
    else
      mapLoop read pred start mem (pred (bitsSince start r.bitsRead) v st).2 (Coll.insert v.1 v.2 res)

/-- `from_reader_with_ctx_hashmap_with_predicate` (src/impls/hashmap.rs:18-43). -/
def mapWithPredicate [DecidableEq α] (mem : Nat) (capacity : Option Nat) (read : M Reader (α × β))
    (pred : Nat → α × β → σ → Bool × σ) (init : σ) : M Reader (List (α × β)) := do
  Coll.withCapacity mem capacity
  let r ← M.get
  mapLoop read pred r.bitsRead mem init []

/-- `DekuReader<(Limit, Ctx)> for HashMap<K, V, S>` (src/impls/hashmap.rs:68-176): `size.0 * 8` wraps around. -/
def mapRead [DecidableEq α] (mem : Nat) (read : M Reader (α × β)) :
    Limit (α × β) σ → M Reader (List (α × β))
  | .count n => if n = 0 then pure [] else mapWithPredicate mem (some n) read Coll.countPred n
  | .until pred init => mapWithPredicate mem none read (fun _ v st => pred v st) init
  | .bits n => if n = 0 then pure [] else mapWithPredicate mem none read (Coll.sizePred n) ()
  | .bytes n =>
    if n * 8 % 2 ^ 64 = 0 then pure [] else mapWithPredicate mem none read (Coll.sizePred (n * 8 % 2 ^ 64)) ()
  | .end => Coll.mapEndLoop read mem []

/-- The loop of `from_reader_with_ctx_hashset_with_predicate` (src/impls/hashset.rs:35-39). -/
def setLoop [DecidableEq α] (read : M Reader α) (pred : Nat → α → σ → Bool × σ)
    (start : Nat) : Nat → σ → List α → M Reader (List α)
  | 0, _, _ => do
    let _ ← read
    M.panic
  | mem + 1, st, res => do
    let v ← read
    let r ← M.get
    if (pred (bitsSince start r.bitsRead) v st).1 then
      pure (Coll.setInsert v res)
    else
      setLoop read pred start mem (pred (bitsSince start r.bitsRead) v st).2 (Coll.setInsert v res)

/-- `from_reader_with_ctx_hashset_with_predicate` (src/impls/hashset.rs:18-42). -/
def setWithPredicate [DecidableEq α] (mem : Nat) (capacity : Option Nat) (read : M Reader α)
    (pred : Nat → α → σ → Bool × σ) (init : σ) : M Reader (List α) := do
  Coll.withCapacity mem capacity
  let r ← M.get
  setLoop read pred r.bitsRead mem init []

/-- `DekuReader<(Limit, Ctx)> for HashSet<T, S>` (src/impls/hashset.rs:67-162). -/
def setRead [DecidableEq α] (mem : Nat) (read : M Reader α) : Limit α σ → M Reader (List α)
  | .count n => if n = 0 then pure [] else setWithPredicate mem (some n) read Coll.countPred n
  | .until pred init => setWithPredicate mem none read (fun _ v st => pred v st) init
  | .bits n => if n = 0 then pure [] else setWithPredicate mem none read (Coll.sizePred n) ()
  | .bytes n =>
    if n * 8 % 2 ^ 64 = 0 then pure [] else setWithPredicate mem none read (Coll.sizePred (n * 8 % 2 ^ 64)) ()
  | .end => Coll.setEndLoop read mem []

end

/-- As `mapCodec`: a `HashMap<K, V, S>` in a field (src/impls/hashmap.rs:68-176, 229-238). -/
def mapCodec (m : Machine) (l : LimitE) (k v : Ty) (iter : List (Val × Val) → List (Val × Val)) (env : Env) : Codec where
  read := do
    let lim ← l.eval env
    let es ← mapRead m.mem (Coll.pairRead (read m k env) (read m v env)) (lim.comap pairVal)
    pure (mapVal es)
  write x := if x.isMap then Coll.mapWrite (write m k env) (write m v env) (iter x.entries) else M.panic

/-- As `setCodec`: a `HashSet<T, S>` in a field (src/impls/hashset.rs:67-162, 202-211). -/
def setCodec (m : Machine) (l : LimitE) (t : Ty) (iter : List Val → List Val) (env : Env) : Codec where
  read := do
    let lim ← l.eval env
    let s ← setRead m.mem (read m t env) lim
    pure (setVal s)
  write x := if x.isSet then Coll.writeAll (write m t env) (iter x.elems) else M.panic

/-- `to_bits` (src/lib.rs:768-777). -/
def toBits (write : M Writer Unit) : Res (List Bool) :=
  match write (Writer.new {}) with
  | (.ok _, w) => .ok (bytesBits w.inner.data ++ w.leftover)
  | (.err e, _) => .err e
  | (.panic, _) => .panic

end Rel

end Deku
