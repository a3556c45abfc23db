import Verif.Model.Derive

/-!
# Maps and sets in fields

`HashMap<K, V>` and `HashSet<T>` as types of fields. A map or set of Rust has no order of its own, and
two of them are equal if they have the same entries. So its value is the list of its entries in an order
that depends on nothing but the entries: they are sorted by a code. The order in which the iterator
goes through them depends on the hasher and on the history of the map; it is a parameter here.
-/

namespace Deku

open Coll

namespace Val

/-- A list of numbers that determines the value. -/
def code : Val → List Nat
  | .num n => [0, if n < 0 then 1 else 0, n.natAbs]
  | .none => [1]
  | .some v => 2 :: v.code
  | .nil => [3]
  | .cons v vs => 4 :: (v.code ++ vs.code)
  | .variant i fs => 5 :: i :: fs.code

end Val

/-- The order of codes. -/
def codeLe : List Nat → List Nat → Bool
  | [], _ => true
  | _ :: _, [] => false
  | a :: as, b :: bs => decide (a < b) || (a == b && codeLe as bs)

def Val.le (a b : Val) : Bool := codeLe a.code b.code

/-- Insertion into a sorted list. -/
def sortIn (x : Val) : List Val → List Val
  | [] => [x]
  | y :: l => if x.le y then x :: y :: l else y :: sortIn x l

def sortVals : List Val → List Val
  | [] => []
  | x :: l => sortIn x (sortVals l)

/-- The entry of a map as a value: the tuple `(K, V)`. -/
def pairVal (e : Val × Val) : Val := .cons e.1 (.cons e.2 .nil)

def Val.asPair : Val → Val × Val
  | .cons k (.cons v .nil) => (k, v)
  | _ => (.nil, .nil)

/-- The value of a map with these entries. -/
def mapVal (m : List (Val × Val)) : Val := .ofList (sortVals (m.map pairVal))

/-- The value of a set with these elements. -/
def setVal (s : List Val) : Val := .ofList (sortVals s)

/-- The entries. -/
def Val.entries (v : Val) : List (Val × Val) := v.elems.map Val.asPair

/-- It is the value of a map. -/
def Val.isMap (v : Val) : Bool := decide (mapVal v.entries = v) && decide ((v.entries.map (·.1)).Nodup)

/-- It is the value of a set. -/
def Val.isSet (v : Val) : Bool := decide (setVal v.elems = v) && decide v.elems.Nodup

/-- A limit on values `h x`, for `x`. -/
def Limit.comap {α β σ : Type} (h : α → β) : Limit β σ → Limit α σ
  | .count n => .count n
  | .until pred init => .until (fun v st => pred (h v) st) init
  | .bytes n => .bytes n
  | .bits n => .bits n
  | .end => .end

/-- `HashMap<K, V, S>` in a field with limit `l` (src/impls/hashmap.rs:68-176, 229-238; the code emitted for
the limit is that of a `Vec`, deku_read.rs:836-918). `iter` is the order in which the iterator goes through the
entries. -/
def mapCodec (m : Machine) (l : LimitE) (k v : Ty) (iter : List (Val × Val) → List (Val × Val)) (env : Env) : Codec where
  read := do
    let lim ← l.eval env
    let es ← mapRead m.mem (pairRead (k.read m env) (v.read m env)) (lim.comap pairVal)
    pure (mapVal es)
  write x := if x.isMap then mapWrite (k.write m env) (v.write m env) (iter x.entries) else M.panic

/-- `HashSet<T, S>` (src/impls/hashset.rs:67-162, 202-211). -/
def setCodec (m : Machine) (l : LimitE) (t : Ty) (iter : List Val → List Val) (env : Env) : Codec where
  read := do
    let lim ← l.eval env
    let s ← setRead m.mem (t.read m env) lim
    pure (setVal s)
  write x := if x.isSet then writeAll (t.write m env) (iter x.elems) else M.panic

end Deku
