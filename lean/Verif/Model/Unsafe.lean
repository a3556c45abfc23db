import Verif.Model.Containers

/-!
# The unsafe code of array reads (src/impls/slice.rs:10-46)

`Coll.arrayRead` models what the reader of `[T; N]` returns. Here the same function is transcribed with the memory
it works on: an array of `MaybeUninit<T>`, whose slots are initialised one by one and dropped by hand when an
element fails. Undefined behaviour is an outcome.
-/

namespace Deku.Unsafe

/-- A slot of the array: `moved` is what is left of a value that was dropped in place or moved out. -/
inductive Slot (α : Type)
  | uninit
  | init (a : α)
  | moved
  deriving DecidableEq, Repr

/-- The array; the values dropped so far, in order; the values overwritten without having been dropped. -/
structure Mem (α : Type) where
  slots : List (Slot α)
  dropped : List α := []
  leaked : List α := []
  deriving DecidableEq, Repr

/-- The outcomes of the reader; `ub` is undefined behaviour. -/
inductive Out (α : Type)
  | ok (vs : List α)
  | err (e : DekuError)
  | panic
  | ub
  deriving DecidableEq, Repr

variable {α : Type}

/-- `[const { MaybeUninit::uninit() }; N]` (src/impls/slice.rs:20). -/
def Mem.new (n : Nat) : Mem α := { slots := List.replicate n .uninit }

/-- `MaybeUninit::write` of slot `i` (src/impls/slice.rs:24): it overwrites without dropping. An index out of bounds
would be undefined behaviour; `iter_mut` gives none. -/
def Mem.write (i : Nat) (a : α) (m : Mem α) : Option (Mem α) :=
  match m.slots[i]? with
  | some (.init b) => some { m with slots := m.slots.set i (.init a), leaked := m.leaked ++ [b] }
  | some _ => some { m with slots := m.slots.set i (.init a) }
  | none => none

/-- `assume_init_drop` of slot `i` (src/impls/slice.rs:30-32): undefined behaviour unless it holds a value. -/
def Mem.dropAt (i : Nat) (m : Mem α) : Option (Mem α) :=
  match m.slots[i]? with
  | some (.init a) => some { m with slots := m.slots.set i .moved, dropped := m.dropped ++ [a] }
  | _ => none

/-- `for item in &mut array[0..n]` (src/impls/slice.rs:28-33): the slots from `i` on, `k` of them. -/
def Mem.dropRange (i : Nat) : Nat → Mem α → Option (Mem α)
  | 0, m => some m
  | k + 1, m =>
    match m.dropAt i with
    | some m' => m'.dropRange (i + 1) k
    | none => none

/-- The values of slots that all hold one. -/
def values : List (Slot α) → Option (List α)
  | [] => some []
  | .init a :: l => (values l).map (a :: ·)
  | _ :: _ => none

/-- `(&raw const array).cast::<[T; N]>().read()` (src/impls/slice.rs:41-44): undefined behaviour unless all slots hold
values; they are moved out, and `MaybeUninit` drops nothing when the array goes out of scope. -/
def Mem.take (m : Mem α) : Option (List α × Mem α) :=
  (values m.slots).map fun vs => (vs, { m with slots := m.slots.map fun _ => .moved })

/-- The loop (src/impls/slice.rs:21-39) from slot `i` on with `k` slots to go, and what follows it. -/
def fill (read : M Reader α) (i : Nat) : Nat → Mem α → Reader → Out α × Mem α × Reader
  | 0, m, r =>
    match m.take with
    | some (vs, m') => (.ok vs, m', r)
    | none => (.ub, m, r)
  | k + 1, m, r =>
    match read r with
    | (.ok a, r') =>
      match m.write i a with
      | some m' => fill read (i + 1) k m' r'
      | none => (.ub, m, r')
    | (.err e, r') =>
      match m.dropRange 0 i with
      | some m' => (.err e, m', r')
      | none => (.ub, m, r')
    | (.panic, r') => (.panic, m, r')

/-- `DekuReader<Ctx> for [T; N]` (src/impls/slice.rs:10-46). -/
def arrayRead (read : M Reader α) (n : Nat) (r : Reader) : Out α × Mem α × Reader := fill read 0 n (Mem.new n) r

end Deku.Unsafe
