import Verif.Model.Primitive

/-!
# Collections and wrappers (src/impls)

Element types are given by their `from_reader_with_ctx` (`read`), their `to_writer` (`write`), with
the context argument already supplied, and by `size`, the value of `mem::size_of::<T>()`.

`mem` is the number of elements a collection can hold on the machine at hand: asking for more
capacity panics ("capacity overflow") or aborts, and so does pushing one element more. A loop that
reads elements of zero bits forever therefore ends in a panic in the model.
-/

namespace Deku

variable {α β σ : Type}

/-- `ctx::Limit` (src/ctx.rs:94-111). The predicate of `Until` is a `FnMut`: a state and a function
from the element and the state. -/
inductive Limit (α σ : Type)
  | count (n : Nat)
  | until (pred : α → σ → Bool × σ) (init : σ)
  | bytes (n : Nat)
  | bits (n : Nat)
  | «end»

/-- `usize` arithmetic: a result that does not fit panics. -/
def usize (n : Nat) : M Reader Nat := if n < 2 ^ 64 then pure n else M.panic

namespace Coll

/-- The loop of `reader_vec_with_predicate` (src/impls/vec.rs:72-83). `start` is `start_read`, `pred`
the `FnMut` with its state, `mem` the number of elements that can still be stored. The subtraction
`reader.bits_read - start_read` panics when the element moved the reader back. -/
def vecLoop (read : M Reader α) (pred : Nat → α → σ → Bool × σ) (start : Nat) :
    Nat → σ → M Reader (List α)
  | 0, _ => do
    let _ ← read
    M.panic
  | mem + 1, st => do
    let v ← read
    let r ← M.get
    M.assert (decide (start ≤ r.bitsRead))
    if (pred (r.bitsRead - start) v st).1 then
      pure [v]
    else do
      let vs ← vecLoop read pred start mem (pred (r.bitsRead - start) v st).2
      pure (v :: vs)

/-- `capacity.map_or_else(Vec::new, Vec::with_capacity)` (src/impls/vec.rs:68). -/
def withCapacity (mem : Nat) : Option Nat → M Reader Unit
  | none => pure ()
  | some n => M.assert (decide (n ≤ mem))

/-- `reader_vec_with_predicate` (src/impls/vec.rs:52-84). -/
def vecWithPredicate (mem size : Nat) (capacity : Option Nat) (read : M Reader α)
    (pred : Nat → α → σ → Bool × σ) (init : σ) : M Reader (List α) := do
  if size = 0 then
    pure []
  else do
    withCapacity mem capacity
    let r ← M.get
    vecLoop read pred r.bitsRead mem init

/-- The loop of `reader_vec_to_end` (src/impls/vec.rs:101-107). -/
def vecEndLoop (read : M Reader α) : Nat → M Reader (List α)
  | 0 => do
    if ← Reader.end then pure []
    else do
      let _ ← read
      M.panic
  | mem + 1 => do
    if ← Reader.end then pure []
    else do
      let v ← read
      let vs ← vecEndLoop read mem
      pure (v :: vs)

/-- `reader_vec_to_end` (src/impls/vec.rs:86-110), always called without a capacity. -/
def vecToEnd (mem size : Nat) (read : M Reader α) : M Reader (List α) :=
  if size = 0 then pure [] else vecEndLoop read mem

/-- The counting predicate `move |_, _| { count -= 1; count == 0 }` (src/impls/vec.rs:134-137). The
state is `count`, which is at least 1 whenever it is called. -/
def countPred (_ : Nat) (_ : α) (count : Nat) : Bool × Nat := (count - 1 == 0, count - 1)

/-- The predicate `move |read_bits, _| read_bits == bit_size` (src/impls/vec.rs:154-156). -/
def sizePred (bitSize : Nat) (bits : Nat) (_ : α) (_ : Unit) : Bool × Unit := (bits == bitSize, ())

/-- `DekuReader<(Limit, Ctx)> for Vec<T>` (src/impls/vec.rs:112-176). -/
def vecRead (mem size : Nat) (read : M Reader α) : Limit α σ → M Reader (List α)
  | .count n =>
    if n = 0 then pure [] else vecWithPredicate mem size (some n) read countPred n
  | .until pred init => vecWithPredicate mem size none read (fun _ v st => pred v st) init
  | .bits n =>
    if n = 0 then pure [] else vecWithPredicate mem size none read (sizePred n) ()
  | .bytes n => do
    let n ← usize (n * 8)
    if n = 0 then pure [] else vecWithPredicate mem size none read (sizePred n) ()
  | .end => vecToEnd mem size read

/-- `DekuWriter for Vec<T>`, `[T; N]`, `[T]` and `&[T]`: `for v in self { v.to_writer(..)?; }`
(src/impls/vec.rs:218-227, src/impls/slice.rs:47-95). -/
def writeAll (write : α → M Writer Unit) : List α → M Writer Unit
  | [] => pure ()
  | v :: vs => do
    write v
    writeAll write vs

/-- `DekuReader for [T; N]` (src/impls/slice.rs:9-45). -/
def arrayRead (read : M Reader α) : Nat → M Reader (List α)
  | 0 => pure []
  | n + 1 => do
    let v ← read
    let vs ← arrayRead read n
    pure (v :: vs)

/-- `inner.stream_position()`, `inner.seek(..)` on the source under the reader: errors become
`DekuError::Io` (src/impls/vec.rs:24-33). -/
def srcCall (f : Src → Except IoKind Nat × Src) : M Reader Nat := fun r =>
  match f r.inner with
  | (.ok n, s) => (.ok n, { r with inner := s })
  | (.error e, s) => (.err (.io e), { r with inner := s })

/-- `DekuReader<ReadExact> for Vec<u8>` (src/impls/vec.rs:13-43), the path the derive takes for a
`Vec<u8>` field with a count. `end - pos` is a `u64` subtraction, `exact.0 * 8` a `usize`
multiplication. The check happens before anything is allocated, so `vec![0; n]` is not limited by
`mem`. -/
def readExact (n : Nat) : M Reader (List Byte) := do
  let pos ← srcCall Src.streamPosition
  let stop ← srcCall (fun s => s.seek (.end 0))
  let _ ← srcCall (fun s => s.seek (.start pos))
  M.assert (decide (pos ≤ stop))
  if stop - pos < n then do
    let k ← usize (n * 8)
    M.throw (.incomplete k)
  else
    Reader.readBytes n .lsb0

/-! ## Tuples -/

/-- `DekuReader for (A, B)`; longer tuples are the same code with more elements
(src/impls/tuple.rs:40-56), modelled by nesting. -/
def pairRead (a : M Reader α) (b : M Reader β) : M Reader (α × β) := do
  let x ← a
  let y ← b
  pure (x, y)

/-- `DekuWriter for (A, B)` (src/impls/tuple.rs:58-74). -/
def pairWrite (a : α → M Writer Unit) (b : β → M Writer Unit) (v : α × β) : M Writer Unit := do
  a v.1
  b v.2

/-! ## Wrappers -/

/-- `DekuReader for bool` (src/impls/bool.rs:7-31) on top of `u8`. -/
def boolRead (u8 : M Reader Nat) : M Reader Bool := do
  let v ← u8
  if v = 1 then pure true
  else if v = 0 then pure false
  else M.throw .parse

/-- `DekuWriter for bool` (src/impls/bool.rs:33-48). -/
def boolWrite (u8 : Nat → M Writer Unit) (b : Bool) : M Writer Unit :=
  if b then u8 1 else u8 0

/-- `DekuReader for NonZero…` (src/impls/nonzero.rs:9-24), over the integer type. -/
def nonzeroRead [DecidableEq α] [OfNat α 0] (read : M Reader α) : M Reader α := do
  let v ← read
  if v = 0 then M.throw .parse else pure v

/-- `DekuReader for Option<T>` (src/impls/option.rs:5-13). -/
def optionRead (read : M Reader α) : M Reader (Option α) := do
  let v ← read
  pure (some v)

/-- `DekuWriter for Option<T>` (src/impls/option.rs:15-24). -/
def optionWrite (write : α → M Writer Unit) : Option α → M Writer Unit
  | none => pure ()
  | some v => write v

/-! ## CString -/

/-- `u8::from_reader_with_ctx(reader, ())` as a byte. -/
def u8Read (native : Endian) : M Reader Byte := do
  let v ← Prim.readUnsigned native 1 .unit
  pure (BitVec.ofNat 8 v)

/-- `u8::to_writer` with any context argument. -/
def u8Write (native : Endian) (ctx : IntCtx) (b : Byte) : M Writer Unit :=
  Prim.writeUnsigned native 1 ctx b.toNat

/-- `CString::from_vec_with_nul`: exactly one NUL, at the end. The value is the bytes without it. -/
def fromVecWithNul (bs : List Byte) : Option (List Byte) :=
  match bs.findIdx? (· = 0) with
  | some i => if i + 1 = bs.length then some (bs.take i) else none
  | none => none

/-- `.map_err(|e| DekuError::Parse)?` after `from_vec_with_nul`. -/
def cstringOf (bs : List Byte) : M Reader (List Byte) :=
  match fromVecWithNul bs with
  | some s => pure s
  | none => M.throw .parse

/-- `DekuReader for CString` (src/impls/cstring.rs:25-44). `size_of::<u8>()` is 1. -/
def cstringRead (native : Endian) (mem : Nat) : M Reader (List Byte) := do
  let bs ← vecRead mem 1 (u8Read native) (.until (fun b (_ : Unit) => (b == 0, ())) ())
  cstringOf bs

/-- `DekuReader<ByteSize> for CString` (src/impls/cstring.rs:46-67): the size is used as a count. -/
def cstringReadSized (native : Endian) (mem n : Nat) : M Reader (List Byte) := do
  let bs ← vecRead (σ := Unit) mem 1 (u8Read native) (.count n)
  cstringOf bs

/-- `DekuWriter for CString` (src/impls/cstring.rs:11-23). -/
def cstringWrite (native : Endian) (ctx : IntCtx) (s : List Byte) : M Writer Unit :=
  writeAll (u8Write native ctx) (s ++ [0])

/-! ## Hash maps and sets

A map is the list of its entries, in some order, with distinct keys. -/

/-- `HashMap::insert`: replaces the value of a key that is present. -/
def insert [DecidableEq α] (k : α) (v : β) : List (α × β) → List (α × β)
  | [] => [(k, v)]
  | (k', v') :: m => if k' = k then (k, v) :: m else (k', v') :: insert k v m

/-- The loop of `from_reader_with_ctx_hashmap_with_predicate` (src/impls/hashmap.rs:36-42); `mem`
bounds the number of iterations. -/
def mapLoop [DecidableEq α] (read : M Reader (α × β)) (pred : Nat → α × β → σ → Bool × σ)
    (start : Nat) : Nat → σ → List (α × β) → M Reader (List (α × β))
  | 0, _, _ => do
    let _ ← read
    M.panic
  | mem + 1, st, res => do
    let v ← read
    let r ← M.get
    M.assert (decide (start ≤ r.bitsRead))
    if (pred (r.bitsRead - start) v st).1 then
      pure (insert v.1 v.2 res)
    else
      mapLoop read pred start mem (pred (r.bitsRead - start) v st).2 (insert v.1 v.2 res)

/-- `from_reader_with_ctx_hashmap_with_predicate` (src/impls/hashmap.rs:18-43). There is no special
case for zero-sized entries. -/
def mapWithPredicate [DecidableEq α] (mem : Nat) (capacity : Option Nat) (read : M Reader (α × β))
    (pred : Nat → α × β → σ → Bool × σ) (init : σ) : M Reader (List (α × β)) := do
  withCapacity mem capacity
  let r ← M.get
  mapLoop read pred r.bitsRead mem init []

/-- `from_reader_with_ctx_hashmap_to_end` (src/impls/hashmap.rs:45-66). -/
def mapEndLoop [DecidableEq α] (read : M Reader (α × β)) :
    Nat → List (α × β) → M Reader (List (α × β))
  | 0, res => do
    if ← Reader.end then pure res
    else do
      let _ ← read
      M.panic
  | mem + 1, res => do
    if ← Reader.end then pure res
    else do
      let v ← read
      mapEndLoop read mem (insert v.1 v.2 res)

/-- `DekuReader<(Limit, Ctx)> for HashMap<K, V, S>` (src/impls/hashmap.rs:68-176). -/
def mapRead [DecidableEq α] (mem : Nat) (read : M Reader (α × β)) :
    Limit (α × β) σ → M Reader (List (α × β))
  | .count n => if n = 0 then pure [] else mapWithPredicate mem (some n) read countPred n
  | .until pred init => mapWithPredicate mem none read (fun _ v st => pred v st) init
  | .bits n => if n = 0 then pure [] else mapWithPredicate mem none read (sizePred n) ()
  | .bytes n => do
    let n ← usize (n * 8)
    if n = 0 then pure [] else mapWithPredicate mem none read (sizePred n) ()
  | .end => mapEndLoop read mem []

/-- `HashSet::insert`: an element that is present is kept. -/
def setInsert [DecidableEq α] (v : α) (s : List α) : List α := if v ∈ s then s else s ++ [v]

/-- The loop of `from_reader_with_ctx_hashset_with_predicate` (src/impls/hashset.rs:35-39). -/
def setLoop [DecidableEq α] (read : M Reader α) (pred : Nat → α → σ → Bool × σ)
    (start : Nat) : Nat → σ → List α → M Reader (List α)
  | 0, _, _ => do
    let _ ← read
    M.panic
  | mem + 1, st, res => do
    let v ← read
    let r ← M.get
    M.assert (decide (start ≤ r.bitsRead))
    if (pred (r.bitsRead - start) v st).1 then
      pure (setInsert v res)
    else
      setLoop read pred start mem (pred (r.bitsRead - start) v st).2 (setInsert v res)

/-- `from_reader_with_ctx_hashset_with_predicate` (src/impls/hashset.rs:18-42). -/
def setWithPredicate [DecidableEq α] (mem : Nat) (capacity : Option Nat) (read : M Reader α)
    (pred : Nat → α → σ → Bool × σ) (init : σ) : M Reader (List α) := do
  withCapacity mem capacity
  let r ← M.get
  setLoop read pred r.bitsRead mem init []

/-- `from_reader_with_ctx_hashset_to_end` (src/impls/hashset.rs:44-65). -/
def setEndLoop [DecidableEq α] (read : M Reader α) : Nat → List α → M Reader (List α)
  | 0, res => do
    if ← Reader.end then pure res
    else do
      let _ ← read
      M.panic
  | mem + 1, res => do
    if ← Reader.end then pure res
    else do
      let v ← read
      setEndLoop read mem (setInsert v res)

/-- `DekuReader<(Limit, Ctx)> for HashSet<T, S>` (src/impls/hashset.rs:67-162). -/
def setRead [DecidableEq α] (mem : Nat) (read : M Reader α) : Limit α σ → M Reader (List α)
  | .count n => if n = 0 then pure [] else setWithPredicate mem (some n) read countPred n
  | .until pred init => setWithPredicate mem none read (fun _ v st => pred v st) init
  | .bits n => if n = 0 then pure [] else setWithPredicate mem none read (sizePred n) ()
  | .bytes n => do
    let n ← usize (n * 8)
    if n = 0 then pure [] else setWithPredicate mem none read (sizePred n) ()
  | .end => setEndLoop read mem []

/-- `DekuWriter for HashMap<K, V, S>` (src/impls/hashmap.rs:229-238): the entries in iteration order,
each written as the pair `(&K, &V)` with the same context. -/
def mapWrite (key : α → M Writer Unit) (val : β → M Writer Unit) (m : List (α × β)) : M Writer Unit :=
  writeAll (pairWrite key val) m

end Coll

end Deku
