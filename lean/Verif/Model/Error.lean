/-!
# Errors and the computation type

Models `src/error.rs`. Message texts are dropped, the kind of error is kept.
-/

namespace Deku

/-- `std::io::ErrorKind`: the kinds deku itself distinguishes or produces, and all others. -/
inductive IoKind
  | unexpectedEof
  | invalidInput
  | writeZero
  | other (code : Nat)
  deriving DecidableEq, Repr

/-- `DekuError` (src/error.rs:40-54), without message texts.
`incomplete n` is `Incomplete(NeedSize::new(n))` (src/error.rs:8-31). -/
inductive DekuError
  | incomplete (bits : Nat)
  | parse
  | invalidParam
  | assertion
  | idVariantNotFound
  | io (k : IoKind)
  deriving DecidableEq, Repr

/-- `NeedSize::bit_size` (src/error.rs:21-24). -/
def needBitSize (bits : Nat) : Nat := bits

/-- `NeedSize::byte_size` (src/error.rs:27-30): `self.bits.div_ceil(8)`. -/
def needByteSize (bits : Nat) : Nat := (bits + 7) / 8

/-- Outcome of a Rust call returning `Result<α, DekuError>`: it may also panic. -/
inductive Res (α : Type)
  | ok (a : α)
  | err (e : DekuError)
  | panic
  deriving DecidableEq, Repr

/-- A stateful fallible computation. The state is kept when the call fails, so what a failing call
leaves behind is visible. -/
def M (σ α : Type) : Type := σ → Res α × σ

namespace M

variable {σ α β : Type}

def pure (a : α) : M σ α := fun s => (.ok a, s)

/-- Rust's `?`: continue on `Ok`, propagate errors and panics. -/
def bind (x : M σ α) (f : α → M σ β) : M σ β := fun s =>
  match x s with
  | (.ok a, s') => f a s'
  | (.err e, s') => (.err e, s')
  | (.panic, s') => (.panic, s')

instance : Monad (M σ) where
  pure := pure
  bind := bind

/-- `Err(e)` / `return Err(e)`. -/
def throw (e : DekuError) : M σ α := fun s => (.err e, s)

/-- A Rust panic. -/
def panic : M σ α := fun s => (.panic, s)

/-- `assert!(c)` and, since a debug build is modelled, `debug_assert!(c)`. -/
def assert (c : Bool) : M σ Unit := if c then pure () else panic

def get : M σ σ := fun s => (.ok s, s)

def modify (f : σ → σ) : M σ Unit := fun s => (.ok (), f s)

end M

end Deku
