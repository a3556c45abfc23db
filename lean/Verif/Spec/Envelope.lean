import Verif.Spec.Receive
import Verif.Model.Envelope

/-!
# What an envelope means

The first `W` bytes are a number; so many bytes behind them are the payload. What is in the payload is asked only when all
of it is there, and has no say in where the envelope ends.
-/

namespace Deku.Envelope

variable {α β : Type}

/-- The number in the first `W` bytes. -/
def announced (e : Endian) (W : Nat) (data : List Byte) : Nat := endianNat e (data.take W)

/-- The whole envelope is there. -/
def Complete (e : Endian) (W : Nat) (data : List Byte) : Prop := W ≤ data.length ∧ W + announced e W data ≤ data.length

instance (e : Endian) (W : Nat) (data : List Byte) : Decidable (Complete e W data) := inferInstanceAs (Decidable (_ ∧ _))

/-- The payload. -/
def payload (e : Endian) (W : Nat) (data : List Byte) : List Byte := (data.drop W).take (announced e W data)

/-- What is behind the envelope. -/
def behind (e : Endian) (W : Nat) (data : List Byte) : List Byte := data.drop (W + announced e W data)

/-- The answer of `from_bytes`, given the answer for each payload. -/
def verdict (e : Endian) (W : Nat) (answer : List Byte → Res β) (data : List Byte) : Res ((List Byte × Nat) × β) :=
  if Complete e W data then
    match answer (payload e W data) with
    | .ok v => .ok ((behind e W data, 0), v)
    | .err x => .err x
    | .panic => .panic
  else .err (.incomplete (if data.length < W then 8 * W else 8 * announced e W data))

/-- The bytes of an envelope around these bytes. -/
def sealed (e : Endian) (W : Nat) (bytes : List Byte) : List Byte := endianBytes W e bytes.length ++ bytes

/-- Envelopes around envelopes. -/
def sealedNested (e : Endian) (W : Nat) (bytes : List Byte) : Nat → List Byte
  | 0 => bytes
  | n + 1 => sealed e W (sealedNested e W bytes n)

/-- The answer that is kept. -/
def kept : Except DekuError α → Res α
  | .ok v => .ok v
  | .error x => .err x

/-- The user never says `Incomplete` about a payload. -/
def Decided (judge : Except DekuError α → Except DekuError β) : Prop := ∀ x n, judge x ≠ .error (.incomplete n)

end Deku.Envelope
