import Verif.Spec.Io

/-!
# Specification vocabulary: sending blocks of bytes
-/

namespace Deku

/-- Hand the blocks to the sink, one after the other, until one fails: its error, if any, and the sink
afterwards. -/
def sendAll {S : Type} (impl : Impl WriteCall WriteAnswer S) : List (List Byte) → S → Option IoKind × S
  | [], s => (none, s)
  | b :: bs, s =>
    match impl s b with
    | (.ok _, s') => sendAll impl bs s'
    | (.error e, s') => (some e, s')

/-- The result of a program that has sent its blocks and would return `x`. -/
def Sending.result {α : Type} (e : Option IoKind) (x : Res α) : Res α :=
  match e with
  | none => x
  | some e => .err (.io e)

/-- What `to_bytes` returns, if no block fails. -/
def Sending.bytes {α : Type} (bs : List (List Byte)) (x : Res α) : Res (List Byte) :=
  match x with
  | .ok _ => .ok bs.flatten
  | .err e => .err e
  | .panic => .panic

/-- A program that ends with the error of a call that fails, and makes no more calls. -/
def Talk.Straight {α : Type} : Talk WriteCall WriteAnswer (Res α × WriteState) → Prop
  | .done _ => True
  | .call _ k => (∀ e, ∃ h, k (.error e) = .done (.err (.io e), h)) ∧ (k (.ok ())).Straight

end Deku
