import Verif.Spec.Io
import Verif.Spec.Int
import Verif.Model.Core
import Verif.Model.Toplevel

/-!
# Specification vocabulary: what becomes of the errors of a stream
-/

namespace Deku

/-- The error in the answer to a call. -/
def ReadCall.failure : (c : ReadCall) → c.Answer → Option IoKind
  | .readExact _, .error e => some e
  | .readExact _, .ok _ => none
  | .seek _, .error e => some e
  | .seek _, .ok _ => none
  | .position, .error e => some e
  | .position, .ok _ => none

/-- The calls that a program makes on the stream `s`, in order: for each of them the error it was
answered with, if any. -/
def Talk.log {α S : Type} (impl : Impl ReadCall ReadCall.Answer S) : Talk ReadCall ReadCall.Answer α → S →
    List (Option IoKind)
  | .done _, _ => []
  | .call c k, s => c.failure (impl s c).1 :: (k (impl s c).1).log impl (impl s c).2

/-- How the error `e` of a stream is reported: as it is, and the end of the stream as `Incomplete` if it
was met while reading. -/
def Reported {α : Type} (e : IoKind) (x : Res α) : Prop :=
  x = .err (.io e) ∨ e = .unexpectedEof ∧ ∃ n, x = .err (.incomplete n)

/-- All calls succeeded, or the last one, and only that one, failed and its error is the result. -/
def Told {α : Type} (log : List (Option IoKind)) (x : Res α) : Prop :=
  (∀ a ∈ log, a = none) ∨ ∃ l e, log = l ++ [some e] ∧ (∀ a ∈ l, a = none) ∧ Reported e x

/-! ### Definitions in whole bytes that do not look for the end of the input -/

def Leaf.inBytes : Leaf → Bool
  | .uint _ c => !c.isBits
  | .sint _ c => !c.isBits
  | .nonzero _ c => !c.isBits
  | .nonzeroSigned _ c => !c.isBits
  | .bool c => !c.isBits
  | .cstring => true
  | .cstringSized _ => true
  | .unit => true

def DAttrs.inBytes (a : DAttrs) : Bool :=
  a.padBefore.all (fun n => n % 8 == 0) && a.padAfter.all (fun n => n % 8 == 0)

def DId.inBytes : DId → Bool
  | .typed _ _ ctx _ => !ctx.isBits
  | .arg _ => true

mutual

/-- No field, id or padding is given in bits, and there is no `read_all`. -/
def Def.inBytes : Def → Bool
  | .leaf _ l => l.inBytes
  | .option t => t.inBytes
  | .array _ t => t.inBytes
  | .pair a b => a.inBytes && b.inBytes
  | .vec _ l t => decide (l ≠ .all) && t.inBytes
  | .bytes _ _ => true
  | .struct _ _ fs => fs.inBytes
  | .enum _ _ id vs => id.inBytes && vs.inBytes

def DFields.inBytes : DFields → Bool
  | .nil => true
  | .cons a t rest => a.inBytes && t.inBytes && rest.inBytes
  | .temp a t _ rest => a.inBytes && t.inBytes && rest.inBytes

def DVariants.inBytes : DVariants → Bool
  | .nil => true
  | .cons _ fs rest => fs.inBytes && rest.inBytes

end

end Deku
