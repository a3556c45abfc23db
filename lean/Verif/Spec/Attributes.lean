import Verif.Spec.Asserts
import Verif.Spec.Format

/-!
# Specification vocabulary: magic and padding
-/

namespace Deku

/-- How reading `magic` from a source with the bits `bits` left fails: at the first byte that differs
with `Parse`, or because the source ends in a byte before any difference with `Incomplete`. -/
def MagicFails (magic : List Byte) (bits : List Bool) (e : DekuError) : Prop :=
  (∃ k c b, magic[k]? = some c ∧ b ≠ c ∧ bytesBits (magic.take k ++ [b]) <+: bits ∧ e = .parse) ∨
  (∃ k n, k < magic.length ∧ bytesBits (magic.take k) <+: bits ∧ bits.length < 8 * (k + 1) ∧
    e = .incomplete n)

/-- The outcome `x` is that of `g` preceded by a magic, from reader `r`: where the source continues
with the magic, this is consumed and `g` follows; elsewhere the outcome is a failure. -/
def MagicThen {α : Type} (magic : List Byte) (x : Res α × Reader) (g : M Reader α) (r : Reader) : Prop :=
  (bytesBits magic <+: r.unread .msb0 →
    ∃ r', Reader.Step .msb0 (8 * magic.length) r r' ∧ x = g r') ∧
  (¬ bytesBits magic <+: r.unread .msb0 →
    ∃ e r', x = (.err e, r') ∧ MagicFails magic (r.unread .msb0) e)

/-- `f` writes `bits` and goes on as `g`. -/
def WritesThen (o : Order) (p : Nat) (bits : List Bool) (f g : M Writer Unit) : Prop :=
  ∀ w, w.At o p → ∃ w', Writer.Wrote o bits w w' ∧ w'.At o (p + bits.length) ∧ f w = g w'

/-- The expression for the size of a padding has the value `n`. -/
def PadIs (pad : Option (Env → Int)) (env : Env) (n : Nat) : Prop :=
  (pad = none ∧ n = 0) ∨ ∃ f, pad = some f ∧ f env = n ∧ n < 2 ^ 64

/-- The field without its assertions and without the padding after it. -/
def Attrs.unchecked (a : Attrs) : Attrs :=
  { a with assert := fun _ _ => true, assertEq := fun _ => none, padAfter := none }

/-- The field without magic and padding. -/
def Attrs.bare (a : Attrs) : Attrs := { a with magic := [], padBefore := none, padAfter := none }

end Deku
