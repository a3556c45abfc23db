import Verif.Model.Source
import Verif.Spec.Canon

/-!
# Definitions that grow

A protocol grows by new messages: variants are added at the end of enums, wherever these occur in a definition, and
everything else stays as it is. An enum with a `default` variant already gives a meaning to every id, so nothing is added
to it.
-/

namespace Deku

/-! ## Emitted code -/

mutual

/-- `new` is `old` with variants added. -/
def Ty.Grows : Ty → Ty → Prop
  | .prim size c, new => new = .prim size c
  | .option t, new => ∃ t', new = .option t' ∧ t.Grows t'
  | .array n t, new => ∃ t', new = .array n t' ∧ t.Grows t'
  | .pair a b, new => ∃ a' b', new = .pair a' b' ∧ a.Grows a' ∧ b.Grows b'
  | .vec size l t, new => ∃ t', new = .vec size l t' ∧ t.Grows t'
  | .bytes n ctx, new => new = .bytes n ctx
  | .struct args seek magic fs, new => ∃ fs', new = .struct args seek magic fs' ∧ fs.Grows fs'
  | .enum args magic id store vs, new => ∃ store' vs', new = .enum args magic id store' vs' ∧
      vs.Grows (vs.defaultAt 0 = none) vs' ∧ ∀ i, vs.storesAt i = true → store' i = store i

def Fields.Grows : Fields → Fields → Prop
  | .nil, new => new = .nil
  | .cons a t rest, new => ∃ t' rest', new = .cons a t' rest' ∧ t.Grows t' ∧ rest.Grows rest'
  | .temp a t value rest, new => ∃ t' rest', new = .temp a t' value rest' ∧ t.Grows t' ∧ rest.Grows rest'

/-- `more`: variants may be added at the end. -/
def Variants.Grows (more : Prop) : Variants → Variants → Prop
  | .nil, new => more ∨ new = .nil
  | .cons a fs rest, new => ∃ fs' rest', new = .cons a fs' rest' ∧ fs.Grows fs' ∧ rest.Grows more rest'

end

/-! ## Sources -/

mutual

/-- `new` is `old` with variants added. -/
def STy.Grows : STy → STy → Prop
  | .base b, new => new = .base b
  | .option t, new => ∃ t', new = .option t' ∧ t.Grows t'
  | .array n t, new => ∃ t', new = .array n t' ∧ t.Grows t'
  | .pair a b, new => ∃ a' b', new = .pair a' b' ∧ a.Grows a' ∧ b.Grows b'
  | .vec zst t, new => ∃ t', new = .vec zst t' ∧ t.Grows t'
  | .struct c fs, new => ∃ fs', new = .struct c fs' ∧ fs.Grows fs'
  | .enum c id vs, new => ∃ vs', new = .enum c id vs' ∧ vs.Grows (vs.defaults = 0) vs'

def SFields.Grows : SFields → SFields → Prop
  | .nil, new => new = .nil
  | .cons a t rest, new => ∃ t' rest', new = .cons a t' rest' ∧ t.Grows t' ∧ rest.Grows rest'

/-- `more`: variants may be added at the end. -/
def SVariants.Grows (more : Prop) : SVariants → SVariants → Prop
  | .nil, new => more ∨ new = .nil
  | .cons a fs rest, new => ∃ fs' rest', new = .cons a fs' rest' ∧ fs.Grows fs' ∧ rest.Grows more rest'

end

end Deku
