import Verif.Model.Release

/-!
# What a release build is compared with
-/

namespace Deku

/-- `g` does what `f` does wherever `f` does not panic: the same result and the same state. -/
def M.Follows {σ α : Type} (f g : M σ α) : Prop := ∀ s, (f s).1 ≠ .panic → g s = f s

def Codec.Follows (c c' : Codec) : Prop := M.Follows c.read c'.read ∧ ∀ v, M.Follows (c.write v) (c'.write v)

def IdSrc.Follows : IdSrc → IdSrc → Prop
  | .ctx e, .ctx e' => e' = e
  | .typed n c, .typed n' c' => n' = n ∧ ∀ env, (c env).Follows (c' env)
  | _, _ => False

mutual

/-- The same definition, with leaves that do the same wherever those of the first do not panic. -/
def Ty.Follows : Ty → Ty → Prop
  | .prim n c, t' => ∃ n' c', t' = .prim n' c' ∧ ∀ env, (c env).Follows (c' env)
  | .option t, t' => ∃ u, t' = .option u ∧ t.Follows u
  | .array n t, t' => ∃ u, t' = .array n u ∧ t.Follows u
  | .pair a b, t' => ∃ u v, t' = .pair u v ∧ a.Follows u ∧ b.Follows v
  | .vec n l t, t' => ∃ u, t' = .vec n l u ∧ t.Follows u
  | .bytes n ctx, t' => t' = .bytes n ctx
  | .struct args seek magic fs, t' => ∃ gs, t' = .struct args seek magic gs ∧ fs.Follows gs
  | .enum args magic id store vs, t' =>
    ∃ id' store' ws, t' = .enum args magic id' store' ws ∧ id.Follows id' ∧
      (∀ i env v, M.Follows (store i env v) (store' i env v)) ∧ vs.Follows ws

def Fields.Follows : Fields → Fields → Prop
  | .nil, gs => gs = .nil
  | .cons a t rest, gs => ∃ u gs', gs = .cons a u gs' ∧ t.Follows u ∧ rest.Follows gs'
  | .temp a t value rest, gs => ∃ u gs', gs = .temp a u value gs' ∧ t.Follows u ∧ rest.Follows gs'

def Variants.Follows : Variants → Variants → Prop
  | .nil, ws => ws = .nil
  | .cons a fs rest, ws => ∃ gs ws', ws = .cons a gs ws' ∧ fs.Follows gs ∧ rest.Follows ws'

end

end Deku
