import Verif.Spec.Size

/-!
# Specification vocabulary: observing `deku::bit_offset`

A field that shows the offset its attribute expressions see, put between any other fields.
-/

namespace Deku

/-- A `reader` that returns `deku::bit_offset`, and a `writer` that accepts only this number:
```
#[deku(reader = "Ok(deku::bit_offset)",
       writer = "if *x == deku::bit_offset { Ok(()) } else { Err(DekuError::Assertion(..)) }")]
x: usize,
``` -/
def probe (env : Env) : Codec where
  read := pure (.num env.off)
  write v := if v = .num env.off then pure () else M.throw .assertion

/-- The probe in front of other fields. -/
def probing (tl : Fields) : Fields := .cons { usesOffset := true } (.prim none probe) tl

/-- One list of fields after the other. -/
def Fields.append : Fields → Fields → Fields
  | .nil, gs => gs
  | .cons a t fs, gs => .cons a t (fs.append gs)
  | .temp a t f fs, gs => .temp a t f (fs.append gs)

/-- The values of the fields. -/
def Val.append : Val → Val → Val
  | .cons v vs, ws => .cons v (vs.append ws)
  | _, ws => ws

/-- A writer that has only been used for writing, from the start of a sink that never fails. -/
structure Writer.Tracked (w : Writer) : Prop where
  wf : w.WF
  healthy : w.Healthy
  counted : w.bitsWritten = 8 * w.inner.pos

/-- Writing does not lose track. -/
def Tracks (g : M Writer Unit) : Prop := ∀ w u w', w.Tracked → g w = (.ok u, w') → w'.Tracked

mutual

/-- The definition has no seeks, and its leaves do not lose track. -/
def Ty.Tracks : Ty → Prop
  | .prim _ c => ∀ env v, Deku.Tracks ((c env).write v)
  | .option t => t.Tracks
  | .array _ t => t.Tracks
  | .pair a b => a.Tracks ∧ b.Tracks
  | .vec _ _ t => t.Tracks
  | .bytes _ ctx => ∀ env, ctx env = .unit
  | .struct _ sk _ fs => sk = none ∧ fs.Tracks
  | .enum _ _ id store vs =>
    (match id with | .ctx _ => True | .typed _ c => ∀ env v, Deku.Tracks ((c env).write v)) ∧
    (∀ i env v, Deku.Tracks (store i env v)) ∧ vs.Tracks

def Fields.Tracks : Fields → Prop
  | .nil => True
  | .cons a t tl => a.seek = none ∧ t.Tracks ∧ tl.Tracks
  | .temp a t _ tl => a.seek = none ∧ t.Tracks ∧ tl.Tracks

def Variants.Tracks : Variants → Prop
  | .nil => True
  | .cons _ fs tl => fs.Tracks ∧ tl.Tracks

end

end Deku
