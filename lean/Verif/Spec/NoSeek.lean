import Verif.Model.Derive

/-!
# Specification vocabulary: streams that cannot seek
-/

namespace Deku

/-- `NoSeek::new(s)`, for a source at its start. -/
def Src.noSeek (s : Src) : Src := { s with faults := { s.faults with seekable := false } }

/-- `NoSeek::new(s)`, for a sink at its start. -/
def Sink.noSeek (s : Sink) : Sink := { s with faults := { s.faults with seekable := false } }

/-- The same reader, on another source. -/
def Reader.onSrc (ψ : Src → Src) (r : Reader) : Reader := { r with inner := ψ r.inner }

/-- The same writer, on another sink. -/
def Writer.onSink (ψ : Sink → Sink) (w : Writer) : Writer := { w with inner := ψ w.inner }

/-- The computation has the same result and leaves the same state behind after the change `φ`. -/
def Commutes {σ α : Type} (φ : σ → σ) (f : M σ α) : Prop := ∀ s, f (φ s) = ((f s).1, φ (f s).2)

/-- Padding of less than a byte. -/
def ShortPad (pad : Option (Env → Int)) : Prop := ∀ f, pad = some f → ∀ env, f env < 8

/-- A field without `seek_*` and with at most 7 bits of padding on each side. -/
def Attrs.Pipes (a : Attrs) : Prop := a.seek = none ∧ ShortPad a.padBefore ∧ ShortPad a.padAfter

mutual

/-- A definition that is read without seeking the reader: no `seek_*`, no padding of a byte or more.
`Vec<u8>` with a count, which seeks the source, is allowed if `lists`. The leaves do not notice the
change `ψ` of the source. -/
def Ty.Pipes (ψ : Src → Src) (lists : Bool) : Ty → Prop
  | .prim _ c => ∀ env, Commutes (Reader.onSrc ψ) (c env).read
  | .option t => t.Pipes ψ lists
  | .array _ t => t.Pipes ψ lists
  | .pair a b => a.Pipes ψ lists ∧ b.Pipes ψ lists
  | .vec _ _ t => t.Pipes ψ lists
  | .bytes _ _ => lists = true
  | .struct _ seek _ fs => seek = none ∧ fs.Pipes ψ lists
  | .enum _ _ id _ vs =>
    (∀ size c, id = .typed size c → ∀ env, Commutes (Reader.onSrc ψ) (c env).read) ∧ vs.Pipes ψ lists

def Fields.Pipes (ψ : Src → Src) (lists : Bool) : Fields → Prop
  | .nil => True
  | .cons a t rest => a.Pipes ∧ t.Pipes ψ lists ∧ rest.Pipes ψ lists
  | .temp a t _ rest => a.Pipes ∧ t.Pipes ψ lists ∧ rest.Pipes ψ lists

def Variants.Pipes (ψ : Src → Src) (lists : Bool) : Variants → Prop
  | .nil => True
  | .cons _ fs rest => fs.Pipes ψ lists ∧ rest.Pipes ψ lists

end

mutual

/-- A definition without `seek_*` attributes, whose leaves do not notice the change `ψ` of the sink. -/
def Ty.Unsought (ψ : Sink → Sink) : Ty → Prop
  | .prim _ c => ∀ env v, Commutes (Writer.onSink ψ) ((c env).write v)
  | .option t => t.Unsought ψ
  | .array _ t => t.Unsought ψ
  | .pair a b => a.Unsought ψ ∧ b.Unsought ψ
  | .vec _ _ t => t.Unsought ψ
  | .bytes _ _ => True
  | .struct _ seek _ fs => seek = none ∧ fs.Unsought ψ
  | .enum _ _ id store vs =>
    (∀ size c, id = .typed size c → ∀ env v, Commutes (Writer.onSink ψ) ((c env).write v)) ∧
    (∀ i env v, Commutes (Writer.onSink ψ) (store i env v)) ∧ vs.Unsought ψ

def Fields.Unsought (ψ : Sink → Sink) : Fields → Prop
  | .nil => True
  | .cons a t rest => a.seek = none ∧ t.Unsought ψ ∧ rest.Unsought ψ
  | .temp a t _ rest => a.seek = none ∧ t.Unsought ψ ∧ rest.Unsought ψ

def Variants.Unsought (ψ : Sink → Sink) : Variants → Prop
  | .nil => True
  | .cons _ fs rest => fs.Unsought ψ ∧ rest.Unsought ψ

end

end Deku
