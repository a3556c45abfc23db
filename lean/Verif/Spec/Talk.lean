import Verif.Model.Derive

/-!
# Specification vocabulary: programs that use a stream only by calling it

A program that reads from a stream of which it knows nothing but the answers to its calls. The same
program can be run on streams that are implemented differently.
-/

namespace Deku

/-- A program that makes calls `c : C`, each of which is answered by an `A c`, and ends with a result. -/
inductive Talk (C : Type) (A : C → Type) (α : Type)
  | done (a : α)
  | call (c : C) (k : A c → Talk C A α)

/-- An implementation of the calls on streams of type `S`. -/
abbrev Impl (C : Type) (A : C → Type) (S : Type) := S → (c : C) → A c × S

/-- Run the program on the stream `s`: the result and the stream afterwards. -/
def Talk.run {C : Type} {A : C → Type} {α S : Type} (impl : Impl C A S) : Talk C A α → S → α × S
  | .done a, s => (a, s)
  | .call c k, s => (k (impl s c).1).run impl (impl s c).2

/-! ### Readers -/

/-- The calls that a `Reader` makes on its stream: `read_exact` for a number of bytes, `seek` and
`stream_position`. -/
inductive ReadCall
  | readExact (n : Nat)
  | seek (p : SeekFrom)
  | position

/-- What they return. -/
abbrev ReadCall.Answer : ReadCall → Type
  | .readExact _ => Except IoKind (List Byte)
  | .seek _ => Except IoKind Nat
  | .position => Except IoKind Nat

/-- The streams of `Verif/Model/Stream.lean`. -/
def Src.impl : Impl ReadCall ReadCall.Answer Src
  | s, .readExact n => s.readExact n
  | s, .seek p => s.seek p
  | s, .position => s.streamPosition

/-- What a `Reader` holds besides its stream: the leftover and `bits_read`. -/
abbrev ReadState := Option Leftover × Nat

/-- A computation with a `Reader`, as a program. -/
abbrev ReadTalk (α : Type) := ReadState → Talk ReadCall ReadCall.Answer (Res α × ReadState)

/-- The program, run by a `Reader` over streams of type `S`. -/
def ReadTalk.run {α S : Type} (t : ReadTalk α) (impl : Impl ReadCall ReadCall.Answer S) (h : ReadState) (s : S) :
    Res α × ReadState × S :=
  match (t h).run impl s with
  | ((x, h'), s') => (x, h', s')

/-- The computation with the `Reader` is the program `t` on its stream. -/
def ReadTalk.Is {α : Type} (t : ReadTalk α) (f : M Reader α) : Prop := ∀ r : Reader,
  f r = match t.run Src.impl (r.leftover, r.bitsRead) r.inner with
    | (x, h, s) => (x, { inner := s, leftover := h.1, bitsRead := h.2 })

/-- The computation uses its stream only by calling it. -/
def Asks {α : Type} (f : M Reader α) : Prop := ∃ t : ReadTalk α, t.Is f

mutual

/-- The types with their own implementation use the stream only by calling it. -/
def Ty.Asks : Ty → Prop
  | .prim _ c => ∀ env, Deku.Asks (c env).read
  | .option t => t.Asks
  | .array _ t => t.Asks
  | .pair a b => a.Asks ∧ b.Asks
  | .vec _ _ t => t.Asks
  | .bytes _ _ => True
  | .struct _ _ _ fs => fs.Asks
  | .enum _ _ id _ vs => (∀ size c, id = .typed size c → ∀ env, Deku.Asks (c env).read) ∧ vs.Asks

def Fields.Asks : Fields → Prop
  | .nil => True
  | .cons _ t rest => t.Asks ∧ rest.Asks
  | .temp _ t _ rest => t.Asks ∧ rest.Asks

def Variants.Asks : Variants → Prop
  | .nil => True
  | .cons _ fs rest => fs.Asks ∧ rest.Asks

end

/-! ### Writers -/

/-- The call that a `Writer` makes on its sink, if there are no `seek_*` attributes: `write_all` with
these bytes. -/
abbrev WriteCall := List Byte

abbrev WriteAnswer (_ : WriteCall) : Type := Except IoKind Unit

/-- The sinks of `Verif/Model/Stream.lean`. -/
def Sink.impl : Impl WriteCall WriteAnswer Sink := fun s bs => s.writeAll bs

/-- What a `Writer` holds besides its sink: the leftover with its order and `bits_written`. -/
abbrev WriteState := List Bool × Order × Nat

/-- A computation with a `Writer`, as a program. -/
abbrev WriteTalk (α : Type) := WriteState → Talk WriteCall WriteAnswer (Res α × WriteState)

/-- The program, run by a `Writer` over sinks of type `S`. -/
def WriteTalk.run {α S : Type} (t : WriteTalk α) (impl : Impl WriteCall WriteAnswer S) (h : WriteState) (s : S) :
    Res α × WriteState × S :=
  match (t h).run impl s with
  | ((x, h'), s') => (x, h', s')

/-- The computation with the `Writer` is the program `t` on its sink. -/
def WriteTalk.Is {α : Type} (t : WriteTalk α) (f : M Writer α) : Prop := ∀ w : Writer,
  f w = match t.run Sink.impl (w.leftover, w.tag, w.bitsWritten) w.inner with
    | (x, h, s) => (x, { inner := s, leftover := h.1, tag := h.2.1, bitsWritten := h.2.2 })

/-- The computation uses its sink only by calling `write_all`. -/
def Tells {α : Type} (f : M Writer α) : Prop := ∃ t : WriteTalk α, t.Is f

mutual

/-- There are no `seek_*` attributes and the types with their own implementation use the sink only by
calling `write_all`. -/
def Ty.Tells : Ty → Prop
  | .prim _ c => ∀ env v, Deku.Tells ((c env).write v)
  | .option t => t.Tells
  | .array _ t => t.Tells
  | .pair a b => a.Tells ∧ b.Tells
  | .vec _ _ t => t.Tells
  | .bytes _ _ => True
  | .struct _ seek _ fs => seek = none ∧ fs.Tells
  | .enum _ _ id store vs =>
    (∀ size c, id = .typed size c → ∀ env v, Deku.Tells ((c env).write v)) ∧
    (∀ i env v, Deku.Tells (store i env v)) ∧ vs.Tells

def Fields.Tells : Fields → Prop
  | .nil => True
  | .cons a t rest => a.seek = none ∧ t.Tells ∧ rest.Tells
  | .temp a t _ rest => a.seek = none ∧ t.Tells ∧ rest.Tells

def Variants.Tells : Variants → Prop
  | .nil => True
  | .cons _ fs rest => fs.Tells ∧ rest.Tells

end

end Deku
