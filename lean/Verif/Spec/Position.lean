import Verif.Model.Toplevel
import Verif.Spec.NoSeek

/-!
# Specification vocabulary: streams that are not at their start

A stream whose caller has already read or written something is the stream that comes after it.
-/

namespace Deku

/-- The source `s` behind the bytes `pre`, after `k` earlier calls. -/
def Src.after (pre : List Byte) (k : Nat) (s : Src) : Src :=
  { s with data := pre ++ s.data, pos := pre.length + s.pos, calls := k + s.calls,
           faults := { s.faults with fails := fun i => s.faults.fails (i - k) } }

/-- The sink `s` behind the bytes `pre`, after `k` earlier calls. -/
def Sink.after (pre : List Byte) (k : Nat) (s : Sink) : Sink :=
  { s with data := pre ++ s.data, pos := pre.length + s.pos, calls := k + s.calls,
           cap := s.cap.map (pre.length + ·),
           faults := { s.faults with fails := fun i => s.faults.fails (i - k) } }

/-- `write_all` does the same after the change `ψ` of the sink. -/
def WritesAlike (ψ : Sink → Sink) : Prop := ∀ bs, Commutes (Writer.onSink ψ) (Writer.writeAll bs)

/-- A definition without `seek_*` attributes whose leaves use the sink only through `write_all`. -/
def Ty.Plain (t : Ty) : Prop := ∀ ψ, WritesAlike ψ → t.Unsought ψ

/-- Call `from_reader` for each message in turn, on the same stream. -/
def readEach {α : Type} : List (M Reader α) → Src → Res (List α) × Src
  | [], s => (.ok [], s)
  | f :: fs, s =>
    match fromReaderOn f s 0 with
    | (.ok (_, v), s1) =>
      match readEach fs s1 with
      | (.ok vs, s2) => (.ok (v :: vs), s2)
      | (.err e, s2) => (.err e, s2)
      | (.panic, s2) => (.panic, s2)
    | (.err e, s1) => (.err e, s1)
    | (.panic, s1) => (.panic, s1)

/-- Call `to_writer` and `finalize` for each message in turn, on the same sink. -/
def writeEach : List (M Writer Unit) → Sink → Res Unit × Sink
  | [], s => (.ok (), s)
  | g :: gs, s =>
    match writeTo g s with
    | (.ok _, s1) => writeEach gs s1
    | (.err e, s1) => (.err e, s1)
    | (.panic, s1) => (.panic, s1)

end Deku
