import Verif.Model.Core

/-!
# Structs whose fields have `seek_*` attributes

The definitions of `Verif/Model/Core.lean` have no seeks; here is a struct of such fields, each with a
seek of its own.
-/

namespace Deku

/-- `seek_from_start`, `seek_from_current`, `seek_from_end`, `seek_rewind` (deku-derive/src/lib.rs,
`FieldData`). -/
inductive Seek
  | start (e : Expr)
  | current (e : Expr)
  | «end» (e : Expr)
  | rewind

/-- Where to seek (deku_read.rs:683-724, deku_write.rs:651-692): `u64::try_from(e).unwrap()` or
`i64::try_from(e).unwrap()`, which panic where the number does not fit. `rewind` seeks to the start. -/
def Seek.eval (s : Seek) (env : Env) : Option SeekFrom :=
  match s with
  | .start e => if 0 ≤ e.eval env ∧ e.eval env < 2 ^ 64 then some (.start (e.eval env).toNat) else none
  | .current e => if -2 ^ 63 ≤ e.eval env ∧ e.eval env < 2 ^ 63 then some (.current (e.eval env)) else none
  | .end e => if -2 ^ 63 ≤ e.eval env ∧ e.eval env < 2 ^ 63 then some (.end (e.eval env)) else none
  | .rewind => some (.start 0)

/-- A field with its attributes, and its seek. -/
structure JField where
  seek : Option Seek := none
  attrs : DAttrs := {}
  ty : Def

def JField.toAttrs (f : JField) : Attrs := { f.attrs.toAttrs with seek := f.seek.map fun s env => s.eval env }

def jumpFields (m : Machine) : List JField → Fields
  | [] => .nil
  | f :: l => .cons f.toAttrs (f.ty.toTy m) (jumpFields m l)

/-- The struct with these fields. -/
def jumpStruct (m : Machine) (l : List JField) : Ty := .struct (fun _ => []) none [] (jumpFields m l)

end Deku
