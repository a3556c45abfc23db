import Verif.Model.Io
import Verif.Model.Derive
import Verif.Model.Toplevel
import Verif.Spec.Io

/-!
# Errors between layers

The conversions between `DekuError` and `std::io::Error` (src/error.rs), of which only the kind of the
latter is modelled, and a stream as users write them with these conversions: a `Read` whose bytes are the
payloads of the frames in another input, which are themselves read with deku and `?`.
-/

namespace Deku

/-- `io::ErrorKind::InvalidData`. -/
def IoKind.invalidData : IoKind := .other 2

/-- `io::ErrorKind::NotFound`. -/
def IoKind.notFound : IoKind := .other 3

/-- The kind of `From<DekuError> for std::io::Error` (src/error.rs:202-214; without `std`
177-195). -/
def DekuError.toIo : DekuError → IoKind
  | .incomplete _ => .unexpectedEof
  | .parse => .invalidData
  | .invalidParam => .invalidInput
  | .assertion => .invalidData
  | .idVariantNotFound => .notFound
  | .io k => k

/-- `From<io::Error> for DekuError` (src/error.rs:216-220). -/
def DekuError.ofIo (k : IoKind) : DekuError := .io k

/-- A stream in a `NoSeek` (src/noseek.rs) that unwraps frames: what is left of the input below, the part
of the last payload that has not been handed out, and the number of bytes handed out. Code of a user. -/
structure Unwrap where
  input : List Byte
  buf : List Byte := []
  pos : Nat := 0

namespace Unwrap

variable (frame : M Reader Val) (payload : Val → List Byte)

/-- `Read::read`: if nothing is left of the last payload, `let (rest, f) = Frame::from_bytes((input, 0))?`.
The case that this panics is excluded in the theorems. -/
def read (u : Unwrap) (n : Nat) : Once × Unwrap :=
  if u.buf ≠ [] then (.got (u.buf.take n), { u with buf := u.buf.drop n, pos := u.pos + (u.buf.take n).length })
  else match fromBytes frame u.input 0 with
    | .ok ((rest, _), v) =>
      (.got ((payload v).take n), { input := rest, buf := (payload v).drop n, pos := u.pos + ((payload v).take n).length })
    | .err e => (.failed e.toIo, u)
    | .panic => (.failed (.other 4), u)

/-- `Read::read_exact`. -/
def readExact (u : Unwrap) (n : Nat) : Except IoKind (List Byte) × Unwrap := readExactLoop (read frame payload) n u n

/-- The calls on it; `NoSeek::seek` (src/noseek.rs:42-52) and `NoSeek::stream_position` (54-57). -/
def impl : Impl ReadCall ReadCall.Answer Unwrap
  | u, .readExact n => u.readExact frame payload n
  | u, .seek p =>
    match Src.noSeekTarget u.pos p with
    | some n => (.ok n, u)
    | none => (.error (.other 0), u)
  | u, .position => (.ok u.pos, u)

end Unwrap

end Deku
