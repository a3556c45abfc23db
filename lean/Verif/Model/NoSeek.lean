import Verif.Model.Stream

/-!
# `NoSeek` (src/noseek.rs)

The wrapped stream is the source or sink of `Verif/Model/Stream.lean`; its own `seek` is never used.
-/

namespace Deku

/-- `Read::read` of the wrapped source: a single call, which transfers what is there, up to `n`
bytes. -/
def Src.read (s : Src) (n : Nat) : Except IoKind (List Byte) × Src :=
  match s.faults s.calls with
  | some (_, e) => (.error e, { s with calls := s.calls + 1 })
  | none =>
    (.ok ((s.data.drop s.pos).take n),
      { s with calls := s.calls + 1, pos := s.pos + min n (s.data.length - s.pos) })

/-- `NoSeek<T>` (src/noseek.rs:12-17). -/
structure NoSeek (T : Type) where
  inner : T
  pos : Nat := 0

namespace NoSeek

variable {T : Type}

/-- `NoSeek::new` (src/noseek.rs:21-23). -/
def new (t : T) : NoSeek T := { inner := t }

/-- `Seek::seek` (src/noseek.rs:42-52) with the `std` feature; `io::Error::other` has kind `Other`,
here code 0. -/
def seek (s : NoSeek T) (p : SeekFrom) : Except IoKind Nat × NoSeek T :=
  match p with
  | .start n => if s.pos = n then (.ok n, s) else (.error (.other 0), s)
  | .current 0 => (.ok s.pos, s)
  | _ => (.error (.other 0), s)

/-- `Seek::stream_position` (src/noseek.rs:55-57). -/
def streamPosition (s : NoSeek T) : Nat := s.pos

/-- `Read::read` (src/noseek.rs:61-65). -/
def read (s : NoSeek Src) (n : Nat) : Except IoKind (List Byte) × NoSeek Src :=
  match s.inner.read n with
  | (.ok bs, i) => (.ok bs, { inner := i, pos := s.pos + bs.length })
  | (.error e, i) => (.error e, { s with inner := i })

/-- `Read::read_exact` (src/noseek.rs:88-92). -/
def readExact (s : NoSeek Src) (n : Nat) : Except IoKind (List Byte) × NoSeek Src :=
  match s.inner.readExact n with
  | (.ok bs, i) => (.ok bs, { inner := i, pos := s.pos + n })
  | (.error e, i) => (.error e, { s with inner := i })

/-- `Write::write_all` (src/noseek.rs:113-117). -/
def writeAll (s : NoSeek Sink) (bs : List Byte) : Except IoKind Unit × NoSeek Sink :=
  match s.inner.writeAll bs with
  | (.ok u, i) => (.ok u, { inner := i, pos := s.pos + bs.length })
  | (.error e, i) => (.error e, { s with inner := i })

end NoSeek

end Deku
