import Verif.Bits
import Verif.Model.Error

/-!
# Byte sources and sinks

Models the `Read`, `Write` and `Seek` implementations deku is used with: `Cursor` over a byte slice
(source), `Cursor<&mut Vec<u8>>` and `Cursor<&mut [u8]>` (sinks), extended with an arbitrary fault
schedule so that a theorem over all sources covers every pattern of I/O errors, and the wrapper
`NoSeek` of `src/noseek.rs`.
-/

namespace Deku

/-- `std::io::SeekFrom`. -/
inductive SeekFrom
  | start (n : Nat)
  | current (i : Int)
  | «end» (i : Int)
  deriving DecidableEq, Repr

/-- What the calls made on a stream may run into. -/
structure Faults where
  /-- The fault schedule: for the `i`-th call made on the stream, `some (k, e)` says that the call
  fails with kind `e` after transferring at most `k` bytes. -/
  fails : Nat → Option (Nat × IoKind)
  /-- `false` for a stream wrapped in `NoSeek` (src/noseek.rs) when it was at its start. -/
  seekable : Bool := true

instance : CoeFun Faults (fun _ => Nat → Option (Nat × IoKind)) := ⟨Faults.fails⟩

/-- A stream on which every call does what it should. -/
def noFaults : Faults := { fails := fun _ => none }

/-- `NoSeek` over a stream without faults. -/
def unseekable : Faults := { fails := fun _ => none, seekable := false }

/-- A byte source: contents, position (may lie beyond the end), number of calls made so far and
fault schedule. -/
structure Src where
  data : List Byte
  pos : Nat := 0
  calls : Nat := 0
  faults : Faults := noFaults

namespace Src

/-- `Read::read_exact` for a buffer of `n` bytes. `Cursor` moves to the end of its data when there
is not enough of it. A scheduled fault transfers fewer than `n` bytes. -/
def readExact (s : Src) (n : Nat) : Except IoKind (List Byte) × Src :=
  match s.faults s.calls with
  | some (k, e) =>
    (.error e, { s with calls := s.calls + 1,
                        pos := s.pos + min k (min (n - 1) (s.data.length - s.pos)) })
  | none =>
    if n ≤ s.data.length - s.pos then
      (.ok ((s.data.drop s.pos).take n), { s with calls := s.calls + 1, pos := s.pos + n })
    else
      (.error .unexpectedEof, { s with calls := s.calls + 1, pos := max s.pos s.data.length })

/-- Target of a seek in a stream of length `len` at position `pos`; `Cursor::seek` refuses negative
targets and allows targets beyond the end. -/
def seekTarget (len pos : Nat) : SeekFrom → Option Nat
  | .start n => some n
  | .current i => if (pos : Int) + i < 0 then none else some ((pos : Int) + i).toNat
  | .end i => if (len : Int) + i < 0 then none else some ((len : Int) + i).toNat

/-- `NoSeek::seek` (src/noseek.rs:42-52): only a seek that does not move succeeds. -/
def noSeekTarget (pos : Nat) : SeekFrom → Option Nat
  | .start n => if pos = n then some n else none
  | .current i => if i = 0 then some pos else none
  | .end _ => none

/-- `Seek::seek` of `Cursor`, or of a `NoSeek` around it, whose own position counts the bytes
transferred since the start (it is the same number as long as no `read_exact` has failed half-way, see
`Verif/Model/NoSeek.lean`) and whose error has kind `Other`, here code 0. -/
def seek (s : Src) (p : SeekFrom) : Except IoKind Nat × Src :=
  if s.faults.seekable = false then
    match noSeekTarget s.pos p with
    | some n => (.ok n, s)
    | none => (.error (.other 0), s)
  else match s.faults s.calls with
  | some (_, e) => (.error e, { s with calls := s.calls + 1 })
  | none =>
    match seekTarget s.data.length s.pos p with
    | some n => (.ok n, { s with calls := s.calls + 1, pos := n })
    | none => (.error .invalidInput, { s with calls := s.calls + 1 })

/-- `Seek::stream_position` of `Cursor`; that of `NoSeek` (src/noseek.rs:54-57) makes no call. -/
def streamPosition (s : Src) : Except IoKind Nat × Src :=
  if s.faults.seekable = false then (.ok s.pos, s)
  else match s.faults s.calls with
  | some (_, e) => (.error e, { s with calls := s.calls + 1 })
  | none => (.ok s.pos, { s with calls := s.calls + 1 })

end Src

/-- A byte sink: contents, position, capacity (`some` for a slice cursor whose contents cannot
grow), number of calls made so far and fault schedule. -/
structure Sink where
  data : List Byte := []
  pos : Nat := 0
  cap : Option Nat := none
  calls : Nat := 0
  faults : Faults := noFaults

namespace Sink

/-- Contents after storing `bs` at position `pos`; a gap is filled with zeros (`Cursor<Vec<u8>>`). -/
def splice (data : List Byte) (pos : Nat) (bs : List Byte) : List Byte :=
  data.take pos ++ List.replicate (pos - data.length) 0 ++ bs ++ data.drop (pos + bs.length)

/-- `Write::write_all`. A slice cursor stores what fits and then fails with `WriteZero`. -/
def writeAll (s : Sink) (bs : List Byte) : Except IoKind Unit × Sink :=
  match s.faults s.calls with
  | some (k, e) =>
    let room := match s.cap with | none => bs.length | some c => c - s.pos
    let bs' := bs.take (min k room)
    (.error e, { s with calls := s.calls + 1, data := splice s.data s.pos bs',
                        pos := s.pos + bs'.length })
  | none =>
    match s.cap with
    | none => (.ok (), { s with calls := s.calls + 1, data := splice s.data s.pos bs,
                                pos := s.pos + bs.length })
    | some c =>
      if bs.length ≤ c - s.pos then
        (.ok (), { s with calls := s.calls + 1, data := splice s.data s.pos bs,
                          pos := s.pos + bs.length })
      else
        let bs' := bs.take (c - s.pos)
        (.error .writeZero, { s with calls := s.calls + 1, data := splice s.data s.pos bs',
                                     pos := s.pos + bs'.length })

/-- `Seek::seek` of `Cursor`, or of a `NoSeek` around it. -/
def seek (s : Sink) (p : SeekFrom) : Except IoKind Nat × Sink :=
  if s.faults.seekable = false then
    match Src.noSeekTarget s.pos p with
    | some n => (.ok n, s)
    | none => (.error (.other 0), s)
  else match s.faults s.calls with
  | some (_, e) => (.error e, { s with calls := s.calls + 1 })
  | none =>
    match Src.seekTarget s.data.length s.pos p with
    | some n => (.ok n, { s with calls := s.calls + 1, pos := n })
    | none => (.error .invalidInput, { s with calls := s.calls + 1 })

end Sink

end Deku
