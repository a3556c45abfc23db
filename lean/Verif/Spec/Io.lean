import Verif.Spec.Talk
import Verif.Model.Io

/-!
# Specification vocabulary: what a stream promises

The contract of `Read` and `Seek`, for a stream of any type that has the bytes `data` in it. `at s pos`
says that the stream `s` is at the position `pos`.
-/

namespace Deku

/-- What `read_exact`, `seek` and `stream_position` do on a stream that is allowed to fail at any time:
bytes are delivered in order, each once, and an error leaves the stream where the bytes delivered
end. -/
structure Honest {S : Type} (impl : Impl ReadCall ReadCall.Answer S) (data : List Byte) («at» : S → Nat → Prop) :
    Prop where
  /-- `read_exact` gives the next `n` bytes, or an error after some, but not all of them. -/
  readExact : ∀ s pos n, «at» s pos →
    (∀ bs s', impl s (.readExact n) = (.ok bs, s') →
      n ≤ data.length - pos ∧ bs = (data.drop pos).take n ∧ «at» s' (pos + n)) ∧
    (∀ e s', impl s (.readExact n) = (.error e, s') → ∃ k, k < n ∧ k ≤ data.length - pos ∧ «at» s' (pos + k))
  /-- `seek` moves to the position asked for or fails without moving. -/
  seek : ∀ s pos p, «at» s pos →
    (∀ n s', impl s (.seek p) = (.ok n, s') → Src.seekTarget data.length pos p = some n ∧ «at» s' n) ∧
    (∀ e s', impl s (.seek p) = (.error e, s') → «at» s' pos)
  /-- `stream_position` tells the position or fails. -/
  position : ∀ s pos, «at» s pos →
    (∀ n s', impl s .position = (.ok n, s') → n = pos ∧ «at» s' pos) ∧
    (∀ e s', impl s .position = (.error e, s') → «at» s' pos)

/-- The same for a stream that fails only for a reason: `read_exact` at the end of the data, `seek` to a
position before the start. -/
structure Reliable {S : Type} (impl : Impl ReadCall ReadCall.Answer S) (data : List Byte) («at» : S → Nat → Prop) :
    Prop where
  readExact : ∀ s pos n, «at» s pos → if n ≤ data.length - pos then
      ∃ s', impl s (.readExact n) = (.ok ((data.drop pos).take n), s') ∧ «at» s' (pos + n)
    else ∃ s', impl s (.readExact n) = (.error .unexpectedEof, s') ∧ «at» s' (max pos data.length)
  seek : ∀ s pos p, «at» s pos →
    (∀ n, Src.seekTarget data.length pos p = some n → ∃ s', impl s (.seek p) = (.ok n, s') ∧ «at» s' n) ∧
    (Src.seekTarget data.length pos p = none → ∃ s', impl s (.seek p) = (.error .invalidInput, s') ∧ «at» s' pos)
  position : ∀ s pos, «at» s pos → ∃ s', impl s .position = (.ok pos, s') ∧ «at» s' pos

/-- `from_reader` (deku_read.rs:115-126) on a stream of type `S`: a new `Reader` runs the program `t`; the
bits read and the value. -/
def ReadTalk.fromReader {α S : Type} (t : ReadTalk α) (impl : Impl ReadCall ReadCall.Answer S) (s : S) : Res (Nat × α) :=
  match t.run impl (none, 0) s with
  | (.ok v, h, _) => .ok (h.2, v)
  | (.err e, _, _) => .err e
  | (.panic, _, _) => .panic

/-- The calls on a `Pipe`. -/
def Pipe.impl : Impl ReadCall ReadCall.Answer Pipe
  | s, .readExact n => s.readExact n
  | s, .seek p => s.seek p
  | s, .position => s.position

/-- The calls on a `BufReader`. -/
def BufReader.impl : Impl ReadCall ReadCall.Answer BufReader
  | s, .readExact n => s.readExact n
  | s, .seek p => s.seek p
  | s, .position => s.position

/-- Only short reads and interruptions, no errors and no `Ok(0)` before the end. -/
def Pipe.Quiet (p : Pipe) : Prop :=
  (∀ a ∈ p.script, (∃ k, a = .give k) ∨ a = .interrupt) ∧ ∀ a ∈ p.seeks, a = none

/-- The `Pipe` has `data` in it and is at `pos`. -/
def Pipe.Holds (data : List Byte) (p : Pipe) (pos : Nat) : Prop := p.data = data ∧ p.pos = pos

/-- The stream under the `BufReader` has `data` in it, and `pos` is the position of the first byte that
has not been handed out: those in the buffer come before the position of the stream. -/
def BufReader.Holds (data : List Byte) (b : BufReader) (pos : Nat) : Prop :=
  0 < b.cap ∧ b.inner.data = data ∧ b.inner.pos = pos + b.buf.length ∧ b.buf = (data.drop pos).take b.buf.length

/-! ### Sinks

`has s out` says that `out` has been handed to the sink `s`. -/

/-- A sink that is allowed to fail at any time: it then has some of the bytes, from their start. -/
def HonestSink {S : Type} (impl : Impl WriteCall WriteAnswer S) (has : S → List Byte → Prop) : Prop :=
  ∀ s out bs, has s out →
    (∀ u s', impl s bs = (.ok u, s') → has s' (out ++ bs)) ∧
    (∀ e s', impl s bs = (.error e, s') → ∃ k, has s' (out ++ bs.take k))

/-- A sink that does not fail. -/
def ReliableSink {S : Type} (impl : Impl WriteCall WriteAnswer S) (has : S → List Byte → Prop) : Prop :=
  ∀ s out bs, has s out → ∃ s', impl s bs = (.ok (), s') ∧ has s' (out ++ bs)

def Device.impl : Impl WriteCall WriteAnswer Device := fun d bs => d.writeAll bs

def BufWriter.impl : Impl WriteCall WriteAnswer BufWriter := fun w bs => w.writeAll bs

/-- Only short writes and interruptions. -/
def Device.Quiet (d : Device) : Prop := ∀ a ∈ d.script, (∃ k, a = .take k) ∨ a = .interrupt

/-- The device has these bytes. -/
def Device.Has (d : Device) (out : List Byte) : Prop := d.out = out

/-- The device has these bytes, but for those at the end that are still in the buffer. -/
def BufWriter.Has (w : BufWriter) (out : List Byte) : Prop := w.inner.out ++ w.buf = out ∧ w.buf.length ≤ w.cap

/-- `to_writer` with a new `Writer` on a sink of type `S`, and `finalize` (src/writer.rs:49-56, 404-413),
as the program `t`: the result and the sink afterwards. -/
def WriteTalk.writeTo {S : Type} (t : WriteTalk Unit) (impl : Impl WriteCall WriteAnswer S) (s : S) : Res Unit × S :=
  match t.run impl ([], .msb0, 0) s with
  | (x, _, s') => (x, s')

end Deku
