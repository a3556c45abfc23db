import Verif.Model.Stream

/-!
# Streams as the standard library implements them

`Src` of `Verif/Model/Stream.lean` answers `read_exact` at once. Files, sockets and pipes have a `read`
that transfers what it likes, and `read_exact` is a loop around it, `default_read_exact` of
`std::io`, which deku relies on in every read (src/reader.rs:159, 312, 325, 338, 357, 421, 485, 552,
583, 639, 693). This file models that loop, a stream whose `read` follows a script, and `BufReader`
around such a stream. `write_all` (src/writer.rs:97, 144, 154, 204, 212, 226, 267, 280, 321, 331, 384,
392) is a loop around `write` in the same way. None of this is code of the repository.
-/

namespace Deku

/-- What one call of `read` can return. -/
inductive Once
  /-- `Ok(n)`, with the bytes now in the buffer. -/
  | got (bs : List Byte)
  /-- An error of kind `Interrupted`. -/
  | interrupted
  /-- Any other error. -/
  | failed (e : IoKind)

/-- `std::io::default_read_exact`: `while !buf.is_empty() { match this.read(buf) { Ok(0) => break, Ok(n)
=> buf = &mut buf[n..], Err(ref e) if e.is_interrupted() => {}, Err(e) => return Err(e) } }` and
`UnexpectedEof` if something is missing. `fuel` bounds the number of calls; the theorems show that it
is enough. -/
def readExactLoop {S : Type} (read : S → Nat → Once × S) : Nat → S → Nat → Except IoKind (List Byte) × S
  | _, s, 0 => (.ok [], s)
  | 0, s, _ + 1 => (.error (.other 1), s)
  | fuel + 1, s, n + 1 =>
    match read s (n + 1) with
    | (.got [], s') => (.error .unexpectedEof, s')
    | (.got (b :: bs), s') =>
      match readExactLoop read fuel s' (n - bs.length) with
      | (.ok r, s'') => (.ok (b :: bs ++ r), s'')
      | (.error e, s'') => (.error e, s'')
    | (.interrupted, s') => readExactLoop read fuel s' (n + 1)
    | (.failed e, s') => (.error e, s')

/-- What a stream does when `read` is called. -/
inductive Action
  /-- Transfer at most `k + 1` bytes. -/
  | give (k : Nat)
  /-- `Interrupted`, nothing transferred. -/
  | interrupt
  /-- `Ok(0)`, as at the end of a file that is still being written. -/
  | pause
  /-- An error. -/
  | fail (e : IoKind)

/-- A file, socket or pipe: what is in it, the position, what the next calls of `read` do (afterwards
each gives all that is asked for), and which of the next seeks fail. -/
structure Pipe where
  data : List Byte
  pos : Nat := 0
  script : List Action := []
  seeks : List (Option IoKind) := []

namespace Pipe

/-- Transfer at most `n` bytes from the position. -/
def give (p : Pipe) (n : Nat) : Once × Pipe :=
  (.got ((p.data.drop p.pos).take n), { p with pos := p.pos + ((p.data.drop p.pos).take n).length })

/-- `Read::read` with a buffer of `n` bytes. -/
def read (p : Pipe) (n : Nat) : Once × Pipe :=
  match p.script with
  | [] => p.give n
  | .give k :: sc => { p with script := sc }.give (min n (k + 1))
  | .interrupt :: sc => (.interrupted, { p with script := sc })
  | .pause :: sc => (.got [], { p with script := sc })
  | .fail e :: sc => (.failed e, { p with script := sc })

/-- `Read::read_exact`. -/
def readExact (p : Pipe) (n : Nat) : Except IoKind (List Byte) × Pipe :=
  readExactLoop read (p.script.length + n) p n

/-- `Seek::seek`; as in a file, targets beyond the end are allowed. -/
def seek (p : Pipe) (t : SeekFrom) : Except IoKind Nat × Pipe :=
  match p.seeks with
  | some e :: l => (.error e, { p with seeks := l })
  | _ =>
    match Src.seekTarget p.data.length p.pos t with
    | some n => (.ok n, { p with pos := n, seeks := p.seeks.tail })
    | none => (.error .invalidInput, { p with seeks := p.seeks.tail })

/-- `Seek::stream_position`: `self.seek(SeekFrom::Current(0))`. -/
def position (p : Pipe) : Except IoKind Nat × Pipe := p.seek (.current 0)

end Pipe

/-- `std::io::BufReader` with a buffer of `cap` bytes; `buf` are the bytes in it that have not been
consumed. -/
structure BufReader where
  inner : Pipe
  cap : Nat
  buf : List Byte := []

namespace BufReader

/-- `Read::read`: a large read with an empty buffer goes to the stream, otherwise the buffer is filled
if it is empty (`fill_buf`) and as much as possible is taken from it. -/
def read (b : BufReader) (n : Nat) : Once × BufReader :=
  if b.buf = [] then
    if b.cap ≤ n then
      match b.inner.read n with
      | (x, i) => (x, { b with inner := i })
    else
      match b.inner.read b.cap with
      | (.got bs, i) => (.got (bs.take n), { b with inner := i, buf := bs.drop n })
      | (.interrupted, i) => (.interrupted, { b with inner := i })
      | (.failed e, i) => (.failed e, { b with inner := i })
  else (.got (b.buf.take n), { b with buf := b.buf.drop n })

/-- `Read::read_exact`: from the buffer if there is enough in it, otherwise `default_read_exact`. -/
def readExact (b : BufReader) (n : Nat) : Except IoKind (List Byte) × BufReader :=
  if n ≤ b.buf.length then (.ok (b.buf.take n), { b with buf := b.buf.drop n })
  else readExactLoop read (b.inner.script.length + n) b n

/-- Where the stream has to go: what is in the buffer has been read from it, but not yet by the caller.
The case in which `n - remainder` does not fit in an `i64` is not modelled. -/
def target (b : BufReader) : SeekFrom → SeekFrom
  | .current n => .current (n - b.buf.length)
  | t => t

/-- `Seek::seek`; the buffer is discarded. -/
def seek (b : BufReader) (t : SeekFrom) : Except IoKind Nat × BufReader :=
  match b.inner.seek (b.target t) with
  | (.ok n, i) => (.ok n, { b with inner := i, buf := [] })
  | (.error e, i) => (.error e, { b with inner := i })

/-- `Seek::stream_position`: `self.inner.stream_position().map(|pos| pos.checked_sub(remainder).expect(..))`;
the panic is not reached. -/
def position (b : BufReader) : Except IoKind Nat × BufReader :=
  match b.inner.position with
  | (.ok n, i) => (.ok (n - b.buf.length), { b with inner := i })
  | (.error e, i) => (.error e, { b with inner := i })

end BufReader

/-! ### Sinks -/

/-- What one call of `write` can return. -/
inductive Took
  /-- `Ok(n)`. -/
  | took (n : Nat)
  | interrupted
  | failed (e : IoKind)

/-- What a device does when `write` is called. -/
inductive Taking
  /-- Take at most `k + 1` bytes. -/
  | take (k : Nat)
  | interrupt
  /-- `Ok(0)`. -/
  | full
  | fail (e : IoKind)

/-- A file, socket or pipe that is written at its end: what has been written, and what the next calls of
`write` do (afterwards each takes all that it is given). -/
structure Device where
  out : List Byte := []
  script : List Taking := []

namespace Device

/-- `Write::write`. -/
def write (d : Device) (bs : List Byte) : Took × Device :=
  match d.script with
  | [] => (.took bs.length, { d with out := d.out ++ bs })
  | .take k :: sc => (.took (bs.take (k + 1)).length, { out := d.out ++ bs.take (k + 1), script := sc })
  | .interrupt :: sc => (.interrupted, { d with script := sc })
  | .full :: sc => (.took 0, { d with script := sc })
  | .fail e :: sc => (.failed e, { d with script := sc })

/-- `std::io::Write::write_all`: `while !buf.is_empty() { match self.write(buf) { Ok(0) => return
Err(WriteZero), Ok(n) => buf = &buf[n..], Err(ref e) if e.is_interrupted() => {}, Err(e) => return
Err(e) } }`. Also `BufWriter::flush_buf`, which keeps what could not be written: the second component.
`fuel` bounds the number of calls; the theorems show that it is enough. -/
def writeLoop : Nat → Device → List Byte → Except IoKind Unit × List Byte × Device
  | _, d, [] => (.ok (), [], d)
  | 0, d, b :: bs => (.error (.other 1), b :: bs, d)
  | fuel + 1, d, b :: bs =>
    match d.write (b :: bs) with
    | (.took 0, d') => (.error .writeZero, b :: bs, d')
    | (.took (n + 1), d') => writeLoop fuel d' (bs.drop n)
    | (.interrupted, d') => writeLoop fuel d' (b :: bs)
    | (.failed e, d') => (.error e, b :: bs, d')

/-- `Write::write_all`. -/
def writeAll (d : Device) (bs : List Byte) : Except IoKind Unit × Device :=
  match writeLoop (d.script.length + bs.length) d bs with
  | (x, _, d') => (x, d')

end Device

/-- `std::io::BufWriter` with a buffer of `cap` bytes, `buf` of which wait to be written. -/
structure BufWriter where
  inner : Device
  cap : Nat
  buf : List Byte := []

namespace BufWriter

/-- `BufWriter::flush_buf`. -/
def flush (w : BufWriter) : Except IoKind Unit × BufWriter :=
  match Device.writeLoop (w.inner.script.length + w.buf.length) w.inner w.buf with
  | (x, left, d) => (x, { w with inner := d, buf := left })

/-- The second half of `write_all_cold`: large writes go to the device. -/
def store (w : BufWriter) (bs : List Byte) : Except IoKind Unit × BufWriter :=
  if w.cap ≤ bs.length then
    match w.inner.writeAll bs with
    | (x, d) => (x, { w with inner := d })
  else (.ok (), { w with buf := w.buf ++ bs })

/-- `Write::write_all`: into the buffer if there is room, otherwise the buffer is written first. -/
def writeAll (w : BufWriter) (bs : List Byte) : Except IoKind Unit × BufWriter :=
  if bs.length < w.cap - w.buf.length then (.ok (), { w with buf := w.buf ++ bs })
  else if w.cap - w.buf.length < bs.length then
    match w.flush with
    | (.ok _, w') => w'.store bs
    | (.error e, w') => (.error e, w')
  else w.store bs

end BufWriter

end Deku
