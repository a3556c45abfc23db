import Verif.Model.Bounded

/-!
# Specification vocabulary: what can be seen of a storage of fixed size
-/

namespace Deku

/-- The bits in use. -/
def BBV.bits (b : BBV) : List Bool := b.store.take b.size

/-- A storage of `cap` bits, not more of which are in use than there are. -/
def BBV.Ok (cap : Nat) (b : BBV) : Prop := b.store.length = cap ∧ b.size ≤ cap

/-- What is pending, as bits or a whole byte. -/
def RawLeftover.view : RawLeftover → Leftover
  | .byte b => .byte b
  | .bits b => .bits b.bits

/-- A reader as seen from outside. -/
def RawReader.view (r : RawReader) : Reader :=
  { inner := r.inner, leftover := r.leftover.map RawLeftover.view, bitsRead := r.bitsRead }

/-- The storage is one byte. -/
def RawReader.Ok (r : RawReader) : Prop := ∀ b, r.leftover = some (.bits b) → b.Ok 8

/-- A writer as seen from outside. -/
def RawWriter.view (w : RawWriter) : Writer :=
  { inner := w.inner, leftover := w.leftover.bits, tag := w.tag, bitsWritten := w.bitsWritten }

/-- The storage is one byte. -/
def RawWriter.Ok (w : RawWriter) : Prop := w.leftover.Ok 8

/-- The functions of the reader. -/
inductive ReaderCall
  | bits (n : Nat) (o : Order)
  | uint (n : Nat)
  | bytes (n : Nat) (o : Order)
  | skip (n : Nat) (o : Order)
  | seek (p : SeekFrom)
  | atEnd
  | rest

/-- What they return. -/
inductive Answer
  | bits (l : List Bool)
  | num (n : Nat)
  | bytes (bs : List Byte)
  | pos (n : Nat)
  | ioError (e : IoKind)
  | flag (b : Bool)
  | unit
  deriving DecidableEq

/-- The answer of a seek. -/
def Answer.ofSeek : Except IoKind Nat → Answer
  | .ok n => .pos n
  | .error e => .ioError e

/-- A call on a reader with storage and machine words. -/
def ReaderCall.raw : ReaderCall → M RawReader Answer
  | .bits n o => do let l ← RawReader.readBitsInto n o; pure (.bits l)
  | .uint n => do let x ← RawReader.readBitsUintMsb0 n; pure (.num x.toNat)
  | .bytes n o => do let bs ← RawReader.readBytes n o; pure (.bytes bs)
  | .skip n o => do RawReader.skipBits n o; pure .unit
  | .seek p => do let x ← RawReader.seek p; pure (.ofSeek x)
  | .atEnd => do let b ← RawReader.end; pure (.flag b)
  | .rest => do let l ← RawReader.rest; pure (.bits l)

/-- The same call on a reader with lists and numbers. -/
def ReaderCall.model : ReaderCall → M Reader Answer
  | .bits n o => do let l ← Reader.readBitsInto n o; pure (.bits l)
  | .uint n => do let x ← Reader.readBitsUintMsb0 n; pure (.num x)
  | .bytes n o => do let bs ← Reader.readBytes n o; pure (.bytes bs)
  | .skip n o => do Reader.skipBits n o; pure .unit
  | .seek p => do let x ← Reader.seek p; pure (.ofSeek x)
  | .atEnd => do let b ← Reader.end; pure (.flag b)
  | .rest => do let r ← M.get; pure (.bits r.rest)

/-- The functions of the writer. -/
inductive WriterCall
  | bits (l : List Bool) (o : Order)
  | uint (v : BitVec 64) (n : Nat)
  | bytes (bs : List Byte)
  | finalize
  | seek (p : SeekFrom)
  | rest

/-- A call on a writer with storage and machine words. -/
def WriterCall.raw : WriterCall → M RawWriter Answer
  | .bits l o => do RawWriter.writeBitsOrder l o; pure .unit
  | .uint v n => do RawWriter.writeBitsUintMsb0 v n; pure .unit
  | .bytes bs => do RawWriter.writeBytes bs; pure .unit
  | .finalize => do RawWriter.finalize; pure .unit
  | .seek p => do let x ← RawWriter.seek p; pure (.ofSeek x)
  | .rest => do let l ← RawWriter.rest; pure (.bits l)

/-- The same call on a writer with lists and numbers. -/
def WriterCall.model : WriterCall → M Writer Answer
  | .bits l o => do Writer.writeBitsOrder l o; pure .unit
  | .uint v n => do Writer.writeBitsUintMsb0 v.toNat n; pure .unit
  | .bytes bs => do Writer.writeBytes bs; pure .unit
  | .finalize => do Writer.finalize; pure .unit
  | .seek p => do let x ← Writer.seek p; pure (.ofSeek x)
  | .rest => do let w ← M.get; pure (.bits w.rest)

/-- All answers to a sequence of calls, which goes on after errors, and the state after it. -/
def answers {σ α : Type} : List (M σ α) → σ → List (Res α) × σ
  | [], s => ([], s)
  | c :: cs, s => ((c s).1 :: (answers cs (c s).2).1, (answers cs (c s).2).2)

end Deku
