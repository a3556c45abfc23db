import Verif.Lemmas.Bounded

/-!
# C58: of the storage of the pending bits only the bits in use are seen
-/

namespace Deku

/-- **C58.** Any sequence of calls on a reader whose pending bits are in a byte of storage, and which
computes with machine words, is answered like one on a reader with a list of bits and unbounded numbers,
errors and panics included. -/
theorem C58_reader_shows_only_pending_bits (cs : List ReaderCall) (r : RawReader) (hr : r.Ok) :
    (answers (cs.map ReaderCall.raw) r).1 = (answers (cs.map ReaderCall.model) r.view).1 ∧
    (answers (cs.map ReaderCall.raw) r).2.view = (answers (cs.map ReaderCall.model) r.view).2 ∧ (answers (cs.map ReaderCall.raw) r).2.Ok :=
  answers_sim ReaderCall.sim cs r hr

/-- **C58.** The same for the writer: the answers, and all that reaches the sink. -/
theorem C58_writer_shows_only_pending_bits (cs : List WriterCall) (w : RawWriter) (hw : w.Ok) :
    (answers (cs.map WriterCall.raw) w).1 = (answers (cs.map WriterCall.model) w.view).1 ∧
    (answers (cs.map WriterCall.raw) w).2.view = (answers (cs.map WriterCall.model) w.view).2 ∧ (answers (cs.map WriterCall.raw) w).2.Ok :=
  answers_sim WriterCall.sim cs w hw

/-- **C58.** Stale bits of the storage make no difference. -/
theorem C58_stale_bits_do_not_show :
    (∀ (cs : List ReaderCall) (r r' : RawReader), r.Ok → r'.Ok → r.view = r'.view →
      (answers (cs.map ReaderCall.raw) r).1 = (answers (cs.map ReaderCall.raw) r').1) ∧
    (∀ (cs : List WriterCall) (w w' : RawWriter), w.Ok → w'.Ok → w.view = w'.view →
      (answers (cs.map WriterCall.raw) w).1 = (answers (cs.map WriterCall.raw) w').1 ∧
      (answers (cs.map WriterCall.raw) w).2.inner = (answers (cs.map WriterCall.raw) w').2.inner) := by
  refine ⟨fun cs r r' h h' e => ?_, fun cs w w' h h' e => ⟨?_, ?_⟩⟩
  · rw [(C58_reader_shows_only_pending_bits cs r h).1, (C58_reader_shows_only_pending_bits cs r' h').1, e]
  · rw [(C58_writer_shows_only_pending_bits cs w h).1, (C58_writer_shows_only_pending_bits cs w' h').1, e]
  · have h1 := congrArg Writer.inner (C58_writer_shows_only_pending_bits cs w h).2.1
    have h2 := congrArg Writer.inner (C58_writer_shows_only_pending_bits cs w' h').2.1
    exact h1.trans ((congrArg (fun v => (answers (cs.map WriterCall.model) v).2.inner) e).trans h2.symm)

/-- **C58.** The operations of a `BoundedBitVec` of any capacity act on the bits in use as on a list, as
long as there is room for the result. -/
theorem C58_bounded_bit_vec {cap : Nat} {b : BBV} (h : b.Ok cap) :
    b.asBitslice = some b.bits ∧ b.bits.length = b.size ∧
    (∀ l, b.bits.length + l.length ≤ cap → ∃ b', b.extend l = some b' ∧ b'.Ok cap ∧ b'.bits = b.bits ++ l) ∧
    (∀ v, b.bits.length < cap → ∃ b', b.push v = some b' ∧ b'.Ok cap ∧ b'.bits = b.bits ++ [v]) ∧
    (∀ i v, i < b.bits.length → b.bits.length < cap →
      ∃ b', b.insert i v = some b' ∧ b'.Ok cap ∧ b'.bits = b.bits.take i ++ v :: b.bits.drop i) ∧
    (∀ i, i < b.bits.length →
      ∃ l r, b.splitOff i = some (l, r) ∧ l.Ok cap ∧ r.Ok cap ∧ l.bits = b.bits.take i ∧ r.bits = b.bits.drop i) ∧
    b.clear.Ok cap ∧ b.clear.bits = [] :=
  ⟨h.asBitslice, h.length, fun _ => h.extend, fun v => h.push v, fun _ v => h.insert v, fun _ => h.splitOff, h.clear⟩

/-! ### Examples -/

namespace Example

/-- The reader after 3 and 2 bits were read in Lsb0 order: 3 bits are pending, the 2 are still stored. -/
def staleReader : RawReader :=
  (answers ([ReaderCall.bits 3 .lsb0, .bits 2 .lsb0].map ReaderCall.raw) { inner := { data := [0b10110101, 0xff] } }).2

theorem staleReader_leftover :
    staleReader.leftover = some (.bits { store := [true, false, true, true, false, false, false, false], size := 3 }) := by
  decide +kernel

/-- The same without them. -/
def cleanReader : RawReader :=
  { staleReader with leftover := some (.bits { store := [true, false, true, false, false, false, false, false], size := 3 }) }

example : staleReader.Ok ∧ cleanReader.Ok ∧ staleReader.view = cleanReader.view := by
  refine ⟨fun b hb => ?_, fun b hb => ?_, ?_⟩
  · rw [staleReader_leftover] at hb
    cases hb
    exact ⟨rfl, by decide⟩
  · cases hb
    exact ⟨rfl, by decide⟩
  · simp only [RawReader.view, staleReader_leftover]
    rfl

-- 10 bits as a number, from 3 pending bits and a byte, and then what is left
example : (answers ([ReaderCall.uint 10, .rest, .atEnd, .bits 1 .msb0, .atEnd].map ReaderCall.raw) staleReader).1 =
    [.ok (.num 0b1011111111), .ok (.bits [true]), .ok (.flag false), .ok (.bits [true]), .ok (.flag true)] := by
  decide +kernel

-- the largest number of bits that meet in the writer: 7 pending and 64 more
example : (answers ([WriterCall.bits (List.replicate 7 true) .msb0, .uint 0x8000000000000001 64, .rest, .finalize].map
    WriterCall.raw) { inner := {} }).1 =
    [.ok .unit, .ok .unit, .ok (.bits [false, false, false, false, false, false, true]), .ok .unit] := by
  decide +kernel

example : (answers ([WriterCall.bits (List.replicate 7 true) .msb0, .uint 0x8000000000000001 64, .finalize].map
    WriterCall.raw) { inner := {} }).2.inner.data = [0xff, 0, 0, 0, 0, 0, 0, 0, 2] := by decide +kernel

example : ({ inner := {} } : RawWriter).Ok := BBV.ok_new 8

end Example

end Deku
