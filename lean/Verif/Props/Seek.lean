import Verif.Model.NoSeek
import Verif.Lemmas.Writer

/-!
# C51 (seeking), C52 (`NeedSize` and `NoSeek`)
-/

namespace Deku

/-- A seek that `NoSeek` allows goes where it should. -/
theorem Src.noSeekTarget_some {len pos n : Nat} {p : SeekFrom} (h : Src.noSeekTarget pos p = some n) :
    Src.seekTarget len pos p = some n ∧ pos = n := by
  cases p with
  | start k =>
    simp only [Src.noSeekTarget] at h
    split at h
    · simp at h; subst h; exact ⟨rfl, by assumption⟩
    · simp at h
  | current i =>
    simp only [Src.noSeekTarget] at h
    split at h
    · rename_i hi
      simp at h; subst h; subst hi
      simp [Src.seekTarget]
    · simp at h
  | «end» i => simp [Src.noSeekTarget] at h

theorem Src.seek_ok {s s' : Src} {p : SeekFrom} {n : Nat} (h : s.seek p = (.ok n, s')) :
    Src.seekTarget s.data.length s.pos p = some n ∧ s'.data = s.data ∧ s'.pos = n := by
  simp only [Src.seek] at h
  by_cases hk : s.faults.seekable = false
  · rw [if_pos hk] at h
    rcases ht : Src.noSeekTarget s.pos p with _ | m
    · simp [ht] at h
    · simp [ht] at h
      obtain ⟨rfl, rfl⟩ := h
      exact ⟨(Src.noSeekTarget_some ht).1, rfl, (Src.noSeekTarget_some (len := 0) ht).2⟩
  · rw [if_neg hk] at h
    rcases hf : s.faults s.calls with _ | ⟨k, e⟩
    · rw [hf] at h
      rcases ht : Src.seekTarget s.data.length s.pos p with _ | m
      · simp [ht] at h
      · simp [ht] at h
        obtain ⟨rfl, rfl⟩ := h
        exact ⟨rfl, rfl, rfl⟩
    · simp [hf] at h

theorem Sink.seek_ok {s s' : Sink} {p : SeekFrom} {n : Nat} (h : s.seek p = (.ok n, s')) :
    Src.seekTarget s.data.length s.pos p = some n ∧ s'.data = s.data ∧ s'.pos = n := by
  simp only [Sink.seek] at h
  by_cases hk : s.faults.seekable = false
  · rw [if_pos hk] at h
    rcases ht : Src.noSeekTarget s.pos p with _ | m
    · simp [ht] at h
    · simp [ht] at h
      obtain ⟨rfl, rfl⟩ := h
      exact ⟨(Src.noSeekTarget_some ht).1, rfl, (Src.noSeekTarget_some (len := 0) ht).2⟩
  · rw [if_neg hk] at h
    rcases hf : s.faults s.calls with _ | ⟨k, e⟩
    · rw [hf] at h
      rcases ht : Src.seekTarget s.data.length s.pos p with _ | m
      · simp [ht] at h
      · simp [ht] at h
        obtain ⟨rfl, rfl⟩ := h
        exact ⟨rfl, rfl, rfl⟩
    · simp [hf] at h

/-! ### C51 -/

/-- **C51**, reader: whatever was pending, after a successful seek the unread input is the data from
the new position on, and `bits_read` is eight times that position. A seek to an absolute position
always succeeds on a source that does not fail. -/
theorem C51_reader_seek (r : Reader) (p : SeekFrom) (n : Nat) (r' : Reader)
    (h : Reader.seek p r = (.ok (.ok n), r')) :
    (∀ o, r'.unread o = orderBits o (r.inner.data.drop n)) ∧ r'.bitsRead = 8 * n ∧
      r'.inner.pos = n ∧ r'.WF ∧ Src.seekTarget r.inner.data.length r.inner.pos p = some n := by
  simp only [Reader.seek] at h
  rcases hs : r.inner.seek p with ⟨_ | m, s⟩
  · simp [hs] at h
  · simp [hs] at h
    obtain ⟨rfl, rfl⟩ := h
    obtain ⟨h1, h2, h3⟩ := Src.seek_ok hs
    refine ⟨fun o => ?_, Nat.mul_comm _ _, h3, fun l hl => by simp at hl, h1⟩
    rw [← h2, ← h3]
    cases o <;> rfl

theorem C51_reader_seek_start_succeeds (r : Reader) (p : Nat) (hf : r.Healthy) :
    ∃ r', Reader.seek (.start p) r = (.ok (.ok p), r') ∧ r'.Healthy := by
  refine ⟨_, by simp [Reader.seek, Src.seek, show r.inner.faults = noFaults from hf, noFaults, Src.seekTarget]; rfl, ?_⟩
  rfl

/-- A reader in the middle of its second byte seeks back to the first. -/
example : (Reader.seek (.start 0) { inner := { data := [0xA5#8, 0x3C#8], pos := 2 }, leftover := some (.bits [true, false, false]), bitsRead := 13 }).1 =
    .ok (.ok 0) := by rfl

/-- **C51**, writer, when no bits are pending: a successful seek changes nothing in the output.
Missing: pending bits, which are lost (`C51_writer_seek_loses_pending_bits`). -/
theorem C51_writer_seek_partial (w : Writer) (p : SeekFrom) (n : Nat) (w' : Writer)
    (hl : w.rest = []) (h : Writer.seek p w = (.ok (.ok n), w')) :
    (∀ o, orderBits o (w'.inner.data.take w.inner.pos) = w.produced o) ∧
      w'.inner.data = w.inner.data ∧ w'.inner.pos = n ∧ w'.rest = [] ∧
      w'.bitsWritten = w.bitsWritten := by
  simp only [Writer.seek] at h
  rcases hs : w.inner.seek p with ⟨_ | m, s⟩
  · simp [hs] at h
  · simp [hs] at h
    obtain ⟨rfl, rfl⟩ := h
    obtain ⟨_, h2, h3⟩ := Sink.seek_ok hs
    refine ⟨fun o => ?_, h2, h3, rfl, rfl⟩
    rw [h2]
    cases o <;> simp [Writer.produced, hl, Sink.written, present]

example : ({ inner := { data := [1#8, 2#8], pos := 2 }, bitsWritten := 16 } : Writer).rest = [] := rfl

/-- **C51 is false for a writer with pending bits**: four bits are written, the writer is moved to
where it already is, four more are written; the first four are gone. -/
theorem C51_writer_seek_loses_pending_bits :
    ((do Writer.writeBits [true, true, true, true]
         let _ ← Writer.seek (.current 0)
         Writer.writeBits [false, false, false, true]
         Writer.finalize : M Writer Unit) (Writer.new {})).2.inner.data = [0x10#8] := by decide

/-- A reader's seek that fails also loses the pending bits: after reading 4 bits of `0xAB`, a failing
seek makes the next 4 bit read return the high bits of the next byte. -/
theorem C51_failed_reader_seek_loses_pending_bits :
    ((do let _ ← Reader.readBits 4 .msb0
         let _ ← Reader.seek (.current (-9))
         Reader.readBits 4 .msb0 : M Reader (List Bool)) (Reader.new { data := [0xAB#8, 0xCD#8] })).1 =
      .ok (bitsBE 4 0xC) := by decide

/-! ### C52 -/

/-- **C52**, `NeedSize`: `byte_size` is the least number of bytes holding the bits. -/
theorem C52_needsize_least (bits : Nat) :
    bits ≤ 8 * needByteSize bits ∧ ∀ n, bits ≤ 8 * n → needByteSize bits ≤ n := by
  simp only [needByteSize]
  exact ⟨by omega, fun n h => by omega⟩

/-- Successful transfers through a `NoSeek` source: the bytes of each call. -/
inductive Transfers : NoSeek Src → List (List Byte) → NoSeek Src → Prop
  | done (s) : Transfers s [] s
  | read {s n bs s' l s''} : s.read n = (.ok bs, s') → Transfers s' l s'' → Transfers s (bs :: l) s''
  | readExact {s n bs s' l s''} : s.readExact n = (.ok bs, s') → Transfers s' l s'' →
      Transfers s (bs :: l) s''
  | seek {s p n s' l s''} : s.seek p = (.ok n, s') → Transfers s' l s'' → Transfers s l s''

theorem NoSeek.seek_ok {T : Type} {s : NoSeek T} {p : SeekFrom} {n : Nat} {s' : NoSeek T}
    (h : s.seek p = (.ok n, s')) : n = s.pos ∧ s' = s := by
  cases p with
  | start m =>
    simp only [NoSeek.seek] at h
    by_cases hm : s.pos = m
    · rw [if_pos hm] at h; simp at h
      exact ⟨by rw [← h.1, hm], h.2.symm⟩
    · rw [if_neg hm] at h; simp at h
  | current i =>
    simp only [NoSeek.seek] at h
    split at h
    · rename_i heq; simp at heq
    · simp at h; exact ⟨h.1.symm, h.2.symm⟩
    · simp at h
  | «end» i => simp [NoSeek.seek] at h

/-- **C52**, `NoSeek` source: as long as the transfers succeed, the reported position is the number
of bytes transferred. Missing: after a failed `read_exact`, where it is false
(`C52_failed_read_exact_miscounts`). -/
theorem C52_noseek_position_partial (src : Src) (l : List (List Byte)) (s : NoSeek Src)
    (h : Transfers (NoSeek.new src) l s) : s.streamPosition = l.flatten.length ∧
      s.inner.pos = src.pos + l.flatten.length := by
  suffices ∀ (s0 : NoSeek Src), Transfers s0 l s →
      s.pos = s0.pos + l.flatten.length ∧ s.inner.pos = s0.inner.pos + l.flatten.length by
    have := this _ h
    simpa [NoSeek.streamPosition, NoSeek.new] using this
  clear h
  intro s0 h
  induction h with
  | done s => simp
  | @read s n bs s' l s'' h _ ih =>
    simp only [NoSeek.read, Src.read] at h
    rcases hf : s.inner.faults s.inner.calls with _ | ⟨k, e⟩
    · rw [hf] at h
      simp at h
      obtain ⟨hb, rfl⟩ := h
      have hbl : bs.length = min n (s.inner.data.length - s.inner.pos) := by rw [← hb]; simp
      simp only [List.flatten_cons, List.length_append, hbl]
      obtain ⟨ih1, ih2⟩ := ih
      exact ⟨by rw [ih1]; simp only; omega, by rw [ih2]; simp only; omega⟩
    · rw [hf] at h; simp at h
  | @readExact s n bs s' l s'' h _ ih =>
    simp only [NoSeek.readExact, Src.readExact] at h
    rcases hf : s.inner.faults s.inner.calls with _ | ⟨k, e⟩
    · rw [hf] at h
      by_cases hn : n ≤ s.inner.data.length - s.inner.pos
      · simp [hn] at h
        obtain ⟨hb, rfl⟩ := h
        have hbl : bs.length = n := by rw [← hb]; simp; omega
        simp only [List.flatten_cons, List.length_append, hbl]
        obtain ⟨ih1, ih2⟩ := ih
        exact ⟨by rw [ih1]; simp only; omega, by rw [ih2]; simp only; omega⟩
      · simp [hn] at h
    · rw [hf] at h; simp at h
  | @seek s p n s' l s'' h _ ih =>
    obtain ⟨_, rfl⟩ := NoSeek.seek_ok h
    exact ih

example : Transfers (NoSeek.new { data := [1#8, 2#8, 3#8] }) [[1#8, 2#8], [3#8]]
    { inner := { data := [1#8, 2#8, 3#8], pos := 3, calls := 2 }, pos := 3 } :=
  .readExact (n := 2) rfl (.seek (p := .start 2) (n := 2) rfl (.read (n := 5) rfl (.done _)))

/-- **C52**, a `NoSeek` seek succeeds only if it does not move, and then changes nothing; seeks to
the current position do succeed. -/
theorem C52_noseek_seek {T : Type} (s : NoSeek T) :
    (∀ p n s', s.seek p = (.ok n, s') → n = s.pos ∧ s' = s) ∧
    s.seek (.start s.pos) = (.ok s.pos, s) ∧ s.seek (.current 0) = (.ok s.pos, s) ∧
    (∀ n, n ≠ s.pos → ∃ e, s.seek (.start n) = (.error e, s)) ∧
    (∀ i, i ≠ 0 → ∃ e, s.seek (.current i) = (.error e, s)) := by
  refine ⟨fun p n s' h => NoSeek.seek_ok h, by simp [NoSeek.seek], rfl, ?_, ?_⟩
  · intro n h
    exact ⟨.other 0, by simp [NoSeek.seek, Ne.symm h]⟩
  · intro i h
    refine ⟨.other 0, ?_⟩
    simp only [NoSeek.seek]
    split
    · rename_i heq; simp at heq
    · rename_i heq; simp at heq; exact absurd heq h
    · rfl

/-- **C52 is false after a failed `read_exact`**: the wrapped cursor has delivered its one byte, the
reported position is still 0. -/
theorem C52_failed_read_exact_miscounts :
    let s := ((NoSeek.new { data := [1#8] }).readExact 2).2
    s.streamPosition = 0 ∧ s.inner.pos = 1 := by decide

end Deku
