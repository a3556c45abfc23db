import Verif.Spec.Program
import Verif.Lemmas.Reader

/-!
# Properties of the reader: C01, C02, C03, C04, C05, C06, C09, C53

Sources in these theorems do not fail (`Healthy`); failing sources are the subject of C08
(`Verif/Props/Faults.lean`).
-/

namespace Deku

open Reader

/-! ### the specification vocabulary means what it should -/

/-- Bit `i` of the most-significant-bit-first sequence is bit `7 - i % 8` of byte `i / 8`. -/
theorem bytesBits_index (bs : List Byte) (i : Nat) (h : i < 8 * bs.length) :
    (bytesBits bs)[i]? = some ((bs[i / 8]'(by omega)).getLsbD (7 - i % 8)) := by
  induction bs generalizing i with
  | nil => simp at h
  | cons b bs ih =>
    rw [bytesBits_cons]
    by_cases hi : i < 8
    · rw [List.getElem?_append_left (by simpa using hi)]
      have : i / 8 = 0 := by omega
      simp only [this, List.getElem_cons_zero]
      have h7 : 7 - i % 8 < 8 := by omega
      rcases i with _ | _ | _ | _ | _ | _ | _ | _ | i <;>
        first | omega | simp [byteBits, bitsBE, BitVec.getLsbD]
    · rw [List.getElem?_append_right (by simp; omega), length_byteBits, ih _ (by simp at h; omega)]
      congr 2
      · have : i / 8 = (i - 8) / 8 + 1 := by omega
        simp only [this, List.getElem_cons_succ]
      · omega

/-- Bit `i` of the least-significant-bit-first sequence is bit `i % 8` of byte `i / 8`. -/
theorem bytesBitsLsb_index (bs : List Byte) (i : Nat) (h : i < 8 * bs.length) :
    (bytesBitsLsb bs)[i]? = some ((bs[i / 8]'(by omega)).getLsbD (i % 8)) := by
  induction bs generalizing i with
  | nil => simp at h
  | cons b bs ih =>
    rw [bytesBitsLsb_cons]
    by_cases hi : i < 8
    · rw [List.getElem?_append_left (by simpa using hi)]
      have : i / 8 = 0 := by omega
      simp only [this, List.getElem_cons_zero]
      rcases i with _ | _ | _ | _ | _ | _ | _ | _ | i <;>
        first | omega | simp [byteBits, bitsBE, BitVec.getLsbD]
    · rw [List.getElem?_append_right (by simp; omega), List.length_reverse, length_byteBits,
        ih _ (by simp at h; omega)]
      congr 2
      · have : i / 8 = (i - 8) / 8 + 1 := by omega
        simp only [this, List.getElem_cons_succ]
      · omega

/-! ### C01, C02: sequences of bit reads -/

theorem readSizes_run (o : Order) (ns : List Nat) {r : Reader} (hf : r.Healthy) (hw : r.WF)
    (h : ns.sum ≤ (r.unread o).length) :
    ∃ r', readSizes o ns r = (.ok ((segments ns (r.unread o)).map (present o)), r') ∧
      Step o ns.sum r r' := by
  induction ns generalizing r with
  | nil => exact ⟨r, rfl, Step.refl o hf hw⟩
  | cons n ns ih =>
    simp only [List.sum_cons] at h
    obtain ⟨r1, h1, s1⟩ := readBitsInto_ok o (n := n) hf hw (by omega)
    obtain ⟨r2, h2, s2⟩ := ih s1.healthy s1.wf (by rw [s1.unread, List.length_drop]; omega)
    refine ⟨r2, ?_, by simpa using s1.trans s2⟩
    rw [readSizes, M.bind_ok (show readBits n o r = _ from h1), M.bind_ok h2, s1.unread]
    rfl

theorem segments_flatten (ns : List Nat) (l : List Bool) (_h : ns.sum ≤ l.length) :
    (segments ns l).flatten = l.take ns.sum := by
  induction ns generalizing l with
  | nil => simp [segments]
  | cons n ns ih =>
    simp only [List.sum_cons] at _h
    simp only [segments, List.flatten_cons, List.sum_cons]
    rw [ih _ (by simp; omega), List.take_add]

theorem segments_lengths (ns : List Nat) (l : List Bool) (h : ns.sum ≤ l.length) :
    (segments ns l).map List.length = ns := by
  induction ns generalizing l with
  | nil => rfl
  | cons n ns ih =>
    simp only [List.sum_cons] at h
    simp only [segments, List.map_cons, List.length_take]
    rw [ih _ (by simp; omega), Nat.min_eq_left (by omega)]

theorem unread_new (o : Order) (data : List Byte) :
    (Reader.new { data := data }).unread o = orderBits o data := by
  cases o <;> rfl

theorem new_healthy (data : List Byte) : (Reader.new { data := data }).Healthy := rfl
theorem new_wf (data : List Byte) : (Reader.new { data := data }).WF := by
  intro l h; simp [Reader.new] at h

/-- The pending bits after reading `n` bits of `data` in one order. -/
theorem rest_of_step {o : Order} {n : Nat} {data : List Byte} {r' : Reader}
    (hs : Step o n (Reader.new { data := data }) r') (_h : n ≤ 8 * data.length) :
    present o r'.rest = ((orderBits o data).drop n).take ((8 - n % 8) % 8) := by
  have hnp : r'.NoPeek := hs.noPeek (.inl (by intro b h; simp [Reader.new] at h))
  have hlt : r'.rest.length < 8 := by
    rcases hl : r'.leftover with _ | (b | l)
    · simp [Reader.rest, hl, leftoverBits]
    · exact absurd hl (hnp b)
    · have := hs.wf l hl; simp [Reader.rest, hl, leftoverBits]; omega
  have hu := hs.unread
  rw [unread_new] at hu
  have hsync := hs.sync
  have hb := hs.bitsRead
  have h0 : (Reader.new { data := data }).rest.length = 0 := rfl
  rw [h0] at hsync
  simp [Reader.new] at hsync hb
  have hrl : r'.rest.length = (8 - n % 8) % 8 := by omega
  rw [← hu, ← hrl]
  have hpl : (present o r'.rest).length = r'.rest.length := by cases o <;> simp [present]
  have : r'.unread o = present o r'.rest ++ orderBits o (avail r') := by cases o <;> rfl
  rw [this, ← hpl, List.take_left]

/-- **C01.** Any sequence of Msb0 bit reads that together ask for no more than the input holds
returns consecutive segments of the input's most-significant-bit-first sequence. -/
theorem C01_msb0_reads_walk_stream (data : List Byte) (ns : List Nat)
    (h : ns.sum ≤ 8 * data.length) :
    ∃ outs r', readSizes .msb0 ns (Reader.new { data := data }) = (.ok outs, r') ∧
      outs.map List.length = ns ∧
      outs.flatten = (bytesBits data).take ns.sum ∧
      r'.bitsRead = ns.sum ∧
      r'.rest = ((bytesBits data).drop ns.sum).take ((8 - ns.sum % 8) % 8) := by
  obtain ⟨r', hr, hs⟩ := readSizes_run .msb0 ns (new_healthy data) (new_wf data)
    (by rw [unread_new]; simpa using h)
  rw [unread_new] at hr
  refine ⟨_, r', hr, ?_, ?_, ?_, rest_of_step hs h⟩
  · rw [show present .msb0 = id from rfl, List.map_id]
    exact segments_lengths _ _ (by simpa [orderBits] using h)
  · rw [show present .msb0 = id from rfl, List.map_id]
    exact segments_flatten _ _ (by simpa [orderBits] using h)
  · rw [hs.bitsRead]; simp [Reader.new]

/-- Three reads of 3, 0 and 10 bits on two bytes meet the hypothesis. -/
example : [3, 0, 10].sum ≤ 8 * [0xA5#8, 0x3C#8].length := by decide

/-- **C02.** Any sequence of Lsb0 bit reads returns consecutive segments of the input's
least-significant-bit-first sequence, each presented last consumed bit first. -/
theorem C02_lsb0_reads_walk_stream (data : List Byte) (ns : List Nat)
    (h : ns.sum ≤ 8 * data.length) :
    ∃ outs r', readSizes .lsb0 ns (Reader.new { data := data }) = (.ok outs, r') ∧
      outs.map List.length = ns ∧
      (outs.map List.reverse).flatten = (bytesBitsLsb data).take ns.sum ∧
      r'.bitsRead = ns.sum ∧
      r'.rest.reverse = ((bytesBitsLsb data).drop ns.sum).take ((8 - ns.sum % 8) % 8) := by
  obtain ⟨r', hr, hs⟩ := readSizes_run .lsb0 ns (new_healthy data) (new_wf data)
    (by rw [unread_new]; simpa using h)
  rw [unread_new] at hr
  have hle : ns.sum ≤ (bytesBitsLsb data).length := by simpa using h
  refine ⟨_, r', hr, ?_, ?_, ?_, rest_of_step hs h⟩
  · have := segments_lengths ns (bytesBitsLsb data) hle
    rw [List.map_map]
    rw [show (List.length ∘ present .lsb0) = List.length by funext l; simp [present]]
    exact this
  · rw [List.map_map, show (List.reverse ∘ present .lsb0) = id by funext l; simp [present],
      List.map_id]
    exact segments_flatten _ _ hle
  · rw [hs.bitsRead]; simp [Reader.new]

example : [5, 11].sum ≤ 8 * [0xA5#8, 0x3C#8].length := by decide

/-! ### C03: when a bit read succeeds -/

/-- **C03.** On a source that does not fail, a bit read of `n` bits returns `Ok` exactly when at
least `n` unread bits remain and `Incomplete(n)` otherwise; the bits returned are the next unread
ones. -/
theorem C03_bit_read_succeeds_iff (o : Order) (n : Nat) (r : Reader) (hf : r.Healthy)
    (hw : r.WF) :
    (n ≤ (r.unread o).length → ∃ r', readBits n o r = (.ok (present o ((r.unread o).take n)), r') ∧
      r'.unread o = (r.unread o).drop n ∧ r'.bitsRead = r.bitsRead + n ∧ r'.Healthy ∧ r'.WF) ∧
    ((r.unread o).length < n → ∃ r', readBits n o r = (.err (.incomplete n), r') ∧
      r'.bitsRead = r.bitsRead ∧ r'.Healthy ∧ r'.WF) := by
  refine ⟨fun h => ?_, fun h => ?_⟩
  · obtain ⟨r', h1, s⟩ := readBitsInto_ok o hf hw h
    exact ⟨r', h1, s.unread, s.bitsRead, s.healthy, s.wf⟩
  · obtain ⟨r', h1, s⟩ := readBitsInto_short o hf hw (show ¬ n ≤ _ by omega)
    exact ⟨r', h1, s.bitsRead, s.healthy, by intro l h; simp [s.leftover] at h⟩

/-- In particular the outcome is `Ok` exactly when enough bits remain, and never a panic. -/
theorem C03_bit_read_ok_iff (o : Order) (n : Nat) (r : Reader) (hf : r.Healthy) (hw : r.WF) :
    ((∃ l r', readBits n o r = (.ok l, r')) ↔ n ≤ (r.unread o).length) ∧
    (readBits n o r).1 ≠ .panic := by
  obtain ⟨h1, h2⟩ := C03_bit_read_succeeds_iff o n r hf hw
  by_cases h : n ≤ (r.unread o).length
  · obtain ⟨r', hr, _⟩ := h1 h
    exact ⟨⟨fun _ => h, fun _ => ⟨_, r', hr⟩⟩, by rw [hr]; simp⟩
  · obtain ⟨r', hr, _⟩ := h2 (by omega)
    refine ⟨⟨?_, fun h' => absurd h' h⟩, by rw [hr]; simp⟩
    rintro ⟨l, r'', h'⟩
    rw [hr] at h'; simp at h'

/-- A reader in the middle of its first byte meets the hypotheses. -/
example : let r : Reader := { inner := { data := [0xA5#8, 0x3C#8], pos := 1 }, leftover := some (.bits [true, false, true]), bitsRead := 5 }
    r.WF ∧ r.Healthy := by
  refine ⟨?_, rfl⟩
  intro l h; simp at h; subst h; decide

/-! ### C04: byte reads -/

/-- **C04**, every case except reading zero bytes while a byte is peeked (see
`C04_zero_bytes_after_end_panics`). -/
theorem C04_byte_reads_agree_with_bit_reads_partial (o : Order) (n : Nat) (r : Reader)
    (hf : r.Healthy) (hw : r.WF) (hp : r.NoPeek ∨ 0 < n)
    (f : Nat → Order → M Reader (List Byte))
    (hfn : f = readBytes ∨ f = readBytesConst ∨ f = readBytesConstInto) :
    (8 * n ≤ (r.unread o).length → ∃ bs r', f n o r = (.ok bs, r') ∧ bs.length = n ∧
      orderBits o bs = (r.unread o).take (8 * n) ∧ r'.unread o = (r.unread o).drop (8 * n) ∧
      r'.bitsRead = r.bitsRead + 8 * n ∧ r'.Healthy ∧ r'.WF) ∧
    ((r.unread o).length < 8 * n → ∃ k r', f n o r = (.err (.incomplete k), r') ∧
      r'.bitsRead = r.bitsRead ∧ r'.Healthy ∧ r'.WF) := by
  have hf' : f = readBytes := by
    rcases hfn with h | h | h
    · exact h
    · rw [h]; rfl
    · rw [h]; rfl
  subst hf'
  refine ⟨fun h => ?_, fun h => ?_⟩
  · obtain ⟨bs, r', h1, h2, s⟩ := readBytes_ok o hf hw hp h
    refine ⟨bs, r', h1, ?_, h2, s.unread, s.bitsRead, s.healthy, s.wf⟩
    have := congrArg List.length h2
    rw [length_orderBits, List.length_take] at this
    omega
  · obtain ⟨k, r', h1, _, _, h2, h3, h4, h5⟩ := readBytes_short o hf hw
      (show ¬ 8 * n ≤ _ by omega)
    exact ⟨k, r', h1, h4, h3, by intro l h; simp [h5] at h⟩

/-- A reader holding a peeked byte and asked for two bytes meets the hypotheses. -/
example : let r : Reader := { inner := { data := [0xA5#8, 0x3C#8], pos := 1 }, leftover := some (.byte 0xA5#8) }
    r.Healthy ∧ r.WF ∧ (r.NoPeek ∨ 0 < 2) ∧ 8 * 2 ≤ (r.unread .lsb0).length := by
  refine ⟨rfl, ?_, .inr (by decide), by decide⟩
  intro l h; simp at h

/-- **C04 is false for zero bytes on a peeked byte**: the code indexes an empty buffer. -/
theorem C04_zero_bytes_after_end_panics (o : Order) (b : Byte) (r : Reader)
    (h : r.leftover = some (.byte b)) : (readBytes 0 o r).1 = .panic := by
  simp [readBytes, h, readBytesLeftover]

/-- Such a reader arises from `end()` on a nonempty input. -/
theorem C04_counterexample :
    ((do let _ ← Reader.end; readBytes 0 .msb0 : M Reader (List Byte))
      (Reader.new { data := [7#8] })).1 = .panic := by decide

/-! ### C05: `end()` is an observation -/

/-- Two readers between which no later call can tell a difference. -/
structure Same (r r' : Reader) : Prop where
  healthy : r.Healthy
  healthy' : r'.Healthy
  wf : r.WF
  wf' : r'.WF
  bitsRead : r'.bitsRead = r.bitsRead
  unread : ∀ o, r'.unread o = r.unread o

theorem rest_lt {r : Reader} (hw : r.WF) (hp : r.NoPeek) : r.rest.length < 8 := by
  rcases hl : r.leftover with _ | (b | l)
  · simp [Reader.rest, hl, leftoverBits]
  · exact absurd hl (hp b)
  · have := hw l hl; simp [Reader.rest, hl, leftoverBits]; omega

theorem unread_eq (o : Order) (r : Reader) :
    r.unread o = present o r.rest ++ orderBits o (avail r) := by cases o <;> rfl

@[simp] theorem length_present (o : Order) (l : List Bool) : (present o l).length = l.length := by
  cases o <;> simp [present]

theorem present_inj {o : Order} {a b : List Bool} (h : present o a = present o b) : a = b := by
  cases o
  · exact h
  · exact List.reverse_inj.1 h

theorem unread_det {o : Order} {r r' : Reader} (hw : r.WF) (hw' : r'.WF) (hp : r.NoPeek)
    (hp' : r'.NoPeek) (h : r'.unread o = r.unread o) : ∀ o', r'.unread o' = r.unread o' := by
  have h1 := rest_lt hw hp
  have h2 := rest_lt hw' hp'
  rw [unread_eq, unread_eq] at h
  have hl := congrArg List.length h
  simp at hl
  obtain ⟨ha, hb⟩ := List.append_inj h (by simp; omega)
  have := present_inj ha
  have := orderBits_inj o hb
  intro o'
  rw [unread_eq, unread_eq]
  simp_all

/-- Equal outcomes, except that the size carried by `Incomplete` may differ. -/
def sameRes {α : Type} : Res α → Res α → Prop
  | .ok a, .ok b => a = b
  | .err (.incomplete _), .err (.incomplete _) => True
  | .err e, .err e' => e = e'
  | .panic, .panic => True
  | _, _ => False

/-- A call of the modelled kind that asks for at least one byte if it is a byte read. -/
def ReadOp.nonZero : ReadOp → Prop
  | .bytes n _ => 0 < n
  | _ => True

theorem Same.op {r r' : Reader} (hs : Same r r') (op : ReadOp) (hz : op.nonZero)
    (hread : op.isRead = true) :
    sameRes (op.call r).1 (op.call r').1 ∧
    (∀ x, (op.call r).1 = .ok x → x.isRead = true ∧ Same (op.call r).2 (op.call r').2) := by
  cases op with
  | atEnd => simp [ReadOp.isRead] at hread
  | bits n o =>
    by_cases h : n ≤ (r.unread o).length
    · obtain ⟨r1, h1, s1⟩ := readBitsInto_ok o hs.healthy hs.wf h
      obtain ⟨r2, h2, s2⟩ := readBitsInto_ok o hs.healthy' hs.wf' (by rw [hs.unread]; exact h)
      have e1 : (ReadOp.bits n o).call r = (.ok (.bits (present o ((r.unread o).take n))), r1) := by
        rw [ReadOp.call, M.bind_ok (show readBits n o r = _ from h1)]; rfl
      have e2 : (ReadOp.bits n o).call r' = (.ok (.bits (present o ((r.unread o).take n))), r2) := by
        rw [ReadOp.call, M.bind_ok (show readBits n o r' = _ from h2), hs.unread]; rfl
      rw [e1, e2]
      refine ⟨rfl, fun x hx => ⟨?_, s1.healthy, s2.healthy, s1.wf, s2.wf, ?_, ?_⟩⟩
      · simp at hx; subst hx; rfl
      · rw [s1.bitsRead, s2.bitsRead, hs.bitsRead]
      · by_cases hn : 0 < n
        · exact unread_det s1.wf s2.wf (s1.noPeek (.inr hn)) (s2.noPeek (.inr hn))
            (o := o) (by rw [s1.unread, s2.unread, hs.unread])
        · have : n = 0 := by omega
          subst this
          have hr1 : r1 = r := by simp [readBitsInto] at h1; exact h1.2.symm
          have hr2 : r2 = r' := by simp [readBitsInto] at h2; exact h2.2.symm
          rw [hr1, hr2]; exact hs.unread
    · obtain ⟨r1, h1, s1⟩ := readBitsInto_short o hs.healthy hs.wf h
      obtain ⟨r2, h2, s2⟩ := readBitsInto_short o hs.healthy' hs.wf'
        (show ¬ n ≤ _ by rw [hs.unread]; exact h)
      have e1 : (ReadOp.bits n o).call r = (.err (.incomplete n), r1) := by
        rw [ReadOp.call, M.bind_err (show readBits n o r = _ from h1)]
      have e2 : (ReadOp.bits n o).call r' = (.err (.incomplete n), r2) := by
        rw [ReadOp.call, M.bind_err (show readBits n o r' = _ from h2)]
      rw [e1, e2]
      exact ⟨trivial, by simp⟩
  | bytes n o =>
    have hn : 0 < n := hz
    by_cases h : 8 * n ≤ (r.unread o).length
    · obtain ⟨b1, r1, h1, g1, s1⟩ := readBytes_ok o hs.healthy hs.wf (.inr hn) h
      obtain ⟨b2, r2, h2, g2, s2⟩ := readBytes_ok o hs.healthy' hs.wf' (.inr hn)
        (by rw [hs.unread]; exact h)
      have hb : b2 = b1 := orderBits_inj o (by rw [g1, g2, hs.unread])
      subst hb
      have e1 : (ReadOp.bytes n o).call r = (.ok (.bytes b2), r1) := by
        rw [ReadOp.call, M.bind_ok h1]; rfl
      have e2 : (ReadOp.bytes n o).call r' = (.ok (.bytes b2), r2) := by
        rw [ReadOp.call, M.bind_ok h2]; rfl
      rw [e1, e2]
      refine ⟨rfl, fun x hx => ⟨?_, s1.healthy, s2.healthy, s1.wf, s2.wf, ?_, ?_⟩⟩
      · simp at hx; subst hx; rfl
      · rw [s1.bitsRead, s2.bitsRead, hs.bitsRead]
      · exact unread_det s1.wf s2.wf (s1.noPeek (.inr (by omega))) (s2.noPeek (.inr (by omega)))
            (o := o) (by rw [s1.unread, s2.unread, hs.unread])
    · obtain ⟨k1, r1, h1, _⟩ := readBytes_short o hs.healthy hs.wf h
      obtain ⟨k2, r2, h2, _⟩ := readBytes_short o hs.healthy' hs.wf'
        (show ¬ 8 * n ≤ _ by rw [hs.unread]; exact h)
      have e1 : (ReadOp.bytes n o).call r = (.err (.incomplete k1), r1) := by
        rw [ReadOp.call, M.bind_err h1]
      have e2 : (ReadOp.bytes n o).call r' = (.err (.incomplete k2), r2) := by
        rw [ReadOp.call, M.bind_err h2]
      rw [e1, e2]
      exact ⟨trivial, by simp⟩

theorem Same.atEnd {r r' : Reader} (hs : Same r r') :
    ∃ b r'', Reader.end r' = (.ok b, r'') ∧ Same r r'' := by
  obtain ⟨r'', h, hh, _, hb, hu, hwf, _⟩ := end_spec hs.healthy'
  exact ⟨_, r'', h, hs.healthy, hh, hs.wf, hwf hs.wf', by rw [hb, hs.bitsRead],
    fun o => by rw [hu, hs.unread]⟩

/-- What remains of a sequence of answers once those of `end()` are left out. -/
def reads (xs : List ReadOut) : List ReadOut := xs.filter ReadOut.isRead

def sameRun : Res (List ReadOut) → Res (List ReadOut) → Prop
  | .ok a, .ok b => a = reads b
  | .err (.incomplete _), .err (.incomplete _) => True
  | .err e, .err e' => e = e'
  | .panic, .panic => True
  | _, _ => False

theorem Same.run (ops : List ReadOp) (hz : ∀ op ∈ ops, op.nonZero) {r r' : Reader}
    (hs : Same r r') :
    sameRun (runReads (ops.filter ReadOp.isRead) r).1 (runReads ops r').1 ∧
    (∀ xs, (runReads (ops.filter ReadOp.isRead) r).1 = .ok xs →
      Same (runReads (ops.filter ReadOp.isRead) r).2 (runReads ops r').2) := by
  induction ops generalizing r r' with
  | nil => exact ⟨rfl, fun _ _ => hs⟩
  | cons op ops ih =>
    have hz' : ∀ op ∈ ops, op.nonZero := fun op h => hz op (List.mem_cons_of_mem _ h)
    cases hop : op.isRead with
    | true =>
      rw [List.filter_cons_of_pos hop]
      obtain ⟨h1, h2⟩ := hs.op op (hz op List.mem_cons_self) hop
      simp only [runReads]
      rcases e1 : op.call r with ⟨x1, r1⟩
      rcases e2 : op.call r' with ⟨x2, r2⟩
      rw [e1, e2] at h1 h2
      cases x1 with
      | panic =>
        cases x2 <;> simp [sameRes] at h1
        rw [M.bind_panic e1, M.bind_panic e2]
        exact ⟨trivial, by simp⟩
      | err e =>
        rw [M.bind_err e1]
        cases x2 with
        | ok y => cases e <;> simp [sameRes] at h1
        | panic => cases e <;> simp [sameRes] at h1
        | err e' =>
          rw [M.bind_err e2]
          refine ⟨?_, by simp⟩
          cases e <;> cases e' <;> simp_all [sameRes, sameRun]
      | ok y =>
        cases x2 with
        | err e' => cases e' <;> simp [sameRes] at h1
        | panic => simp [sameRes] at h1
        | ok y' =>
          simp only [sameRes] at h1
          subst h1
          obtain ⟨hy, hsame⟩ := h2 y rfl
          obtain ⟨ih1, ih2⟩ := ih hz' hsame
          rw [M.bind_ok e1, M.bind_ok e2]
          rcases f1 : runReads (ops.filter ReadOp.isRead) r1 with ⟨z1, q1⟩
          rcases f2 : runReads ops r2 with ⟨z2, q2⟩
          rw [f1, f2] at ih1 ih2
          cases z1 with
          | panic =>
            cases z2 <;> simp [sameRun] at ih1
            rw [M.bind_panic f1, M.bind_panic f2]
            exact ⟨trivial, by simp⟩
          | err e =>
            rw [M.bind_err f1]
            cases z2 with
            | ok y => cases e <;> simp [sameRun] at ih1
            | panic => cases e <;> simp [sameRun] at ih1
            | err e' =>
              rw [M.bind_err f2]
              refine ⟨?_, by simp⟩
              cases e <;> cases e' <;> simp_all [sameRun]
          | ok zs =>
            cases z2 with
            | err e' => cases e' <;> simp [sameRun] at ih1
            | panic => simp [sameRun] at ih1
            | ok zs' =>
              rw [M.bind_ok f1, M.bind_ok f2]
              simp only [sameRun] at ih1
              refine ⟨?_, fun _ _ => ih2 zs rfl⟩
              simp [sameRun, reads, hy, ih1]
    | false =>
      rw [List.filter_cons_of_neg (by simp [hop])]
      cases op with
      | bits => simp [ReadOp.isRead] at hop
      | bytes => simp [ReadOp.isRead] at hop
      | atEnd =>
        obtain ⟨b, r'', he, hs''⟩ := hs.atEnd
        obtain ⟨ih1, ih2⟩ := ih hz' hs''
        have e2 : ReadOp.atEnd.call r' = (.ok (.flag b), r'') := by
          rw [ReadOp.call, M.bind_ok he]; rfl
        simp only [runReads]
        rw [M.bind_ok e2]
        rcases f1 : runReads (ops.filter ReadOp.isRead) r with ⟨z1, q1⟩
        rcases f2 : runReads ops r'' with ⟨z2, q2⟩
        rw [f1, f2] at ih1 ih2
        cases z2 with
        | panic => rw [M.bind_panic f2]; exact ⟨ih1, ih2⟩
        | err e => rw [M.bind_err f2]; exact ⟨ih1, ih2⟩
        | ok zs' =>
          rw [M.bind_ok f2]
          refine ⟨?_, ih2⟩
          cases z1 with
          | panic => exact ih1
          | err e => cases e <;> exact ih1
          | ok zs =>
            simp only [sameRun] at ih1
            simp [sameRun, reads, ih1, ReadOut.isRead]

/-- **C05**, first half: `end()` answers whether unread bits remain. -/
theorem C05_end_tells_whether_bits_remain (r : Reader) (hf : r.Healthy) (hw : r.WF) (o : Order) :
    ∃ r', Reader.end r = (.ok (decide ((r.unread o).length = 0)), r') := by
  obtain ⟨r', h, _⟩ := end_spec hf
  refine ⟨r', ?_⟩
  rw [h]
  have hlen := length_unread o r
  have hlen' : r.unreadMsb.length = _ := length_unread .msb0 r
  have : (r.unreadMsb = [] ∧ r.leftover = none) ↔ (r.unread o).length = 0 := by
    rw [← List.length_eq_zero_iff, hlen, hlen']
    rcases hl : r.leftover with _ | (b | l)
    · simp
    · have : r.rest.length = 8 := by simp [Reader.rest, hl, leftoverBits]
      simp only [reduceCtorEq, and_false, false_iff]; omega
    · have := hw l hl
      have : r.rest.length = l.length := by simp [Reader.rest, hl, leftoverBits]
      simp only [reduceCtorEq, and_false, false_iff]; omega
  rw [decide_eq_decide.2 this]

/-- **C05**, second half: in any sequence of bit reads, byte reads of at least one byte and calls of
`end()`, leaving out the calls of `end()` changes neither whether the sequence succeeds, nor any
value read, nor `bits_read`, nor what can still be read. Zero-byte reads are excluded, see
`C04_counterexample`; if a read fails with `Incomplete`, the size reported may differ, see
`C05_end_changes_needsize`. -/
theorem C05_end_is_an_observation_partial (ops : List ReadOp) (hz : ∀ op ∈ ops, op.nonZero)
    (r : Reader) (hf : r.Healthy) (hw : r.WF) :
    sameRun (runReads (ops.filter ReadOp.isRead) r).1 (runReads ops r).1 ∧
    (∀ xs, (runReads (ops.filter ReadOp.isRead) r).1 = .ok xs →
      (runReads ops r).2.bitsRead = (runReads (ops.filter ReadOp.isRead) r).2.bitsRead ∧
      ∀ o, (runReads ops r).2.unread o = (runReads (ops.filter ReadOp.isRead) r).2.unread o) := by
  obtain ⟨h1, h2⟩ := Same.run ops hz (r := r) (r' := r)
    ⟨hf, hf, hw, hw, rfl, fun _ => rfl⟩
  exact ⟨h1, fun xs h => ⟨(h2 xs h).bitsRead, (h2 xs h).unread⟩⟩

/-- A sequence with calls of `end()` in it, on a reader in use. -/
example : ∀ op ∈ [ReadOp.atEnd, .bits 3 .lsb0, .atEnd, .bytes 1 .msb0, .atEnd, .atEnd],
    op.nonZero := by
  simp [ReadOp.nonZero]

/-- `end()` does change the size reported by a failing byte read: one byte less. -/
theorem C05_end_changes_needsize :
    (runReads [.bytes 2 .msb0] (Reader.new { data := [1#8] })).1 = .err (.incomplete 16) ∧
    (runReads [.atEnd, .bytes 2 .msb0] (Reader.new { data := [1#8] })).1 = .err (.incomplete 8) := by
  decide

/-! ### C06: skipping -/

/-- **C06** on readers that do not hold a peeked byte and whose source started at position 0.
Missing: the other states, where it is false (`C06_skip_after_end`, `C06_skip_counts_absolute`), and
the error for a skip beyond the end of the input, which is not reported
(`C06_skip_past_end_succeeds`). -/
theorem C06_skip_is_read_and_discard_partial (o : Order) (n : Nat) (r : Reader) (hf : r.Healthy)
    (hw : r.WF) (hp : r.NoPeek) (hs : r.Synced 0) (h : n ≤ (r.unread o).length) :
    ∃ l r1 r2, skipBits n o r = (.ok (), r1) ∧ readBits n o r = (.ok l, r2) ∧
      r1.bitsRead = r2.bitsRead ∧ (∀ o', r1.unread o' = r2.unread o') ∧ r1.WF ∧ r1.Healthy ∧
      r1.NoPeek ∧ r1.Synced 0 := by
  obtain ⟨r1, h1, s1⟩ := skip_step hf hw hp hs h
  obtain ⟨r2, h2, s2⟩ := readBitsInto_ok o hf hw h
  refine ⟨_, r1, r2, h1, h2, by rw [s1.bitsRead, s2.bitsRead], ?_, s1.wf, s1.healthy,
    s1.noPeek (.inl hp), s1.synced hs⟩
  exact unread_det s2.wf s1.wf (s2.noPeek (.inl hp)) (s1.noPeek (.inl hp)) (o := o)
    (by rw [s1.unread, s2.unread])

/-- Skipping 12 of 21 bits left after 3 were read. -/
example : let r : Reader := { inner := { data := [0xA5#8, 0x3C#8, 1#8], pos := 1 }, leftover := some (.bits [true, false, true, true, true]), bitsRead := 3 }
    r.Healthy ∧ r.WF ∧ r.NoPeek ∧ r.Synced 0 ∧ 12 ≤ (r.unread .msb0).length := by
  refine ⟨rfl, ?_, ?_, ?_, by decide⟩
  · intro l h; simp at h; subst h; decide
  · intro b h; simp at h
  · simp [Reader.Synced, Reader.rest, leftoverBits]

/-- A source that starts at another position: the data skipped is right, the counter is not. -/
theorem C06_skip_is_drop_partial (o : Order) (n p0 : Nat) (r : Reader) (hf : r.Healthy)
    (hw : r.WF) (hp : r.NoPeek) (hs : r.Synced p0) (h : n ≤ (r.unread o).length) :
    ∃ r1, skipBits n o r = (.ok (), r1) ∧ r1.unread o = (r.unread o).drop n := by
  obtain ⟨r1, h1, s1, _⟩ := skip_ok hf hw hp hs h
  exact ⟨r1, h1, s1.unread⟩

/-- **C06 is false after `end()`**: the peeked byte is thrown away in addition to the 8 bits asked
for; skipping 8 bits of `[1, 2, 3]` leaves 8 unread bits instead of 16. -/
theorem C06_skip_after_end :
    ((do let _ ← Reader.end; skipBits 8 .msb0; readBits 8 .msb0 : M Reader (List Bool))
      (Reader.new { data := [1#8, 2#8, 3#8] })).1 = .ok (byteBits 3#8) ∧
    ((do let _ ← Reader.end; let _ ← readBits 8 .msb0; readBits 8 .msb0 : M Reader (List Bool))
      (Reader.new { data := [1#8, 2#8, 3#8] })).1 = .ok (byteBits 2#8) := by decide

/-- **C06 is false for the counter** when the source does not start at position 0: after skipping
one byte `bits_read` is 24. -/
theorem C06_skip_counts_absolute :
    ((skipBits 8 .msb0) (Reader.new { data := [1#8, 2#8, 3#8, 4#8], pos := 2 })).2.bitsRead = 24 := by
  decide

/-- **C06 is false beyond the end**: skipping two bytes of a one byte input succeeds. -/
theorem C06_skip_past_end_succeeds :
    ((skipBits 16 .msb0) (Reader.new { data := [1#8] })).1 = .ok () := by decide

/-! ### C09: only requested data is taken from the source -/

/-- **C09.** After any sequence of bit and byte reads that succeeded on a fresh reader, `bits_read`
is the number of bits asked for, fewer than 8 bits are buffered, and the source stands at its start
position plus the number of bits read rounded up to bytes. -/
theorem C09_only_requested_data_is_taken (ops : List ReadOp) (hr : ∀ op ∈ ops, op.isRead = true)
    (s : Src) (hf : s.faults = noFaults) (xs : List ReadOut) (r' : Reader)
    (h : runReads ops (Reader.new s) = (.ok xs, r')) :
    r'.bitsRead = (ops.map ReadOp.size).sum ∧ r'.rest.length < 8 ∧
      r'.inner.pos = s.pos + (r'.bitsRead + 7) / 8 ∧ r'.inner.data = s.data := by
  suffices ∀ (ops : List ReadOp) (r : Reader) (xs : List ReadOut),
      (∀ op ∈ ops, op.isRead = true) → r.Healthy → r.WF → r.NoPeek → r.Synced s.pos →
      runReads ops r = (.ok xs, r') → r'.bitsRead = r.bitsRead + (ops.map ReadOp.size).sum ∧
        r'.WF ∧ r'.NoPeek ∧ r'.Synced s.pos ∧ r'.inner.data = r.inner.data by
    obtain ⟨h1, h2, h3, h4, h5⟩ := this ops (Reader.new s) xs hr hf
      (by intro l h; simp [Reader.new] at h) (by intro l h; simp [Reader.new] at h)
      (by simp [Reader.Synced, Reader.new, Reader.rest, leftoverBits]) h
    have h6 := rest_lt h2 h3
    refine ⟨by simpa [Reader.new] using h1, h6, ?_, h5⟩
    simp only [Reader.Synced] at h4
    omega
  clear h hr xs ops
  intro ops
  induction ops with
  | nil =>
    intro r xs _ hf hw hp hs h
    simp [runReads] at h
    obtain ⟨_, rfl⟩ := h
    exact ⟨by simp, hw, hp, hs, rfl⟩
  | cons op ops ih =>
    intro r xs hr hf hw hp hs h
    obtain ⟨x, r1, h1, h2⟩ := M.bind_eq_ok h
    obtain ⟨ys, r2, h3, h4⟩ := M.bind_eq_ok h2
    simp at h4
    obtain ⟨_, rfl⟩ := h4
    have key : ∃ o, Step o op.size r r1 := by
      cases op with
      | atEnd => exact absurd (hr _ List.mem_cons_self) (by simp [ReadOp.isRead])
      | bits n o =>
        obtain ⟨l, r1', g1, g2⟩ := M.bind_eq_ok h1
        simp at g2
        obtain ⟨_, rfl⟩ := g2
        by_cases hle : n ≤ (r.unread o).length
        · obtain ⟨q, g3, st⟩ := readBitsInto_ok o hf hw hle
          rw [show readBits n o r = readBitsInto n o r from rfl, g3] at g1
          simp at g1
          obtain ⟨_, rfl⟩ := g1
          exact ⟨o, st⟩
        · obtain ⟨q, g3, _⟩ := readBitsInto_short o hf hw hle
          rw [show readBits n o r = readBitsInto n o r from rfl, g3] at g1
          simp at g1
      | bytes n o =>
        obtain ⟨l, r1', g1, g2⟩ := M.bind_eq_ok h1
        simp at g2
        obtain ⟨_, rfl⟩ := g2
        by_cases hle : 8 * n ≤ (r.unread o).length
        · obtain ⟨bs, q, g3, _, st⟩ := readBytes_ok o hf hw (.inl hp) hle
          rw [g3] at g1
          simp at g1
          obtain ⟨_, rfl⟩ := g1
          exact ⟨o, st⟩
        · obtain ⟨k, q, g3, _⟩ := readBytes_short o hf hw hle
          rw [g3] at g1
          simp at g1
    obtain ⟨o, st⟩ := key
    obtain ⟨i1, i2, i3, i4, i5⟩ := ih r1 ys (fun op h => hr op (List.mem_cons_of_mem _ h)) st.healthy
      st.wf (st.noPeek (.inl hp)) (st.synced hs) h3
    exact ⟨by rw [i1, st.bitsRead]; simp; omega, i2, i3, i4, i5.trans st.data⟩

/-- Reads of mixed kinds and orders that succeed on three bytes. -/
example : (runReads [.bits 3 .msb0, .bytes 1 .msb0, .bits 6 .lsb0]
    (Reader.new { data := [0xA5#8, 0x3C#8, 1#8] })).1 =
    .ok [.bits [true, false, true], .bytes [0x29#8], .bits [true, true, true, true, false, false]] := by
  decide

/-! ### C53: `Incomplete` tells enough to retry -/

/-- **C53.** A failing bit read, integer bit read or byte read of `n` bits reports at least as many
bits as are missing. -/
theorem C53_incomplete_is_enough (o : Order) (r : Reader) (hf : r.Healthy) (hw : r.WF) (k : Nat) :
    (∀ n, (readBits n o r).1 = .err (.incomplete k) →
      n ≤ (r.unread o).length + k ∧ (r.unread o).length < n) ∧
    (∀ n, (readBytes n o r).1 = .err (.incomplete k) →
      8 * n ≤ (r.unread o).length + k ∧ (r.unread o).length < 8 * n) ∧
    (∀ n, (readBitsUintMsb0 n r).1 = .err (.incomplete k) →
      n ≤ (r.unread .msb0).length + k ∧ (r.unread .msb0).length < n) := by
  refine ⟨fun n h => ?_, fun n h => ?_, fun n h => ?_⟩
  · by_cases hle : n ≤ (r.unread o).length
    · obtain ⟨r', h1, _⟩ := readBitsInto_ok o hf hw hle
      rw [show readBits n o r = _ from h1] at h; simp at h
    · obtain ⟨r', h1, _⟩ := readBitsInto_short o hf hw hle
      rw [show readBits n o r = _ from h1] at h; simp at h
      omega
  · by_cases hle : 8 * n ≤ (r.unread o).length
    · by_cases hz : r.NoPeek ∨ 0 < n
      · obtain ⟨bs, r', h1, _⟩ := readBytes_ok o hf hw hz hle
        rw [h1] at h; simp at h
      · have hn : n = 0 := by
          rcases Nat.eq_zero_or_pos n with h | h
          · exact h
          · exact absurd (.inr h) hz
        have : ¬ r.NoPeek := fun h => hz (.inl h)
        rcases hl : r.leftover with _ | (b | l)
        · exact absurd (by intro b hb; simp [hl] at hb) this
        · subst hn
          rw [C04_zero_bytes_after_end_panics o b r hl] at h; simp at h
        · exact absurd (by intro b hb; simp [hl] at hb) this
    · obtain ⟨k', r', h1, h2, h3, _⟩ := readBytes_short o hf hw hle
      rw [h1] at h; simp at h; subst h
      by_cases hp : r.NoPeek
      · have := h2 hp; omega
      · have hk := h3 hp
        rcases hl : r.leftover with _ | (b | l)
        · exact absurd (by intro b hb; simp [hl] at hb) hp
        · have := length_unread o r
          have : r.rest.length = 8 := by simp [Reader.rest, hl, leftoverBits]
          omega
        · exact absurd (by intro b hb; simp [hl] at hb) hp
  · by_cases h1 : 1 ≤ n ∧ n ≤ 64
    · by_cases hle : n ≤ r.unreadMsb.length
      · obtain ⟨r', g, _⟩ := uint_ok hf hw h1.1 h1.2 hle
        rw [g] at h; simp at h
      · obtain ⟨r', g, _⟩ := uint_short hf h1.1 h1.2 hle
        rw [g] at h; simp at h
        subst h
        show n ≤ r.unreadMsb.length + n ∧ r.unreadMsb.length < n
        omega
    · exfalso
      have : (decide (1 ≤ n) && decide (n ≤ 64)) = false := by
        simp; omega
      simp [readBitsUintMsb0, this] at h

/-- A failing read on a peeked byte. -/
example : (readBytes 3 .msb0 { inner := { data := [1#8, 2#8], pos := 1 }, leftover := some (.byte 1#8) }).1 =
    .err (.incomplete 16) := by decide

end Deku
