import Verif.Spec.Program
import Verif.Model.Toplevel
import Verif.Lemmas.Sink

/-!
# Properties of the writer: C10, C11, C12, C13, C14
-/

namespace Deku

open Writer

/-- The bits a call writes, as a bit string with the most significant bit first. -/
def WriteOp.content : WriteOp → List Bool
  | .bits l _ => l
  | .bytes bs => bytesBits bs
  | .uint v amt => bitsBE amt v

/-- A call as used for Msb0 output (`amt` between 1 and 64 is the documented domain of
`write_bits_uint_msb0`). -/
def WriteOp.Msb : WriteOp → Prop
  | .bits _ o => o = .msb0
  | .bytes _ => True
  | .uint _ amt => 1 ≤ amt ∧ amt ≤ 64

theorem runWrites_msb (ops : List WriteOp) (hops : ∀ op ∈ ops, op.Msb) {w : Writer} (hw : w.WF)
    (ht : w.tag = .msb0) :
    Done .msb0 (ops.map WriteOp.content).flatten .msb0 w (runWrites ops w) := by
  induction ops generalizing w with
  | nil => exact .inl ⟨w, rfl, Wrote.refl _ hw, ht⟩
  | cons op ops ih =>
    have h1 : Done .msb0 op.content .msb0 w (op.call w) := by
      have := hops op List.mem_cons_self
      cases op with
      | bits l o =>
        simp only [WriteOp.Msb] at this
        subst this
        exact writeBitsOrder_done hw .msb0 l (.inl ht)
      | bytes bs => exact writeBytes_done_msb hw bs ht
      | uint v amt => exact writeBitsUintMsb0_done hw ht v amt this.1 this.2
    rw [runWrites, List.map_cons, List.flatten_cons]
    rcases h1 with ⟨w1, e1, s1, t1⟩ | ⟨e, w1, e1, b1⟩
    · rw [M.bind_ok e1]
      rcases ih (fun op h => hops op (List.mem_cons_of_mem _ h)) s1.wf t1 with
        ⟨w2, e2, s2, t2⟩ | ⟨e, w2, e2, b2⟩
      · exact .inl ⟨w2, e2, s1.trans s2, t2⟩
      · exact .inr ⟨e, w2, e2, by rw [List.length_append]; exact s1.broke hw b2⟩
    · rw [M.bind_err e1]
      exact .inr ⟨e, w1, rfl, b1.mono (by simp)⟩

theorem new_writer_wf : (Writer.new {}).WF := ⟨⟨Nat.le_refl _, by simp [Writer.new]⟩, by simp [Writer.new]⟩
theorem new_writer_healthy : (Writer.new {}).Healthy := ⟨rfl, rfl⟩

/-- On a fresh vector everything produced is all there is. -/
theorem Writer.Wrote.fresh {o : Order} {bits : List Bool} {w' : Writer}
    (h : Wrote o bits (Writer.new {}) w') :
    orderBits o w'.inner.data ++ present o w'.rest = bits ∧
      w'.bitsWritten = 8 * w'.inner.data.length ∧ w'.inner.pos = w'.inner.data.length := by
  have hp : w'.inner.pos = w'.inner.data.length := by
    have h1 := h.wf.1.1
    have h2 := congrArg List.length h.tail
    simp [Writer.new] at h2
    omega
  refine ⟨?_, ?_, hp⟩
  · have := h.produced
    simp only [Writer.produced, Sink.written, Writer.new, Writer.rest, hp, List.take_length] at this
    rw [show w'.rest = w'.leftover from rfl, this]
    cases o <;> simp [orderBits, present]
  · have := h.counted
    simp [Writer.new] at this
    omega

/-- **C10.** Any sequence of Msb0 bit writes, byte writes and integer bit writes on a fresh writer
produces the concatenation of what was written. -/
theorem C10_msb0_writes_concatenate (ops : List WriteOp) (hops : ∀ op ∈ ops, op.Msb) :
    ∃ w', runWrites ops (Writer.new {}) = (.ok (), w') ∧
      bytesBits w'.inner.data ++ w'.rest = (ops.map WriteOp.content).flatten ∧
      w'.bitsWritten = 8 * w'.inner.data.length ∧ w'.rest.length < 8 := by
  obtain ⟨w', h, s, _⟩ := (runWrites_msb ops hops new_writer_wf rfl).ok new_writer_healthy
  obtain ⟨h1, h2, _⟩ := s.fresh
  exact ⟨w', h, h1, h2, s.wf.2⟩

example : ∀ op ∈ [WriteOp.bits [true, false, true] .msb0, .bytes [0x12#8, 0x34#8], .uint 1234 11],
    op.Msb := by simp [WriteOp.Msb]

/-- The split does not matter: two sequences with the same concatenation leave the same output. -/
theorem C10_split_does_not_matter (ops ops' : List WriteOp) (h : ∀ op ∈ ops, op.Msb)
    (h' : ∀ op ∈ ops', op.Msb)
    (heq : (ops.map WriteOp.content).flatten = (ops'.map WriteOp.content).flatten) :
    ∃ w w', runWrites ops (Writer.new {}) = (.ok (), w) ∧
      runWrites ops' (Writer.new {}) = (.ok (), w') ∧ w.inner.data = w'.inner.data ∧
      w.rest = w'.rest ∧ w.bitsWritten = w'.bitsWritten := by
  obtain ⟨w, e, c, b, l⟩ := C10_msb0_writes_concatenate ops h
  obtain ⟨w', e', c', b', l'⟩ := C10_msb0_writes_concatenate ops' h'
  have hc : bytesBits w.inner.data ++ w.rest = bytesBits w'.inner.data ++ w'.rest := by
    rw [c, c', heq]
  have hl := congrArg List.length hc
  simp at hl
  obtain ⟨h1, h2⟩ := List.append_inj hc (by simp; omega)
  have h3 := bytesBits_inj h1
  exact ⟨w, w', e, e', h3, h2, by rw [b, b', h3]⟩

example : (([WriteOp.bits [true, false] .msb0, .bits [true] .msb0].map WriteOp.content).flatten) =
    (([WriteOp.uint 5 3].map WriteOp.content).flatten) := by decide

theorem runWrites_lsb (gs : List (List Bool)) (hgs : ∀ g ∈ gs, g.length ≤ 8) {w : Writer}
    (hw : w.WF) (ht : Mode .lsb0 w) :
    ∃ t, (t = .lsb0 ∨ gs = []) ∧
    Done .lsb0 (gs.map List.reverse).flatten t w (runWrites (gs.map (.bits · .lsb0)) w) := by
  induction gs generalizing w with
  | nil => exact ⟨w.tag, .inr rfl, .inl ⟨w, rfl, Wrote.refl _ hw, rfl⟩⟩
  | cons g gs ih =>
    refine ⟨.lsb0, .inl rfl, ?_⟩
    have h1 : Done .lsb0 g.reverse .lsb0 w (writeBitsOrder g .lsb0 w) :=
      writeBitsOrder_done hw .lsb0 g (by
        rcases ht with ht | ht
        · exact .inr ⟨ht, hgs g List.mem_cons_self⟩
        · exact .inl ht)
    rw [List.map_cons, List.map_cons, List.flatten_cons, runWrites]
    rcases h1 with ⟨w1, e1, s1, t1⟩ | ⟨e, w1, e1, b1⟩
    · rw [M.bind_ok (show (WriteOp.bits g .lsb0).call w = _ from e1)]
      obtain ⟨t, ht', hd⟩ := ih (fun op h => hgs op (List.mem_cons_of_mem _ h)) s1.wf (.inr t1)
      rcases hd with ⟨w2, e2, s2, t2⟩ | ⟨e, w2, e2, b2⟩
      · refine .inl ⟨w2, e2, s1.trans s2, ?_⟩
        rcases ht' with ht' | ht'
        · rw [t2, ht']
        · subst ht'
          simp [runWrites] at e2
          rw [← e2, t1]
      · exact .inr ⟨e, w2, e2, by rw [List.length_append]; exact s1.broke hw b2⟩
    · rw [M.bind_err (show (WriteOp.bits g .lsb0).call w = _ from e1)]
      exact .inr ⟨e, w1, rfl, b1.mono (by simp)⟩

/-- **C11.** Any sequence of Lsb0 bit writes of at most 8 bits on a fresh writer: read least
significant bit first, the output is the concatenation of the groups, each last bit first. -/
theorem C11_lsb0_writes_concatenate (gs : List (List Bool)) (hgs : ∀ g ∈ gs, g.length ≤ 8) :
    ∃ w', runWrites (gs.map (.bits · .lsb0)) (Writer.new {}) = (.ok (), w') ∧
      bytesBitsLsb w'.inner.data ++ w'.rest.reverse = (gs.map List.reverse).flatten ∧
      w'.bitsWritten = 8 * w'.inner.data.length ∧ w'.rest.length < 8 := by
  obtain ⟨t, _, hd⟩ := runWrites_lsb gs hgs new_writer_wf (.inl rfl)
  obtain ⟨w', h, s, _⟩ := hd.ok new_writer_healthy
  obtain ⟨h1, h2, _⟩ := s.fresh
  exact ⟨w', h, h1, h2, s.wf.2⟩

example : ∀ g ∈ [[true, false, true], [false, true, true, true, false, false, true], []],
    g.length ≤ 8 := by decide

/-- **C11**, once the writer is in Lsb0 mode: writes of any length, on any sink. -/
theorem C11_lsb0_mode_any_length (w : Writer) (hw : w.WF) (ht : w.tag = .lsb0)
    (hh : w.Healthy) (l : List Bool) :
    ∃ w', writeBitsOrder l .lsb0 w = (.ok (), w') ∧ w'.tag = .lsb0 ∧ w'.WF ∧
      w'.produced .lsb0 = w.produced .lsb0 ++ l.reverse := by
  obtain ⟨w', h, s, t⟩ := (writeBitsOrder_done hw .lsb0 l (.inl ht)).ok hh
  exact ⟨w', h, t, s.wf, s.produced⟩

example : ({ inner := { data := [1#8], pos := 1 }, leftover := [true], tag := .lsb0, bitsWritten := 8 } :
    Writer).WF := ⟨⟨Nat.le_refl _, by simp⟩, by decide⟩

/-- The restriction to 8 bits is needed: on a fresh writer (whose mode is Msb0) one 16 bit Lsb0
write differs from the same write issued in Lsb0 mode, and does not read back. -/
theorem C11_long_lsb0_write_on_fresh_writer :
    let l := bitsBE 16 0x0102
    (writeBitsOrder l .lsb0 (Writer.new {})).2.inner.data = [1#8, 2#8] ∧
    (writeBitsOrder l .lsb0 { inner := {}, tag := .lsb0 }).2.inner.data = [2#8, 1#8] ∧
    (Reader.readBits 16 .lsb0 (Reader.new { data := [2#8, 1#8] })).1 = .ok l := by decide

/-! ### C12 -/

/-- **C12**, the writer: finalising adds fewer than 8 zero bits (last in the consumption order of the
writer's bit order), leaves a whole number of bytes and no pending bits, and finalising again adds
nothing. -/
theorem C12_finalize_pads_with_zeros (w : Writer) (hw : w.WF) (hh : w.Healthy) :
    ∃ w', finalize w = (.ok (), w') ∧
      w'.produced w.tag = w.produced w.tag ++ List.replicate ((8 - w.rest.length) % 8) false ∧
      w'.rest = [] ∧ w'.inner.pos = w.inner.pos + (w.rest.length + 7) / 8 ∧ w'.tag = w.tag ∧
      ∃ w'', finalize w' = (.ok (), w'') ∧ w''.inner.written = w'.inner.written ∧ w''.rest = [] ∧
        w''.bitsWritten = w'.bitsWritten := by
  obtain ⟨w', h, s, t⟩ := (finalize_done hw).ok hh
  have hlt := hw.2
  have hlen := s.len
  have hlt' := s.wf.2
  simp only [List.length_replicate] at hlen
  have hr : w'.leftover.length = 0 := by omega
  have hr' : w'.rest = [] := List.length_eq_zero_iff.1 hr
  refine ⟨w', h, s.produced, hr', by simp only [Writer.rest] at *; omega, t, ?_⟩
  obtain ⟨w'', h', s', t'⟩ := (finalize_done s.wf).ok (s.healthy hh)
  rw [hr] at s'
  have hlen' := s'.len
  have hlt'' := s'.wf.2
  simp at hlen'
  have hr2 : w''.rest = [] := List.length_eq_zero_iff.1 (show w''.leftover.length = 0 by omega)
  refine ⟨w'', h', ?_, hr2, ?_⟩
  · have hp := s'.produced
    simp only [Writer.produced, hr', hr2] at hp
    apply Reader.orderBits_inj w'.tag
    cases hk : w'.tag <;> simpa [present, hk] using hp
  · have := s'.counted; omega

example : ({ inner := { data := [1#8], pos := 1 }, leftover := [true, false, true], bitsWritten := 8 } :
    Writer).WF ∧ ({ inner := { data := [1#8], pos := 1 }, leftover := [true, false, true], bitsWritten := 8 } :
    Writer).Healthy := ⟨⟨⟨Nat.le_refl _, by simp⟩, by decide⟩, rfl, rfl⟩

/-- **C12** for the top level functions, when a write ends in Msb0 mode or at a byte boundary:
`to_bytes` is `to_bits` followed by fewer than 8 zero bits. Missing: writes that end in the middle
of a byte in Lsb0 mode, where `to_bits` is not a prefix of `to_bytes` (`C12_to_bits_lsb0`). -/
theorem C12_to_bytes_is_padded_to_bits_partial (f : M Writer Unit) (o : Order) (bits : List Bool)
    (t : Order) (hf : Done o bits t (Writer.new {}) (f (Writer.new {})))
    (hm : t = .msb0 ∨ bits.length % 8 = 0) :
    ∃ l bs, toBits f = .ok l ∧ toBytes f = .ok bs ∧
      bytesBits bs = l ++ List.replicate ((8 - l.length % 8) % 8) false ∧
      bs.length = (l.length + 7) / 8 ∧ l.length = bits.length := by
  obtain ⟨w', h, s, ht⟩ := hf.ok new_writer_healthy
  obtain ⟨h1, h2, h3⟩ := s.fresh
  obtain ⟨w'', g, s', t'⟩ := (finalize_done s.wf).ok (s.healthy new_writer_healthy)
  have hlt := s.wf.2
  have hlt' := s'.wf.2
  have hlen := s'.len
  simp only [List.length_replicate] at hlen
  have hr' : w''.leftover = [] := List.length_eq_zero_iff.1 (by omega)
  have hp' : w''.inner.pos = w''.inner.data.length := by
    have a := s'.wf.1.1
    have b := congrArg List.length s'.tail
    simp at b
    omega
  have hl : bits.length = 8 * w'.inner.data.length + w'.leftover.length := by
    rw [← h1]
    cases o <;> simp [present, orderBits, Writer.rest]
  have hdata : bytesBits w''.inner.data = bytesBits w'.inner.data ++ w'.leftover ++
      List.replicate ((8 - w'.leftover.length) % 8) false := by
    have hp := s'.produced
    simp only [Writer.produced, Sink.written, hp', h3, List.take_length, Writer.rest, hr'] at hp
    rcases hm with hm | hm
    · rw [ht, hm] at hp
      simpa [orderBits, present] using hp
    · have hz : w'.leftover = [] := List.length_eq_zero_iff.1 (by omega)
      rw [hz] at hp ⊢
      simp only [List.length_nil, Nat.sub_zero, Nat.mod_self, List.replicate_zero, List.append_nil] at hp ⊢
      have : orderBits w'.tag w''.inner.data = orderBits w'.tag w'.inner.data := by
        cases hk : w'.tag <;> simpa [present, hk] using hp
      rw [Reader.orderBits_inj _ this]
  have e1 : toBits f = .ok (bytesBits w'.inner.data ++ w'.leftover) := by simp [toBits, h]
  have e2 : toBytes f = .ok w''.inner.data := by
    simp only [toBytes]; rw [M.bind_ok h, g]
  refine ⟨_, _, e1, e2, ?_, ?_, by simp; omega⟩
  · rw [hdata, List.length_append, length_bytesBits, Nat.mul_add_mod, Nat.mod_eq_of_lt hlt]
  · have := congrArg List.length hdata
    simp at this ⊢
    omega

/-- A 12 bit write. -/
example : Done .msb0 (bitsBE 12 0xABC) .msb0 (Writer.new {}) (writeBitsUintMsb0 0xABC 12 (Writer.new {})) :=
  writeBitsUintMsb0_done new_writer_wf rfl _ _ (by decide) (by decide)

/-- **C12 is false for `to_bits` after Lsb0 writes**: the 4 bits `1010` written Lsb0 are `0x0A` in
`to_bytes`, but `to_bits` returns `1010`, which padded is `0xA0`. -/
theorem C12_to_bits_lsb0 :
    toBits (writeBitsOrder [true, false, true, false] .lsb0) = .ok [true, false, true, false] ∧
    toBytes (writeBitsOrder [true, false, true, false] .lsb0) = .ok [0x0A#8] := by decide

/-! ### C13 -/

/-- **C13.** For every computation that does not look at its sink (all writer calls and everything
composed of them, see `Writer.Good`) and counts what it writes: on a long enough buffer `to_slice`
succeeds exactly when `to_bytes` does, the buffer then holds the bytes of `to_bytes` followed by its
old contents, and the number of bytes is returned; on a shorter buffer it returns an I/O error and
the buffer keeps its length. -/
theorem C13_to_slice_agrees_with_to_bytes (f : M Writer Unit) (hf : Good f) (buf : List Byte) :
    (∀ bs, toBytes f = .ok bs → bs.length ≤ buf.length →
      toSlice f buf = (.ok bs.length, bs ++ buf.drop bs.length)) ∧
    (∀ bs, toBytes f = .ok bs → buf.length < bs.length →
      (toSlice f buf).1 = .err (.io .writeZero)) ∧
    (∀ e, toBytes f = .err e →
      (toSlice f buf).1 = .err e ∨ (toSlice f buf).1 = .err (.io .writeZero)) ∧
    (∀ n, (toSlice f buf).1 = .ok n → ∃ bs, toBytes f = .ok bs ∧ bs.length = n) ∧
    (toSlice f buf).2.length = buf.length := by
  have hg : Good (do f; finalize : M Writer Unit) := Good.bind hf (fun _ => good_finalize)
  have hsim : SliceSim buf (Writer.new {}) (Writer.new { data := buf, cap := some buf.length }) :=
    ⟨rfl, rfl, rfl, rfl, rfl, rfl, rfl, rfl, by simp [Writer.new], rfl, by simp [Writer.new]⟩
  obtain ⟨a1, a2, a3⟩ := hg.agnostic buf _ _ hsim
  have hc := hg.counted
  rcases e1 : (do f; finalize : M Writer Unit) (Writer.new {}) with ⟨x, w⟩
  rcases e2 : (do f; finalize : M Writer Unit)
    (Writer.new { data := buf, cap := some buf.length }) with ⟨y, v⟩
  rw [e1] at a3
  rw [e2] at a2 a3
  simp only [toBytes, toSlice, e1, e2]
  simp only at a2 a3
  rcases a3 with ⟨h1, h2, h3⟩ | ⟨h1, h2⟩
  · subst h2
    cases y with
    | err e => simp [a2]
    | panic => simp [a2]
    | ok u =>
      have hcw := hc _ _ _ e1
      simp only [Writer.new] at hcw
      have hp := h3.pos
      have hn : v.bitsWritten / 8 = w.inner.data.length := by rw [h3.bitsWritten]; omega
      refine ⟨?_, ?_, by simp, ?_, a2⟩
      · intro bs hbs _
        simp at hbs; subst hbs
        simp [hn, h3.data']
      · intro bs hbs hlt
        simp at hbs; subst hbs; omega
      · intro n h
        simp at h
        exact ⟨_, rfl, by omega⟩
  · subst h2
    refine ⟨?_, ?_, ?_, by simp, a2⟩
    · intro bs hbs hle
      cases x <;> simp at hbs
      subst hbs; omega
    · intro _ _ _; rfl
    · intro e he; exact .inr rfl

/-- Writing a byte string after three bits, on a buffer of any length. -/
example : Good (do writeBits [true, false, true]; writeBytes [1#8, 2#8] : M Writer Unit) :=
  Good.bind (good_writeBitsOrder _ _) (fun _ => good_writeBytes _)

/-! ### C14 -/

/-- **C14**, first half: whatever the sink, its state and its schedule of failing calls, if a write
call made on the sink fails, the writer call in progress (and the whole sequence of writer calls)
returns `Err(Io(kind))`. -/
theorem C14_sink_errors_reported (w : Writer) :
    (∀ ops, ReportsW w (runWrites ops)) ∧ ReportsW w finalize := by
  refine ⟨fun ops => ?_, good_finalize.reports w⟩
  have : Good (runWrites ops) := by
    induction ops with
    | nil => exact Good.pure _
    | cons op ops ih =>
      rw [runWrites]
      refine Good.bind ?_ (fun _ => ih)
      cases op with
      | bits l o => exact good_writeBitsOrder l o
      | bytes bs => exact good_writeBytes bs
      | uint v amt => exact good_writeBitsUintMsb0 v amt
  exact this.reports w

/-- The second write call fails: the second of two byte writes reports it. -/
example : (runWrites [.bytes [1#8], .bytes [2#8], .bytes [3#8]]
    (Writer.new { faults := { fails := fun i => if i = 1 then some (0, .other 9) else none } })).1 =
    .err (.io (.other 9)) := by decide

/-- **C14**, second half: on any sink a sequence of Msb0 writes that returns `Ok` has delivered every
completed byte, and what was in the sink in front of them is untouched. -/
theorem C14_ok_delivers_completed_bytes (ops : List WriteOp) (hops : ∀ op ∈ ops, op.Msb)
    (w : Writer) (hw : w.WF) (ht : w.tag = .msb0) (w' : Writer)
    (h : runWrites ops w = (.ok (), w')) :
    bytesBits w'.inner.written ++ w'.rest =
      bytesBits w.inner.written ++ w.rest ++ (ops.map WriteOp.content).flatten ∧
    w'.rest.length < 8 := by
  rcases runWrites_msb ops hops hw ht with ⟨w2, e, s, _⟩ | ⟨e, w2, h2, _⟩
  · rw [h] at e
    simp at e
    subst e
    exact ⟨s.produced, s.wf.2⟩
  · rw [h] at h2; simp at h2

example : (Writer.new { data := [0#8, 0#8, 0#8], cap := some 3 }).WF :=
  ⟨⟨by simp [Writer.new], by simp [Writer.new]⟩, by simp [Writer.new]⟩

end Deku
