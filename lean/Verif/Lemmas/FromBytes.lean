import Verif.Lemmas.Chain

/-! # `from_bytes` and sequences of messages -/

namespace Deku

open Reader

variable {α β : Type} {o : Order} {fixed : Bool}

theorem fromBytes_ok_iff {f : M Reader α} {data rest : List Byte} {off b : Nat} {v : α} :
    fromBytes f data off = .ok ((rest, b), v) ↔
      ∃ r, readFrom f off (Reader.new { data := data }) = (.ok v, r) ∧
        r.bitsRead / 8 ≤ data.length ∧ rest = data.drop (r.bitsRead / 8) ∧ b = r.bitsRead % 8 := by
  unfold fromBytes
  rcases readFrom f off (Reader.new { data := data }) with ⟨(x | e | _), r⟩
  · simp only
    split
    · rename_i h
      constructor
      · intro h'
        simp at h'
        exact ⟨r, by rw [h'.2], h, h'.1.1.symm, h'.1.2.symm⟩
      · rintro ⟨r1, h1, _, rfl, rfl⟩
        simp at h1
        obtain ⟨rfl, rfl⟩ := h1
        rfl
    · rename_i h
      constructor
      · intro h'; simp at h'
      · rintro ⟨r1, h1, h2, _⟩
        simp at h1
        obtain ⟨rfl, rfl⟩ := h1
        exact absurd h2 h
  · simp
  · simp

theorem readFrom_follows {f : M Reader α} (hf : Follows fixed f) (off : Nat) :
    Follows fixed (readFrom f off) := by
  unfold readFrom
  exact Follows.ite ((skipBits_follows _ _).bind fun _ => hf) hf

theorem readFrom_zero (f : M Reader α) : readFrom f 0 = f := by
  funext r
  simp [readFrom]

theorem readFrom_bind (f : M Reader α) (g : α → M Reader β) (off : Nat) :
    readFrom (f >>= g) off = (readFrom f off >>= g) := by
  unfold readFrom
  split
  · exact (M.bind_assoc ..).symm
  · rfl

/-- How far a reader is in its source. -/
theorem Reader.Good.pos_eq {r : Reader} (h : r.Good) : r.inner.pos = (r.bitsRead + 7) / 8 := by
  have := h.sync
  have := h.rest_lt
  simp only [Synced] at *
  omega

theorem Reader.Good.within {r : Reader} (h : r.Good) (hb : r.bitsRead / 8 ≤ r.inner.data.length) :
    r.inner.pos ≤ r.inner.data.length := by
  by_cases hr : r.rest = []
  · have := h.sync
    simp only [Synced, hr, List.length_nil] at this
    omega
  · exact h.inside hr

theorem new_good (data : List Byte) : (Reader.new { data := data }).Good := (Reader.new_at data).good

theorem new_alike {data data' : List Byte} {k : Nat} (h : data'.take k = data.take k) :
    (Reader.new { data := data }).Alike 0 k (Reader.new { data := data' }) :=
  ⟨new_good _, rfl, rfl, by simpa [Reader.new] using h, by simp [Reader.new]⟩

theorem Follows.fromBytes {f : M Reader α} (hf : Follows true f) {data data' rest : List Byte}
    {off b : Nat} {v : α} (h : fromBytes f data off = .ok ((rest, b), v))
    (hd : data'.take (data.length - rest.length + (b + 7) / 8) =
      data.take (data.length - rest.length + (b + 7) / 8)) :
    Deku.fromBytes f data' off = .ok ((data'.drop (data.length - rest.length), b), v) := by
  obtain ⟨r, e, hb, rfl, rfl⟩ := fromBytes_ok_iff.1 h
  obtain ⟨hg, hdat, hp, _, hs⟩ := readFrom_follows hf off _ _ _ (new_good data) e
  have hpos := hg.pos_eq
  have hin := hg.within (by rw [hdat]; exact hb)
  have hk : data.length - (data.drop (r.bitsRead / 8)).length = r.bitsRead / 8 := by simp; omega
  rw [hk] at hd ⊢
  have h0 : (Reader.new { data := data }).inner.pos = 0 := rfl
  have hlen : (Reader.new { data := data }).inner.data = data := rfl
  obtain ⟨s, es, ha⟩ := hs 0 0 _ (fun _ => rfl) (new_alike (data' := data') (by
    rw [h0, Nat.add_zero, Nat.sub_zero, hpos, show (r.bitsRead + 7) / 8 =
      r.bitsRead / 8 + (r.bitsRead % 8 + 7) / 8 by omega]; exact hd))
  have hbit := ha.bitsRead hg
  simp at hbit
  have hbit' : s.bitsRead = r.bitsRead := by omega
  have hsd : s.inner.data = data' := (readFrom_follows hf off _ _ _ (new_good data') es).2.1
  have hb' := ha.bound hin
  have := ha.pos
  refine fromBytes_ok_iff.2 ⟨s, es, ?_, by rw [hbit'], by rw [hbit']⟩
  rw [hsd] at hb'
  omega

/-! ### two messages -/

theorem Reader.Good.tail {r : Reader} (h : r.Good) (h8 : r.bitsRead % 8 = 0) : r.MsbTail := by
  have hr : r.rest = [] := by
    have := h.sync
    have := h.rest_lt
    simp only [Synced] at *
    exact List.eq_nil_of_length_eq_zero (by omega)
  have hp := h.pos_eq
  unfold MsbTail
  rw [unread_eq, hr, show r.bitsRead = 8 * r.inner.pos by omega]
  show orderBits .msb0 _ = List.drop _ (orderBits .msb0 _)
  rw [drop_orderBits]
  rfl

/-- Two readers, the second one on what is left from a byte boundary of the source of the first. -/
theorem alike_of_tail {r s : Reader} {q : Nat} (hr : r.Good) (hs : s.Good) (mr : r.MsbTail)
    (ms : s.MsbTail) (hd : s.inner.data = r.inner.data.drop q) (hb : s.bitsRead + 8 * q = r.bitsRead)
    (hin : r.inner.pos ≤ r.inner.data.length) (k : Nat) :
    r.Alike (-q) k s ∧ s.Alike q k r := by
  have p1 := hr.pos_eq
  have p2 := hs.pos_eq
  have hpos : r.inner.pos = q + s.inner.pos := by omega
  have hlen : s.rest.length = r.rest.length := by
    have := hr.sync
    have := hs.sync
    simp only [Synced] at *
    omega
  have hdata : s.inner.data.drop s.inner.pos = r.inner.data.drop r.inner.pos := by
    rw [hd, List.drop_drop, hpos]
  have hu : s.unread .msb0 = r.unread .msb0 := by
    rw [mr, ms, hd, ← hb, Nat.add_comm, ← List.drop_drop]
    congr 1
    exact (drop_orderBits .msb0 _ _).symm
  have hrest : s.rest = r.rest := by
    rw [unread_eq, unread_eq] at hu
    have := congrArg (List.take s.rest.length) hu
    rw [show s.rest.length = (present .msb0 s.rest).length from rfl, List.take_left,
      show (present .msb0 s.rest).length = (present .msb0 r.rest).length from hlen, List.take_left] at this
    exact this
  have hl := hr.leftover_eq hs hrest
  refine ⟨⟨hs, hl, by omega, by rw [hdata], fun _ => ?_⟩, ⟨hr, hl.symm, by omega, by rw [hdata], fun _ => hin⟩⟩
  rw [hd, List.length_drop]
  omega

theorem skipBits_step {n : Nat} {r : Reader} (hr : r.Good) (hb : r.inner.pos ≤ r.inner.data.length)
    (hn : n ≤ (r.unread o).length) : ∃ r', skipBits n o r = (.ok (), r') ∧ Step o n r r' := by
  obtain ⟨r', e, s⟩ := skipBits_reads (o := o) r.bitsRead ((r.unread o).take n) r ((r.unread o).drop n)
    ⟨hr.healthy, hr.wf, hr.noPeek, hr.sync, hb, rfl⟩ (List.take_append_drop ..).symm
  rw [List.length_take, Nat.min_eq_left hn] at e s
  exact ⟨r', e, s⟩

theorem MsbTail.step {n : Nat} {r r' : Reader} (h : r.MsbTail) (s : Step .msb0 n r r') : r'.MsbTail := by
  unfold MsbTail at *
  rw [s.unread, h, s.data, s.bitsRead, List.drop_drop]

/-- The reader of the next call looks like the one of the call before. -/
theorem next_call {r : Reader} (hr : r.Good) (mr : r.MsbTail) (hb : r.bitsRead / 8 ≤ r.inner.data.length)
    (f : M Reader α) : ∃ s : Reader,
      readFrom f (r.bitsRead % 8) (Reader.new { data := r.inner.data.drop (r.bitsRead / 8) }) = f s ∧
      s.inner.data = r.inner.data.drop (r.bitsRead / 8) ∧ s.bitsRead = r.bitsRead % 8 ∧
      ∀ k, r.Alike (-(r.bitsRead / 8 : Nat)) k s ∧ s.Alike (r.bitsRead / 8 : Nat) k r := by
  have hin := hr.within hb
  have h0 := new_good (r.inner.data.drop (r.bitsRead / 8))
  by_cases h8 : r.bitsRead % 8 = 0
  · refine ⟨Reader.new { data := r.inner.data.drop (r.bitsRead / 8) }, by rw [h8, readFrom_zero], rfl,
      by rw [h8]; rfl, fun k => ?_⟩
    exact alike_of_tail hr h0 mr (h0.tail rfl) rfl (by simp only [Reader.new]; omega) hin k
  · have hne : r.inner.pos = r.bitsRead / 8 + 1 := by have := hr.pos_eq; omega
    obtain ⟨s, e, st⟩ := skipBits_step (o := .msb0) (n := r.bitsRead % 8) h0 (by simp [Reader.new]) (by
      rw [Reader.new_unread, length_orderBits, List.length_drop]; omega)
    refine ⟨s, ?_, st.data, by rw [st.bitsRead]; simp [Reader.new], fun k => ?_⟩
    · unfold readFrom
      rw [if_pos h8, M.bind_ok e]
    · exact alike_of_tail hr (h0.step st) mr (MsbTail.step (h0.tail rfl) st) st.data
        (by rw [st.bitsRead]; simp only [Reader.new]; omega) hin k

/-- Two messages: feeding the rest into the next call is one pass. -/
theorem chain_two {f : M Reader α} {g : M Reader β} (hf : Follows fixed f) (hg : Follows false g)
    {data : List Byte} {off : Nat}
    (ht : ∀ v r, readFrom f off (Reader.new { data := data }) = (.ok v, r) → r.MsbTail)
    {x : List Byte × Nat} {v : α} {w : β} :
    (∃ rest b, fromBytes f data off = .ok ((rest, b), v) ∧ fromBytes g rest b = .ok (x, w)) ↔
      fromBytes (do let v ← f; let w ← g; pure (v, w)) data off = .ok (x, (v, w)) := by
  obtain ⟨rest2, b2⟩ := x
  constructor
  · rintro ⟨rest, b, h1, h2⟩
    obtain ⟨r, e, hb, rfl, rfl⟩ := fromBytes_ok_iff.1 h1
    obtain ⟨s', e2, hb2, rfl, rfl⟩ := fromBytes_ok_iff.1 h2
    obtain ⟨hr, hdat, _⟩ := readFrom_follows hf off _ _ _ (new_good data) e
    have hdat' : r.inner.data = data := hdat
    obtain ⟨s, es, hsd, hsb, ha⟩ := next_call hr (ht v r e) (by rw [hdat']; exact hb) g
    rw [hdat'] at es hsd
    rw [es] at e2
    obtain ⟨hs', hsd', hp, hbb, hrun⟩ := hg s w s' (ha 0).1.good e2
    obtain ⟨r', er', ha'⟩ := hrun _ 0 r (by simp) (ha _).2
    have hbit := ha'.bitsRead hs'
    have hbit' : r'.bitsRead = s'.bitsRead + 8 * (r.bitsRead / 8) := by omega
    refine fromBytes_ok_iff.2 ⟨r', ?_, ?_, ?_, ?_⟩
    · rw [readFrom_bind, M.bind_ok e, M.bind_ok er']; rfl
    · rw [List.length_drop] at hb2; omega
    · rw [List.drop_drop]; congr 1; omega
    · omega
  · intro h
    obtain ⟨r', e, hb, rfl, rfl⟩ := fromBytes_ok_iff.1 h
    rw [readFrom_bind] at e
    obtain ⟨v', r, e1, e2⟩ := M.bind_eq_ok e
    obtain ⟨w', r1, e3, e4⟩ := M.bind_eq_ok e2
    simp at e4
    obtain ⟨⟨rfl, rfl⟩, rfl⟩ := e4
    obtain ⟨hr, hdat, _⟩ := readFrom_follows hf off _ _ _ (new_good data) e1
    have hdat' : r.inner.data = data := hdat
    obtain ⟨hr1, hd1, hp1, hb1, hrun⟩ := hg r w' r1 hr e3
    have hb0 : r.bitsRead / 8 ≤ data.length := by omega
    obtain ⟨s, es, hsd, hsb, ha⟩ := next_call hr (ht v' r e1) (by rw [hdat']; exact hb0) g
    rw [hdat'] at es hsd
    obtain ⟨s', es', ha'⟩ := hrun _ 0 s (by simp) (ha _).1
    have hbit := ha'.bitsRead hr1
    refine ⟨_, _, fromBytes_ok_iff.2 ⟨r, e1, hb0, rfl, rfl⟩, fromBytes_ok_iff.2 ⟨s', by rw [es, es'], ?_, ?_, ?_⟩⟩
    · rw [List.length_drop]; omega
    · rw [List.drop_drop]; congr 1; omega
    · omega

end Deku
