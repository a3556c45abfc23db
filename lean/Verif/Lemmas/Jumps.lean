import Verif.Spec.Jumps
import Verif.Lemmas.Position
import Verif.Props.Seek

/-! # Writing and reading at places that are jumped to -/

namespace Deku

open Reader Writer

/-! ### A sink whose position lies beyond its end -/

/-- Zeros up to the position, if the position is one of `C`. -/
def Sink.fillIf (C : Nat → Bool) (s : Sink) : Sink :=
  if C s.pos then { s with data := s.data ++ List.replicate (s.pos - s.data.length) 0 } else s

theorem Sink.size_splice (d bs : List Byte) (p : Nat) :
    (Sink.splice d p bs).length = max d.length (p + bs.length) := by
  simp [Sink.splice]; omega

theorem Sink.fillIf_within {C : Nat → Bool} {s : Sink} (h : s.pos ≤ s.data.length) : s.fillIf C = s := by
  unfold Sink.fillIf
  split
  · rw [show s.pos - s.data.length = 0 by omega]; simp
  · rfl

theorem Sink.splice_fill (d bs : List Byte) (p : Nat) :
    Sink.splice (d ++ List.replicate (p - d.length) 0) p bs = Sink.splice d p bs := by
  unfold Sink.splice
  by_cases h : p ≤ d.length
  · have h0 : p - d.length = 0 := by omega
    simp [h0]
  · have h1 : (d ++ List.replicate (p - d.length) 0).take p = d ++ List.replicate (p - d.length) (0 : Byte) :=
      List.take_of_length_le (by simp; omega)
    have h2 : d.take p = d := List.take_of_length_le (by omega)
    have h3 : (d ++ List.replicate (p - d.length) (0 : Byte)).drop (p + bs.length) = [] :=
      List.drop_of_length_le (by simp; omega)
    have h4 : d.drop (p + bs.length) = [] := List.drop_of_length_le (by omega)
    rw [h1, h2, h3, h4]
    rw [show p - (d ++ List.replicate (p - d.length) (0 : Byte)).length = 0 by simp; omega]
    simp

theorem Sink.fillIf_writeAll (C : Nat → Bool) (s : Sink) (bs : List Byte) :
    (s.fillIf C).writeAll bs = ((s.writeAll bs).1, (s.writeAll bs).2.fillIf C) := by
  have hpost : (s.writeAll bs).2.fillIf C = (s.writeAll bs).2 := by
    apply Sink.fillIf_within
    simp only [Sink.writeAll]
    repeat' split
    all_goals simp only [Sink.size_splice]; omega
  rw [hpost]
  by_cases hC : C s.pos = true
  · simp only [Sink.fillIf, hC, if_true, Sink.writeAll, Sink.splice_fill]
    repeat' split
    all_goals simp_all
  · simp only [Sink.fillIf, hC]
    rfl

theorem Sink.fillIf_alike (C : Nat → Bool) : WritesAlike (Sink.fillIf C) := fun bs w => by
  simp only [Writer.writeAll, Writer.onSink, Sink.fillIf_writeAll]
  rcases w.inner.writeAll bs with ⟨_ | _, s⟩ <;> rfl

/-- A piece is written at the position, wherever that is. -/
theorem Writes.piece {o : Order} {g : M Writer Unit} {bs : List Byte} (hW : Writes o 0 g (orderBits o bs))
    (hc : ∀ C, Commutes (Writer.onSink (Sink.fillIf C)) g) (w : Writer) (hh : w.Healthy) (hr : w.Ready o)
    (hl : w.leftover = []) (hb : bs ≠ [] ∨ w.inner.pos ≤ w.inner.data.length) :
    ∃ w', g w = (.ok (), w') ∧ w'.Healthy ∧ w'.Ready o ∧ w'.leftover = [] ∧
      w'.inner.pos = w.inner.pos + bs.length ∧
      w'.inner.data = Sink.splice w.inner.data w.inner.pos bs := by
  have hF : (Writer.onSink (Sink.fillIf fun _ => true) w).At o 0 := by
    refine ⟨⟨⟨?_, ?_⟩, ?_⟩, ?_, ?_, ?_⟩
    · simp [Writer.onSink, Sink.fillIf]; omega
    · intro c hcap
      have : w.inner.cap = some c := by simpa [Writer.onSink, Sink.fillIf] using hcap
      rw [hh.2] at this; cases this
    · simp [Writer.onSink, hl]
    · exact ⟨by simpa [Writer.onSink, Sink.fillIf] using hh.1, by simpa [Writer.onSink, Sink.fillIf] using hh.2⟩
    · cases o <;> simpa [Writer.Ready, Writer.onSink] using hr
    · simp [Writer.onSink, hl]
  obtain ⟨w1, e1, W, R⟩ := hW _ hF
  have hcom := hc (fun _ => true) w
  rw [e1] at hcom
  have h1 : (g w).1 = .ok () := by have := congrArg Prod.fst hcom; exact this.symm
  have h2 : w1 = Writer.onSink (Sink.fillIf fun _ => true) (g w).2 := congrArg Prod.snd hcom
  have hlen := W.len
  rw [length_orderBits] at hlen
  have hp0 : (Writer.onSink (Sink.fillIf fun _ => true) w).inner.pos = w.inner.pos := by
    simp [Writer.onSink, Sink.fillIf]
  have hl0 : (Writer.onSink (Sink.fillIf fun _ => true) w).leftover = [] := hl
  have hlt := W.wf.2
  rw [hp0, hl0] at hlen
  have hp1 : w1.inner.pos = w.inner.pos + bs.length := by simp at hlen; omega
  have hl1 : w1.leftover = [] := List.eq_nil_of_length_eq_zero (by simp at hlen; omega)
  have hsame : (g w).2 = w1 := by
    have hpe : (g w).2.inner.pos = w1.inner.pos := by rw [h2]; simp [Writer.onSink, Sink.fillIf]
    have hwithin : (g w).2.inner.pos ≤ (g w).2.inner.data.length := by
      rcases hb with hb | hb
      · have hpos : 0 < bs.length := List.length_pos_iff.2 hb
        have hcom' := hc (fun p => decide (w.inner.pos < p)) w
        have hid : Writer.onSink (Sink.fillIf fun p => decide (w.inner.pos < p)) w = w := by
          simp [Writer.onSink, Sink.fillIf]
        rw [hid] at hcom'
        have h3 := congrArg (fun x => x.2.inner.data.length) hcom'
        have hC : decide (w.inner.pos < (g w).2.inner.pos) = true := by
          rw [hpe, hp1]; simpa using hpos
        simp only [Writer.onSink, Sink.fillIf, hC, if_true, List.length_append, List.length_replicate] at h3
        omega
      · have hid : Writer.onSink (Sink.fillIf fun _ => true) w = w := by
          simp only [Writer.onSink]; rw [Sink.fillIf_within hb]
        rw [hid] at e1
        rw [e1]
        exact W.wf.1.1
    rw [h2]
    simp only [Writer.onSink]
    rw [Sink.fillIf_within hwithin]
  refine ⟨w1, by rw [← hsame, ← h1], ⟨?_, ?_⟩, R, hl1, hp1, ?_⟩
  · rw [W.faults]; exact hF.healthy.1
  · rw [W.cap]; exact hF.healthy.2
  · have hd0 : (Writer.onSink (Sink.fillIf fun _ => true) w).inner.data =
        w.inner.data ++ List.replicate (w.inner.pos - w.inner.data.length) 0 := by
      simp [Writer.onSink, Sink.fillIf]
    have htail := W.tail
    have hprod := W.produced
    simp only [Writer.produced, Writer.rest, hl1, hl0, Sink.written, hp0] at hprod
    have hpn : present o [] = [] := by cases o <;> rfl
    rw [hpn, List.append_nil, List.append_nil, ← orderBits_append] at hprod
    have htake := orderBits_inj o hprod
    rw [hd0] at htail htake
    rw [← Sink.splice_fill, ← List.take_append_drop w1.inner.pos w1.inner.data, htail, htake, hp1]
    simp only [Sink.splice]
    rw [show w.inner.pos - (w.inner.data ++ List.replicate (w.inner.pos - w.inner.data.length) (0 : Byte)).length = 0 by
      simp; omega]
    simp

/-! ### One field -/

theorem Attrs.write_seek (a : Attrs) (native : Endian) (wr : Env → Val → M Writer Unit) (env : Env) (v : Val) :
    a.write native wr env v = (seekWrite a.seek env >>= fun _ => a.still.write native wr env v) := by
  funext w
  simp only [Attrs.write, Attrs.still, seekWrite]
  rfl

theorem Attrs.read_seek (a : Attrs) (native : Endian) (rd : Env → M Reader Val) (env : Env) :
    a.read native rd env = (seekRead a.seek env >>= fun _ => a.still.read native rd env) := by
  funext r
  simp only [Attrs.read, Attrs.still, seekRead]
  rfl

/-- What the bytes of a field written alone say about it. -/
theorem SoundOn.piece {α : Type} {o : Order} {f : M Reader α} {g : M Writer Unit} {v : α}
    (h : SoundOn o Whole f g v Whole) {bs : List Byte} (hb : toBytes g = .ok bs) :
    Writes o 0 g (orderBits o bs) ∧ Reads o 0 f (orderBits o bs) v := by
  obtain ⟨w, hw⟩ := toBytes_accepted hb
  obtain ⟨bits, hW, hR, hq⟩ := h 0 _ _ rfl (Writer.new_at o) hw
  obtain ⟨out, ho, hbits⟩ := hW.toBytes
  rw [hb] at ho
  cases ho
  have : (8 - bits.length % 8) % 8 = 0 := by simp only [Whole] at hq; omega
  rw [this] at hbits
  simp at hbits
  rw [hbits]
  exact ⟨hW, hR⟩

theorem seekWrite_landing {a : Attrs} {env : Env} {pos p : Nat} {w : Writer} {o : Order}
    (h : a.landing env pos = some p) (hh : w.Healthy) (hr : w.Ready o) (hl : w.leftover = [])
    (hp : w.inner.pos = pos) :
    ∃ w', seekWrite a.seek env w = (.ok (), w') ∧ w'.Healthy ∧ w'.Ready o ∧ w'.leftover = [] ∧
      w'.inner.pos = p ∧ w'.inner.data = w.inner.data := by
  unfold Attrs.landing at h
  cases hs : a.seek with
  | none =>
    rw [hs] at h
    simp at h
    exact ⟨w, rfl, hh, hr, hl, by rw [hp, h], rfl⟩
  | some f =>
    rw [hs] at h
    simp only at h
    have hnf : ∀ q, w.inner.seek q = match Src.seekTarget w.inner.data.length w.inner.pos q with
        | some n => (.ok n, { w.inner with calls := w.inner.calls + 1, pos := n })
        | none => (.error .invalidInput, { w.inner with calls := w.inner.calls + 1 }) := fun q => by
      simp only [Sink.seek, hh.1]
      rfl
    have key : ∀ q, f env = some q → Src.seekTarget w.inner.data.length w.inner.pos q = some p →
        ∃ w', seekWrite (some f) env w = (.ok (), w') ∧ w'.Healthy ∧ w'.Ready o ∧ w'.leftover = [] ∧
          w'.inner.pos = p ∧ w'.inner.data = w.inner.data := by
      intro q hq ht
      refine ⟨{ w with leftover := [], tag := .msb0, inner := { w.inner with calls := w.inner.calls + 1, pos := p } }, ?_, hh, ?_, rfl, rfl, rfl⟩
      · simp only [seekWrite, hq]
        rw [M.bind_def]
        simp only [Writer.seek, hnf, ht]
        rfl
      · cases o <;> simp [Writer.Ready]
    cases hf : f env with
    | none => rw [hf] at h; simp at h
    | some q =>
      rw [hf] at h
      cases q with
      | start n => simp only at h; exact key _ hf (by simpa [Src.seekTarget] using h)
      | current k => simp only at h; exact key _ hf (by rw [hp]; exact h)
      | «end» k => simp at h

theorem Reader.At.leftover_none {r : Reader} (h : r.At 0) : r.leftover = none := by
  have hs := h.sync
  have hp := h.phase
  have hw := h.wf
  have hn := h.noPeek
  rcases hl : r.leftover with _ | (b | l)
  · rfl
  · exact absurd hl (hn b)
  · have := hw l hl
    simp only [Synced, Reader.rest, hl, leftoverBits] at hs
    omega

theorem Reader.At.pos_eq {r : Reader} (h : r.At 0) : r.bitsRead = 8 * r.inner.pos := by
  have hs := h.sync
  simp only [Synced, Reader.rest, h.leftover_none, leftoverBits] at hs
  simp at hs
  omega

theorem seekRead_landing {a : Attrs} {env : Env} {pos p : Nat} {r : Reader}
    (h : a.landing env pos = some p) (hr : r.At 0) (hp : r.inner.pos = pos) (hlen : p ≤ r.inner.data.length) :
    ∃ r', seekRead a.seek env r = (.ok (), r') ∧ r'.At 0 ∧ r'.inner.pos = p ∧
      r'.inner.data = r.inner.data := by
  unfold Attrs.landing at h
  cases hs : a.seek with
  | none =>
    rw [hs] at h
    simp at h
    exact ⟨r, rfl, hr, by rw [hp, h], rfl⟩
  | some f =>
    rw [hs] at h
    simp only at h
    have hhl : r.inner.faults = noFaults := hr.healthy
    have hnf : ∀ q, r.inner.seek q = match Src.seekTarget r.inner.data.length r.inner.pos q with
        | some n => (.ok n, { r.inner with calls := r.inner.calls + 1, pos := n })
        | none => (.error .invalidInput, { r.inner with calls := r.inner.calls + 1 }) := fun q => by
      simp only [Src.seek, hhl]
      rfl
    have key : ∀ q, f env = some q → Src.seekTarget r.inner.data.length r.inner.pos q = some p →
        ∃ r', seekRead (some f) env r = (.ok (), r') ∧ r'.At 0 ∧ r'.inner.pos = p ∧
          r'.inner.data = r.inner.data := by
      intro q hq ht
      refine ⟨{ r with leftover := none, inner := { r.inner with calls := r.inner.calls + 1, pos := p }, bitsRead := p * 8 }, ?_, ⟨hhl, ?_, ?_, ?_, hlen, ?_⟩, rfl, rfl⟩
      · simp only [seekRead, hq]
        rw [M.bind_def]
        simp only [Reader.seek, hnf, ht]
        rfl
      · intro l hl; simp at hl
      · intro b hb; simp at hb
      · simp [Synced, Reader.rest, leftoverBits]; omega
      · simp
    cases hf : f env with
    | none => rw [hf] at h; simp at h
    | some q =>
      rw [hf] at h
      cases q with
      | start n => simp only at h; exact key _ hf (by simpa [Src.seekTarget] using h)
      | current k => simp only at h; exact key _ hf (by rw [hp]; exact h)
      | «end» k => simp at h

/-! ### All fields -/

/-- The contents after storing the pieces one after the other. -/
def store (d : List Byte) (L : List (Nat × List Byte)) : List Byte :=
  L.foldl (fun d c => Sink.splice d c.1 c.2) d

theorem Fields.Lays.writes {m : Machine} {o : Order} : ∀ (fs : Fields) {env : Env} {v : Val} {pos : Nat}
    {L : List (Nat × List Byte)}, fs.Lays m o env v pos L → ∀ (all : Val) (w : Writer), w.Healthy → w.Ready o →
    w.leftover = [] → w.inner.pos = pos → pos ≤ w.inner.data.length →
    ∃ w', fs.write m env all v w = (.ok (), w') ∧ w'.At o 0 ∧ w'.inner.data = store w.inner.data L
  | .nil, env, v, pos, L, h, all, w, hh, hr, hl, hp, hlen => by
    simp only [Fields.Lays] at h
    obtain ⟨rfl, rfl⟩ := h
    exact ⟨w, by simp [Fields.write], ⟨⟨⟨by omega, fun c hc => by rw [hh.2] at hc; cases hc⟩, by simp [hl]⟩, hh, hr, by simp [hl]⟩, rfl⟩
  | .cons a t tl, env, v, pos, L, h, all, w, hh, hr, hl, hp, hlen => by
    simp only [Fields.Lays] at h
    obtain ⟨x, xs, p, bs, L', rfl, rfl, hland, hb, hfit, hplain, hne, hrest⟩ := h
    obtain ⟨w1, e1, hh1, hr1, hl1, hp1, hd1⟩ := seekWrite_landing hland hh hr hl hp
    have hsound := Attrs.sound m.native (fun P Q env x => Ty.sound m o t P Q env x) hfit
    have hW := (SoundOn.piece hsound hb).1
    have hcom : ∀ C, Commutes (Writer.onSink (Sink.fillIf C)) (a.still.write m.native (t.write m) env x) := fun C =>
      Attrs.write_onSink (Sink.fillIf_alike C) rfl m.native
        (fun env v => Ty.write_onSink (Sink.fillIf_alike C) m t (hplain _ (Sink.fillIf_alike C)) env v) env x
    have hcond : bs ≠ [] ∨ w1.inner.pos ≤ w1.inner.data.length := by
      cases hs : a.seek with
      | none =>
        right
        rw [hp1, hd1]
        unfold Attrs.landing at hland
        rw [hs] at hland
        simp at hland
        omega
      | some f => exact .inl (hne (by rw [hs]; rfl))
    obtain ⟨w2, e2, hh2, hr2, hl2, hp2, hd2⟩ := hW.piece hcom w1 hh1 hr1 hl1 hcond
    obtain ⟨w3, e3, hl3, hd3⟩ := Fields.Lays.writes tl hrest all w2 hh2 hr2 hl2 (by rw [hp2, hp1])
      (by rw [hd2, Sink.size_splice, hp1]; omega)
    refine ⟨w3, ?_, hl3, ?_⟩
    · simp only [Fields.write]
      rw [Attrs.write_seek a, M.bind_ok (show (seekWrite a.seek env >>= fun _ => a.still.write m.native (t.write m) env x) w = _ from
        (M.bind_ok e1 _).trans e2)]
      exact e3
    · rw [hd3, hd2, hp1, hd1]; rfl
  | .temp _ _ _ _, env, v, pos, L, h, _, _, _, _, _, _, _ => by simp only [Fields.Lays] at h

theorem Fields.Lays.reads {m : Machine} {o : Order} : ∀ (fs : Fields) {env : Env} {v : Val} {pos : Nat}
    {L : List (Nat × List Byte)}, fs.Lays m o env v pos L → ∀ (r : Reader), r.At 0 → r.inner.pos = pos →
    (∀ c ∈ L, c.1 + c.2.length ≤ r.inner.data.length ∧ (r.inner.data.drop c.1).take c.2.length = c.2) →
    ∃ r', fs.read m env r = (.ok v, r') ∧ r'.bitsRead = 8 * lastEnd pos L
  | .nil, env, v, pos, L, h, r, hr, hp, _ => by
    simp only [Fields.Lays] at h
    obtain ⟨rfl, rfl⟩ := h
    exact ⟨r, by simp [Fields.read], by rw [hr.pos_eq, hp]; rfl⟩
  | .cons a t tl, env, v, pos, L, h, r, hr, hp, hL => by
    simp only [Fields.Lays] at h
    obtain ⟨x, xs, p, bs, L', rfl, rfl, hland, hb, hfit, hplain, hne, hrest⟩ := h
    obtain ⟨hin, hhas⟩ := hL (p, bs) (by simp)
    simp only at hin hhas
    obtain ⟨r1, e1, hr1, hp1, hd1⟩ := seekRead_landing hland hr hp (by omega)
    have hsound := Attrs.sound m.native (fun P Q env x => Ty.sound m o t P Q env x) hfit
    have hR := (SoundOn.piece hsound hb).2
    obtain ⟨r2, e2, s2⟩ := hR r1 (orderBits o (r.inner.data.drop (p + bs.length))) hr1 (by
      rw [unread_none o r1 hr1.leftover_none, avail, hd1, hp1, ← orderBits_append]
      congr 1
      have := List.take_append_drop bs.length (r.inner.data.drop p)
      rw [hhas, List.drop_drop] at this
      exact this.symm)
    have hr2 : r2.At 0 := (hr1.step s2).congr (by rw [length_orderBits]; omega)
    have hp2 : r2.inner.pos = p + bs.length := by
      have h1 := hr2.pos_eq
      have h2 := s2.bitsRead
      have h3 := hr1.pos_eq
      rw [length_orderBits] at h2
      omega
    have hd2 : r2.inner.data = r.inner.data := by rw [s2.data, hd1]
    obtain ⟨r3, e3, hb3⟩ := Fields.Lays.reads tl hrest r2 hr2 hp2 (fun c hc => by
      rw [hd2]; exact hL c (by simp [hc]))
    refine ⟨r3, ?_, hb3⟩
    simp only [Fields.read]
    rw [Attrs.read_seek a, M.bind_ok (show (seekRead a.seek env >>= fun _ => a.still.read m.native (t.read m) env) r = _ from
      (M.bind_ok e1 _).trans e2)]
    rw [M.bind_ok e3]
    rfl
  | .temp _ _ _ _, env, v, pos, L, h, _, _, _, _ => by simp only [Fields.Lays] at h

/-! ### The pieces in the output -/

theorem splice_getD (d bs : List Byte) (p i : Nat) :
    (Sink.splice d p bs).getD i 0 = if p ≤ i ∧ i < p + bs.length then bs.getD (i - p) 0 else d.getD i 0 := by
  have hl : (d.take p ++ List.replicate (p - d.length) (0 : Byte)).length = p := by simp; omega
  unfold Sink.splice
  simp only [List.getD_eq_getElem?_getD]
  by_cases h1 : i < p
  · rw [if_neg (by omega), List.append_assoc, List.getElem?_append_left (by omega)]
    by_cases h2 : i < d.length
    · rw [List.getElem?_append_left (by simp; omega), List.getElem?_take_of_lt h1]
    · rw [List.getElem?_append_right (by simp; omega), List.getElem?_eq_none (l := d) (by omega)]
      simp only [List.getElem?_replicate]
      split <;> rfl
  · by_cases h2 : i < p + bs.length
    · rw [if_pos ⟨by omega, h2⟩, List.append_assoc, List.getElem?_append_right (by omega), hl,
        List.getElem?_append_left (by omega)]
    · rw [if_neg (by omega), List.getElem?_append_right (by simp only [List.length_append] at hl ⊢; omega), List.getElem?_drop]
      congr 2
      simp only [List.length_append] at hl ⊢
      omega

theorem store_length : ∀ (L : List (Nat × List Byte)) (d : List Byte),
    (store d L).length = max d.length (farthest L)
  | [], d => by simp [store, farthest]
  | (p, bs) :: L, d => by
    have := store_length L (Sink.splice d p bs)
    rw [Sink.size_splice] at this
    simp only [farthest]
    rw [show store d ((p, bs) :: L) = store (Sink.splice d p bs) L from rfl, this]
    omega

/-- A byte in no piece keeps its value. -/
theorem store_outside {i : Nat} : ∀ (L : List (Nat × List Byte)) (d : List Byte), (∀ c ∈ L, ¬ Covers c i) →
    (store d L).getD i 0 = d.getD i 0
  | [], d, _ => rfl
  | (p, bs) :: L, d, h => by
    have h1 := h (p, bs) (by simp)
    simp only [Covers] at h1
    rw [show store d ((p, bs) :: L) = store (Sink.splice d p bs) L from rfl,
      store_outside L _ (fun c hc => h c (by simp [hc])), splice_getD, if_neg h1]

theorem store_inside {i : Nat} : ∀ (L : List (Nat × List Byte)) (d : List Byte), Apart L → ∀ c ∈ L, Covers c i →
    (store d L).getD i 0 = c.2.getD (i - c.1) 0
  | [], _, _, c, hc, _ => by simp at hc
  | (p, bs) :: L, d, h, c, hc, hi => by
    have h := List.pairwise_cons.1 h
    rw [show store d ((p, bs) :: L) = store (Sink.splice d p bs) L from rfl]
    rcases List.mem_cons.1 hc with rfl | hc
    · rw [store_outside L _ (fun c' hc' => h.1 c' hc' i hi), splice_getD]
      exact if_pos hi
    · exact store_inside L _ h.2 c hc hi

theorem farthest_le : ∀ (L : List (Nat × List Byte)), ∀ c ∈ L, c.1 + c.2.length ≤ farthest L
  | [], c, h => by simp at h
  | (p, bs) :: L, c, h => by
    simp only [farthest]
    rcases List.mem_cons.1 h with rfl | h
    · simp only; omega
    · have := farthest_le L c h; omega

theorem lastEnd_le : ∀ (L : List (Nat × List Byte)) (pos : Nat), lastEnd pos L ≤ max pos (farthest L)
  | [], pos => by simp [lastEnd, farthest]
  | (p, bs) :: L, pos => by
    have := lastEnd_le L (p + bs.length)
    simp only [lastEnd, farthest]
    omega

theorem store_piece {L : List (Nat × List Byte)} (h : Apart L) {c : Nat × List Byte} (hc : c ∈ L) (d : List Byte) :
    ((store d L).drop c.1).take c.2.length = c.2 := by
  have hlen := store_length L d
  have hf := farthest_le L c hc
  apply List.ext_getElem
  · simp; omega
  · intro i h1 h2
    have := store_inside (i := c.1 + i) L d h c hc ⟨by omega, by omega⟩
    rw [show c.1 + i - c.1 = i by omega] at this
    simp only [List.getD_eq_getElem?_getD] at this
    rw [List.getElem?_eq_getElem (by omega), List.getElem?_eq_getElem h2] at this
    simpa using this

end Deku
