import Verif.Spec.Sink
import Verif.Lemmas.Writer

/-! # Lemmas: every writer call reports errors, is agnostic of the sink and counts its bytes -/

namespace Deku

variable {α β : Type}

/-! ### reporting -/

namespace ReportsW

theorem silent {w : Writer} {f : M Writer α} (h : (f w).2.inner = w.inner) : ReportsW w f :=
  ⟨by rw [h], by rw [h]; exact Nat.le_refl _, fun i _ _ h1 h2 => by rw [h] at h2; omega⟩

theorem bind {w : Writer} {f : M Writer α} {g : α → M Writer β} (hf : ReportsW w f)
    (hg : ∀ a w', f w = (.ok a, w') → ReportsW w' (g a)) : ReportsW w (f >>= g) := by
  rcases h : f w with ⟨x, w'⟩
  have h1 := hf.faults
  have h2 := hf.calls
  have h3 := hf.reported
  rw [h] at h1 h2 h3
  cases x with
  | err e =>
    refine ⟨?_, ?_, ?_⟩
    · rw [M.bind_err h]; exact h1
    · rw [M.bind_err h]; exact h2
    · rw [M.bind_err h]
      intro i k e' a b c
      simpa using h3 i k e' a b c
  | panic =>
    refine ⟨?_, ?_, ?_⟩
    · rw [M.bind_panic h]; exact h1
    · rw [M.bind_panic h]; exact h2
    · rw [M.bind_panic h]
      intro i k e' a b c
      simpa using h3 i k e' a b c
  | ok a =>
    have hga := hg a w' h
    refine ⟨?_, ?_, ?_⟩
    · rw [M.bind_ok h, hga.faults]; exact h1
    · rw [M.bind_ok h]; exact Nat.le_trans h2 hga.calls
    · rw [M.bind_ok h]
      intro i k e' ha hb hc
      by_cases hi : i < w'.inner.calls
      · simpa using h3 i k e' ha hi hc
      · exact hga.reported i k e' (by omega) hb (by rw [h1]; exact hc)

theorem writeAll (bs : List Byte) (w : Writer) : ReportsW w (Writer.writeAll bs) := by
  have key : (w.inner.writeAll bs).2.faults = w.inner.faults ∧
      (w.inner.writeAll bs).2.calls = w.inner.calls + 1 ∧
      ∀ k e, w.inner.faults w.inner.calls = some (k, e) → (w.inner.writeAll bs).1 = .error e := by
    simp only [Sink.writeAll]
    rcases hf : w.inner.faults w.inner.calls with _ | ⟨k, e⟩
    · rcases hc : w.inner.cap with _ | c
      · exact ⟨rfl, rfl, by simp⟩
      · by_cases h : bs.length ≤ c - w.inner.pos
        · simp [if_pos h]
        · simp [if_neg h]
    · exact ⟨rfl, rfl, by simp⟩
  rcases h : w.inner.writeAll bs with ⟨x, s⟩
  rw [h] at key
  obtain ⟨h1, h2, h3⟩ := key
  have hs : (Writer.writeAll bs w).2.inner = s := by
    simp only [Writer.writeAll, h]; cases x <;> rfl
  refine ⟨by rw [hs]; exact h1, by rw [hs]; simp only at h2; omega, ?_⟩
  intro i k e ha hb hc
  rw [hs] at hb
  simp only at h2
  have : i = w.inner.calls := by omega
  subst this
  have := h3 k e hc
  simp only at this
  simp [Writer.writeAll, h, this]

end ReportsW

/-! ### sink agnosticism -/

namespace Agnostic

/-- A computation on the fields other than the sink. -/
theorem local_ {f : M Writer α} (h : ∀ w, (f w).2.inner = w.inner)
    (h' : ∀ w v : Writer, v.leftover = w.leftover → v.tag = w.tag → v.bitsWritten = w.bitsWritten →
      (f v).1 = (f w).1 ∧ (f v).2.leftover = (f w).2.leftover ∧ (f v).2.tag = (f w).2.tag ∧
      (f v).2.bitsWritten = (f w).2.bitsWritten) : Agnostic f := by
  intro buf w v hs
  obtain ⟨h1, h2, h3, h4⟩ := h' w v hs.leftover hs.tag hs.bitsWritten
  have hf := hs.fits
  refine ⟨by rw [h]; exact Nat.le_refl _, ?_, .inl ⟨by rw [h]; exact hs.fits, h1, ?_⟩⟩
  · rw [h, hs.data']; simp; omega
  · exact ⟨h2, h3, h4, by rw [h]; exact hs.faults, by rw [h]; exact hs.faults',
      by rw [h]; exact hs.cap, by rw [h]; exact hs.cap', by rw [h]; exact hs.pos,
      by rw [h]; exact hs.fits, by rw [h, h]; exact hs.pos', by rw [h, h]; exact hs.data'⟩

theorem pure (a : α) : Agnostic (Pure.pure a : M Writer α) :=
  local_ (fun _ => rfl) (fun _ _ a b c => ⟨rfl, a, b, c⟩)

theorem throw (e : DekuError) : Agnostic (M.throw e : M Writer α) :=
  local_ (fun _ => rfl) (fun _ _ a b c => ⟨rfl, a, b, c⟩)

theorem panic : Agnostic (M.panic : M Writer α) :=
  local_ (fun _ => rfl) (fun _ _ a b c => ⟨rfl, a, b, c⟩)

theorem assert (c : Bool) : Agnostic (M.assert c : M Writer Unit) := by
  cases c
  · exact panic
  · exact pure ()

theorem bind {f : M Writer α} {g : α → M Writer β} (hf : Agnostic f) (hg : ∀ a, Agnostic (g a)) :
    Agnostic (f >>= g) := by
  intro buf w v hs
  obtain ⟨h1, h2, h3⟩ := hf buf w v hs
  rcases e1 : f w with ⟨x, w'⟩
  rcases e2 : f v with ⟨y, v'⟩
  rw [e1] at h1
  rw [e2] at h2
  rw [e1, e2] at h3
  rcases h3 with ⟨hfit, hy, hsim⟩ | ⟨hfit, hy⟩
  · simp only at hy
    subst hy
    cases y with
    | err e => rw [M.bind_err e1, M.bind_err e2]; exact ⟨h1, h2, .inl ⟨hfit, rfl, hsim⟩⟩
    | panic => rw [M.bind_panic e1, M.bind_panic e2]; exact ⟨h1, h2, .inl ⟨hfit, rfl, hsim⟩⟩
    | ok a =>
      rw [M.bind_ok e1, M.bind_ok e2]
      obtain ⟨g1, g2, g3⟩ := hg a buf w' v' hsim
      exact ⟨Nat.le_trans h1 g1, g2, g3⟩
  · simp only at hy
    subst hy
    rw [M.bind_err e2]
    cases x with
    | err e => rw [M.bind_err e1]; exact ⟨h1, h2, .inr ⟨hfit, rfl⟩⟩
    | panic => rw [M.bind_panic e1]; exact ⟨h1, h2, .inr ⟨hfit, rfl⟩⟩
    | ok a =>
      rw [M.bind_ok e1]
      -- the vector run continues and only grows
      have hgrow : w'.inner.data.length ≤ (g a w').2.inner.data.length := by
        -- run `g` on a slice that is long enough for `w'`
        have hw' : SliceSim w'.inner.data w' { w' with
            inner := { data := w'.inner.data, pos := w'.inner.data.length, cap := some w'.inner.data.length } } := by
          obtain ⟨k1, k2, k3⟩ := hf (w.inner.data ++ List.replicate w'.inner.data.length 0) w
            { w with inner := { data := w.inner.data ++ List.replicate w'.inner.data.length 0,
                                pos := w.inner.data.length,
                                cap := some (w.inner.data.length + w'.inner.data.length) } }
            ⟨rfl, rfl, rfl, hs.faults, rfl, hs.cap, by simp, hs.pos, by simp, rfl, by simp⟩
          rw [e1] at k3
          simp only [List.length_append, List.length_replicate] at k3
          rcases k3 with ⟨_, _, k⟩ | ⟨k, _⟩
          · exact ⟨rfl, rfl, rfl, k.faults, rfl, k.cap, rfl, k.pos, Nat.le_refl _, rfl, by simp⟩
          · omega
        exact (hg a _ _ _ hw').1
      exact ⟨Nat.le_trans h1 hgrow, h2, .inr ⟨by simp only at hfit; omega, rfl⟩⟩

theorem get_bind {f : Writer → M Writer α} (h : ∀ w, Agnostic (f w))
    (h' : ∀ w v : Writer, v.leftover = w.leftover → v.tag = w.tag → v.bitsWritten = w.bitsWritten →
      f v = f w) : Agnostic (M.get >>= f) := by
  intro buf w v hs
  rw [M.get_bind_run, M.get_bind_run, h' w v hs.leftover hs.tag hs.bitsWritten]
  exact h w buf w v hs

theorem writeAll (bs : List Byte) : Agnostic (Writer.writeAll bs) := by
  intro buf w v hs
  have hc := hs.fits
  have e1 : Writer.writeAll bs w = (.ok (), { w with inner := { w.inner with
      calls := w.inner.calls + 1, data := w.inner.data ++ bs,
      pos := w.inner.data.length + bs.length } }) := by
    simp only [Writer.writeAll, Sink.writeAll, hs.faults, noFaults, hs.cap]
    rw [Sink.splice_in (by rw [hs.pos]; exact Nat.le_refl _)]
    simp [hs.pos]
  rw [e1]
  by_cases hb : bs.length ≤ buf.length - w.inner.data.length
  · have e2 : Writer.writeAll bs v = (.ok (), { v with inner := { v.inner with
        calls := v.inner.calls + 1,
        data := w.inner.data ++ bs ++ buf.drop (w.inner.data.length + bs.length),
        pos := w.inner.data.length + bs.length } }) := by
      simp only [Writer.writeAll, Sink.writeAll, hs.faults', noFaults, hs.cap', hs.pos', if_pos hb]
      rw [Sink.splice_in (by rw [hs.data']; simp), hs.data']
      simp [List.drop_append]
    rw [e2]
    refine ⟨by simp, by simp; omega, .inl ⟨by simp; omega, rfl, ?_⟩⟩
    exact ⟨hs.leftover, hs.tag, hs.bitsWritten, hs.faults, hs.faults', hs.cap, hs.cap', by simp,
      by simp; omega, by simp, by simp⟩
  · have e2 : (Writer.writeAll bs v).1 = .err (.io .writeZero) ∧
        (Writer.writeAll bs v).2.inner.data.length = buf.length := by
      simp only [Writer.writeAll, Sink.writeAll, hs.faults', noFaults, hs.cap', hs.pos', if_neg hb]
      refine ⟨trivial, ?_⟩
      rw [Sink.length_splice (by rw [hs.data']; simp), hs.data']
      simp; omega
    exact ⟨by simp, e2.2, .inr ⟨by simp; omega, e2.1⟩⟩

end Agnostic

/-! ### counting -/

namespace Counted

theorem bind {f : M Writer α} {g : α → M Writer β} (hf : Counted f) (hg : ∀ a, Counted (g a)) :
    Counted (f >>= g) := by
  intro w b w'' h
  obtain ⟨a, w', h1, h2⟩ := M.bind_eq_ok h
  have := hf w a w' h1
  have := hg a w' b w'' h2
  omega

theorem local_ {f : M Writer α} (h : ∀ w, (f w).2.inner = w.inner)
    (h' : ∀ w, (f w).2.bitsWritten = w.bitsWritten) : Counted f := by
  intro w a w' hw
  have h1 := h w
  have h2 := h' w
  rw [hw] at h1 h2
  simp only at h1 h2
  rw [h1, h2]

theorem pure (a : α) : Counted (Pure.pure a : M Writer α) := local_ (fun _ => rfl) (fun _ => rfl)
theorem throw (e : DekuError) : Counted (M.throw e : M Writer α) :=
  local_ (fun _ => rfl) (fun _ => rfl)
theorem assert (c : Bool) : Counted (M.assert c : M Writer Unit) := by
  cases c <;> exact local_ (fun _ => rfl) (fun _ => rfl)
theorem get_bind {f : Writer → M Writer α} (h : ∀ w, Counted (f w)) : Counted (M.get >>= f) :=
  fun w a w' hw => h w w a w' hw

end Counted

theorem writeAll_pos {bs : List Byte} {w w' : Writer} {u : Unit}
    (h : Writer.writeAll bs w = (.ok u, w')) :
    w'.inner.pos = w.inner.pos + bs.length ∧ w'.bitsWritten = w.bitsWritten ∧
      w'.leftover = w.leftover ∧ w'.tag = w.tag := by
  simp only [Writer.writeAll, Sink.writeAll] at h
  rcases hf : w.inner.faults w.inner.calls with _ | ⟨k, e⟩
  · rw [hf] at h
    rcases hc : w.inner.cap with _ | c
    · simp [hc] at h
      rw [← h]; exact ⟨rfl, rfl, rfl, rfl⟩
    · by_cases hb : bs.length ≤ c - w.inner.pos
      · simp [hc, hb] at h
        rw [← h]; exact ⟨rfl, rfl, rfl, rfl⟩
      · simp [hc, hb] at h
  · simp [hf] at h

/-! ### the writer's entry points -/

namespace Writer

/-- All three facts. -/
structure Good (f : M Writer α) : Prop where
  reports : ∀ w, ReportsW w f
  agnostic : Agnostic f
  counted : Counted f

theorem Good.bind {f : M Writer α} {g : α → M Writer β} (hf : Good f) (hg : ∀ a, Good (g a)) :
    Good (f >>= g) :=
  ⟨fun w => (hf.reports w).bind (fun a w' _ => (hg a).reports w'),
    hf.agnostic.bind (fun a => (hg a).agnostic), hf.counted.bind (fun a => (hg a).counted)⟩

theorem Good.pure (a : α) : Good (Pure.pure a : M Writer α) :=
  ⟨fun _ => ReportsW.silent rfl, Agnostic.pure a, Counted.pure a⟩
theorem Good.throw (e : DekuError) : Good (M.throw e : M Writer α) :=
  ⟨fun _ => ReportsW.silent rfl, Agnostic.throw e, Counted.throw e⟩
theorem Good.panic : Good (M.panic : M Writer α) :=
  ⟨fun _ => ReportsW.silent rfl, Agnostic.panic, Counted.local_ (fun _ => rfl) (fun _ => rfl)⟩
theorem Good.assert (c : Bool) : Good (M.assert c : M Writer Unit) :=
  ⟨fun _ => ReportsW.silent (by cases c <;> rfl), Agnostic.assert c, Counted.assert c⟩

/-- Looking at pending bits, order tag and counter. -/
theorem Good.get_bind {f : Writer → M Writer α} (h : ∀ w, Good (f w))
    (h' : ∀ w v : Writer, v.leftover = w.leftover → v.tag = w.tag → v.bitsWritten = w.bitsWritten →
      f v = f w) : Good (M.get >>= f) :=
  ⟨fun _ => ReportsW.bind (ReportsW.silent rfl) (fun a w' _ => (h a).reports w'),
    Agnostic.get_bind (fun w => (h w).agnostic) h', Counted.get_bind (fun w => (h w).counted)⟩

theorem Good.local_ {f : M Writer α} (h : ∀ w, (f w).2.inner = w.inner)
    (hb : ∀ w, (f w).2.bitsWritten = w.bitsWritten)
    (h' : ∀ w v : Writer, v.leftover = w.leftover → v.tag = w.tag → v.bitsWritten = w.bitsWritten →
      (f v).1 = (f w).1 ∧ (f v).2.leftover = (f w).2.leftover ∧ (f v).2.tag = (f w).2.tag ∧
      (f v).2.bitsWritten = (f w).2.bitsWritten) : Good f :=
  ⟨fun w => ReportsW.silent (h w), Agnostic.local_ h h', Counted.local_ h hb⟩

theorem good_extend (bits : List Bool) : Good (extend bits) := by
  rw [extend]
  refine Good.get_bind (fun w => Good.bind (Good.assert _) (fun _ => ?_)) ?_
  · refine Good.local_ (fun _ => rfl) (fun _ => rfl) ?_
    intro w v h1 h2 h3
    simp [h1, h2, h3]
  · intro w v h _ _; rw [h]

theorem good_setTag (t : Order) : Good (M.modify (fun w : Writer => { w with tag := t })) := by
  refine Good.local_ (fun _ => rfl) (fun _ => rfl) ?_
  intro w v h1 h2 h3; simp [h1, h3]

theorem good_takeLeftover : Good takeLeftover := by
  refine Good.local_ (fun _ => rfl) (fun _ => rfl) ?_
  intro w v h1 h2 h3
  simp [takeLeftover, h1, h3]

/-- Writing some bytes and adding eight times their number to the counter. -/
theorem good_put (bs : List Byte) (g : Writer → Writer)
    (hi : ∀ w, (g w).inner = w.inner)
    (hb : ∀ w, (g w).bitsWritten = w.bitsWritten + 8 * bs.length)
    (h' : ∀ w v : Writer, v.leftover = w.leftover → v.tag = w.tag → v.bitsWritten = w.bitsWritten →
      (g v).leftover = (g w).leftover ∧ (g v).tag = (g w).tag) :
    Good (writeAll bs >>= fun _ => M.modify g) := by
  refine ⟨fun w => ReportsW.bind (ReportsW.writeAll bs w) (fun _ w' _ => ReportsW.silent (hi w')),
    Agnostic.bind (Agnostic.writeAll bs) (fun _ => Agnostic.local_ hi ?_), ?_⟩
  · intro w v h1 h2 h3
    obtain ⟨a, b⟩ := h' w v h1 h2 h3
    exact ⟨rfl, a, b, by simp only [M.modify_run]; rw [hb, hb, h3]⟩
  · intro w a w'' h
    obtain ⟨_, w', h1, h2⟩ := M.bind_eq_ok h
    simp at h2
    obtain ⟨p1, p2, _⟩ := writeAll_pos h1
    rw [← h2, hi, hb, p1, p2]; omega

theorem good_flushFull : Good flushFull := by
  refine ⟨fun w => ?_, ?_, ?_⟩
  · rw [flushFull]
    refine ReportsW.bind (ReportsW.silent rfl) (fun a w' _ => ?_)
    by_cases h : a.leftover.length = 8
    · rw [if_pos h]
      exact ReportsW.bind (ReportsW.writeAll _ _) (fun _ w' _ => ReportsW.silent rfl)
    · rw [if_neg h]; exact ReportsW.silent rfl
  · rw [flushFull]
    refine Agnostic.get_bind (fun w => ?_) ?_
    · by_cases h : w.leftover.length = 8
      · rw [if_pos h]
        refine Agnostic.bind (Agnostic.writeAll _) (fun _ => Agnostic.local_ (fun _ => rfl) ?_)
        intro w v h1 h2 h3; simp [h1, h3]
      · rw [if_neg h]; exact Agnostic.pure _
    · intro w v h _ _; rw [h]
  · intro w a w'' h
    rw [flushFull, M.get_bind_run] at h
    by_cases hl : w.leftover.length = 8
    · rw [if_pos hl] at h
      obtain ⟨_, w', h1, h2⟩ := M.bind_eq_ok h
      simp at h2
      obtain ⟨p1, p2, p3, _⟩ := writeAll_pos h1
      rw [← h2]
      simp [p1, p2, p3, hl]; omega
    · rw [if_neg hl] at h
      simp at h
      rw [h]

theorem good_writeBulk (cs : List (List Bool)) (n : Nat) (hn : n = 8 * cs.length) :
    Good (writeBulk cs n) := by
  have hr : ∀ cs : List (List Bool), (∀ w, ReportsW w (writeChunks cs)) ∧ Agnostic (writeChunks cs) ∧
      ∀ w u w', writeChunks cs w = (.ok u, w') →
        w'.inner.pos = w.inner.pos + cs.length ∧ w'.bitsWritten = w.bitsWritten := by
    intro cs
    induction cs with
    | nil =>
      refine ⟨fun w => ReportsW.silent rfl, Agnostic.pure _, ?_⟩
      intro w u w' h
      simp [writeChunks] at h
      subst h; exact ⟨rfl, rfl⟩
    | cons c cs ih =>
      obtain ⟨i1, i2, i3⟩ := ih
      refine ⟨fun w => ?_, ?_, ?_⟩
      · rw [writeChunks]
        exact ReportsW.bind (ReportsW.writeAll _ _) (fun _ w' _ => i1 w')
      · rw [writeChunks]
        exact Agnostic.bind (Agnostic.writeAll _) (fun _ => i2)
      · intro w u w' h
        rw [writeChunks] at h
        obtain ⟨_, w1, h1, h2⟩ := M.bind_eq_ok h
        obtain ⟨p1, p2, _⟩ := writeAll_pos h1
        obtain ⟨q1, q2⟩ := i3 _ _ _ h2
        rw [q1, q2, p1, p2]; simp; omega
  obtain ⟨h1, h2, h3⟩ := hr cs
  refine ⟨fun w => ReportsW.bind (h1 w) (fun _ w' _ => ReportsW.silent rfl),
    Agnostic.bind h2 (fun _ => Agnostic.local_ (fun _ => rfl) ?_), ?_⟩
  · intro w v a b c; simp [a, b, c]
  · intro w a w'' h
    rw [writeBulk] at h
    obtain ⟨_, w', g1, g2⟩ := M.bind_eq_ok h
    simp at g2
    obtain ⟨p1, p2⟩ := h3 _ _ _ g1
    rw [← g2]; simp [p1, p2]; omega

theorem good_msbMsb (bits : List Bool) : Good (msbMsb bits) := by
  have htail : ∀ rest : List Bool, Good (do
      writeBulk (chunks8 (rest.length / 8) rest) (rest.length - (fwdRemainder rest).length)
      extend (fwdRemainder rest)
      M.modify (fun w => { w with tag := .msb0 })) := fun rest =>
    Good.bind (good_writeBulk _ _ (by simp; omega)) (fun _ =>
      Good.bind (good_extend _) (fun _ => good_setTag _))
  rw [msbMsb]
  refine Good.get_bind (fun w => Good.bind (Good.assert _) (fun _ => Good.bind good_takeLeftover
    (fun lo => ?_))) ?_
  · dsimp only
    by_cases h : lo.isEmpty
    · rw [if_pos h]; exact Good.bind (Good.pure _) htail
    · rw [if_neg h]
      refine Good.bind (good_extend _) (fun _ => Good.bind (good_extend _) (fun _ =>
        Good.get_bind (fun w => Good.bind (Good.assert _) (fun _ => Good.bind good_flushFull
          (fun _ => Good.bind (Good.pure _) htail))) ?_))
      intro w v h _ _; rw [h]
  · intro w v h _ _; rw [h]

theorem good_lsbLsb (bits : List Bool) : Good (lsbLsb bits) := by
  have htail : ∀ rest : List Bool, Good (do
      writeBulk (rchunks8 (rest.length / 8) rest) (rest.length - (bwdRemainder rest).length)
      extend (bwdRemainder rest)
      M.modify (fun w => { w with tag := .lsb0 })) := fun rest =>
    Good.bind (good_writeBulk _ _ (by simp; omega)) (fun _ =>
      Good.bind (good_extend _) (fun _ => good_setTag _))
  rw [lsbLsb]
  refine Good.get_bind (fun w => Good.bind (Good.assert _) (fun _ => Good.bind good_takeLeftover
    (fun lo => ?_))) ?_
  · dsimp only
    by_cases h : lo.isEmpty
    · rw [if_pos h]; exact Good.bind (Good.pure _) htail
    · rw [if_neg h]
      refine Good.bind (good_extend _) (fun _ => Good.bind (good_extend _) (fun _ =>
        Good.get_bind (fun w => Good.bind (Good.assert _) (fun _ => Good.bind good_flushFull
          (fun _ => Good.bind (Good.pure _) htail))) ?_))
      intro w v h _ _; rw [h]
  · intro w v h _ _; rw [h]

theorem good_msbLsb (bits : List Bool) : Good (msbLsb bits) := by
  rw [msbLsb]
  refine Good.get_bind (fun w => Good.bind (Good.assert _) (fun _ => Good.bind good_takeLeftover
    (fun lo => ?_))) ?_
  · generalize (if lo.isEmpty then (([] : List Bool), ([] : List Bool), bits, ([] : List Bool)) else
      (lo.take (min (8 - bits.length % 8) lo.length),
        bits.take (min bits.length (8 - min (8 - bits.length % 8) lo.length)),
        bits.drop (min bits.length (8 - min (8 - bits.length % 8) lo.length)),
        lo.drop (min (8 - bits.length % 8) lo.length))) = q
    obtain ⟨first, complement, bulk, last⟩ := q
    refine Good.bind (good_extend _) (fun _ => Good.bind (good_extend _) (fun _ =>
      Good.bind good_flushFull (fun _ => Good.bind (good_writeBulk _ _ (by simp; omega)) (fun _ =>
      Good.get_bind (fun w => Good.bind (Good.assert _) (fun _ => Good.bind (good_extend _) (fun _ =>
      Good.bind (good_extend _) (fun _ => Good.get_bind (fun w => Good.bind (Good.assert _) (fun _ =>
      Good.bind good_flushFull (fun _ => Good.bind (good_extend _) (fun _ => good_setTag _)))) ?_)))) ?_))))
    · intro w v h _ _; rw [h]
    · intro w v h _ _; rw [h]
  · intro w v h _ _; rw [h]

theorem good_lsbMsb (bits : List Bool) : Good (lsbMsb bits) := by
  rw [lsbMsb]
  refine Good.get_bind (fun w => Good.bind (Good.assert _) (fun _ => Good.bind good_takeLeftover
    (fun lo => ?_))) ?_
  · generalize (if lo.isEmpty then (([] : List Bool), ([] : List Bool)) else
      (lo.take (min (8 - bits.length % 8) lo.length),
        lo.drop (min (8 - bits.length % 8) lo.length))) = q
    obtain ⟨complement, rest⟩ := q
    refine Good.bind (good_writeBulk _ _ (by simp; omega)) (fun _ =>
      Good.bind (good_extend _) (fun _ =>
      Good.bind (good_extend _) (fun _ => Good.bind (good_setTag _) (fun _ =>
      Good.get_bind (fun w => Good.bind (Good.assert _) (fun _ =>
      Good.bind good_flushFull (fun _ => good_extend _))) ?_))))
    intro w v h _ _; rw [h]
  · intro w v h _ _; rw [h]

theorem good_writeBitsOrder (bits : List Bool) (o : Order) : Good (writeBitsOrder bits o) := by
  rw [writeBitsOrder]
  refine Good.get_bind (fun w => ?_) ?_
  · cases w.tag <;> cases o
    · exact good_msbMsb bits
    · exact good_msbLsb bits
    · exact good_lsbMsb bits
    · exact good_lsbLsb bits
  · intro w v _ h _; rw [h]

theorem good_writeBytes (bs : List Byte) : Good (writeBytes bs) := by
  rw [writeBytes]
  refine Good.get_bind (fun w => ?_) ?_
  · by_cases h : w.leftover.isEmpty
    · rw [if_pos h]
      exact good_put bs _ (fun _ => rfl) (fun _ => by simp; omega) (fun w v a b c => ⟨a, b⟩)
    · rw [if_neg h]; exact good_writeBitsOrder _ _
  · intro w v h _ _; rw [h]

theorem good_writeBitsUintMsb0 (v amt : Nat) : Good (writeBitsUintMsb0 v amt) := by
  rw [writeBitsUintMsb0]
  have hset : ∀ l : List Bool, Good (M.modify (fun w : Writer => { w with leftover := l, tag := .msb0 })) := by
    intro l
    refine Good.local_ (fun _ => rfl) (fun _ => rfl) ?_
    intro w v h1 h2 h3; simp [h3]
  refine Good.get_bind (fun w => Good.bind (Good.assert _) (fun _ => Good.bind (Good.assert _) (fun _ => ?_))) ?_
  · dsimp only
    by_cases h : (w.leftover.length + amt) / 8 = 0
    · rw [if_neg (by simpa using h)]; exact hset _
    · rw [if_pos h]
      have := good_put (toBE ((w.leftover.length + amt) / 8)
        ((ofBits w.leftover * 2 ^ amt + v % 2 ^ amt) / 2 ^ ((w.leftover.length + amt) % 8)))
        (fun w' => { w' with bitsWritten := w'.bitsWritten + (w.leftover.length + amt) / 8 * 8 })
        (fun _ => rfl) (fun _ => by simp; omega) (fun w v a b c => ⟨a, b⟩)
      have h2 := Good.bind this (fun _ => hset (bitsBE ((w.leftover.length + amt) % 8)
        (ofBits w.leftover * 2 ^ amt + v % 2 ^ amt)))
      have e : ∀ (x : M Writer Unit) (f : Unit → M Writer Unit) (g : Unit → M Writer Unit),
          (x >>= f) >>= g = x >>= fun a => f a >>= g := by
        intro x f g; funext s; exact M.bind_assoc_run x f g s
      rw [e] at h2
      exact h2
  · intro w v h1 h2 _; rw [h1, h2]

theorem good_finalize : Good finalize := by
  rw [finalize]
  refine Good.get_bind (fun w => Good.bind (Good.assert _) (fun _ => good_writeBitsOrder _ _)) ?_
  intro w v h1 h2 _; rw [h1, h2]

end Writer

end Deku
