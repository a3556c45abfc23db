import Verif.Lemmas.Tell
import Verif.Lemmas.Io

/-!
# Sinks of other types
-/

namespace Deku

/-- What the loop of `write_all` does: some of the bytes are written, from their start, and the others
are left. -/
theorem Device.writeLoop_law : ∀ (fuel : Nat) (d : Device) (bs : List Byte) x left d',
    writeLoop fuel d bs = (x, left, d') →
    ∃ k, left = bs.drop k ∧ d'.out = d.out ++ bs.take k ∧ (∀ u, x = .ok u → left = [])
  | 0, d, [], x, left, d', h | _ + 1, d, [], x, left, d', h => by
    simp only [writeLoop, Prod.mk.injEq] at h
    obtain ⟨rfl, rfl, rfl⟩ := h
    exact ⟨0, rfl, by simp, fun _ _ => rfl⟩
  | 0, d, b :: bs, x, left, d', h => by
    simp only [writeLoop, Prod.mk.injEq] at h
    obtain ⟨rfl, rfl, rfl⟩ := h
    exact ⟨0, rfl, by simp, fun _ h => by cases h⟩
  | fuel + 1, d, b :: bs, x, left, d', h => by
    unfold writeLoop at h
    unfold write at h
    rcases hs : d.script with _ | ⟨a, sc⟩
    · simp only [hs, List.length_cons] at h
      obtain ⟨k, h1, h2, h3⟩ := writeLoop_law fuel _ _ _ _ _ h
      refine ⟨bs.length + 1, ?_, ?_, h3⟩
      · simpa using h1
      · simpa using h2
    · simp only [hs] at h
      cases a with
      | take n =>
        simp only [List.take_succ_cons, List.length_cons] at h
        obtain ⟨k, h1, h2, h3⟩ := writeLoop_law fuel _ _ _ _ _ h
        refine ⟨(bs.take n).length + k + 1, ?_, ?_, h3⟩
        · rw [h1, List.drop_drop, List.drop_succ_cons]
        · rw [h2]
          simp only [List.take_succ_cons, List.append_assoc, List.cons_append, List.append_cancel_left_eq, List.cons.injEq, true_and]
          rw [List.take_add]
          congr 1
          rw [List.length_take]
          rcases Nat.le_total n bs.length with hn | hn
          · rw [Nat.min_eq_left hn]
          · rw [Nat.min_eq_right hn, List.take_of_length_le hn, List.take_of_length_le (Nat.le_refl _)]
      | interrupt => exact writeLoop_law fuel { d with script := sc } _ _ _ _ h
      | full =>
        simp only [Prod.mk.injEq] at h
        obtain ⟨rfl, rfl, rfl⟩ := h
        exact ⟨0, rfl, by simp, fun _ h => by cases h⟩
      | fail e =>
        simp only [Prod.mk.injEq] at h
        obtain ⟨rfl, rfl, rfl⟩ := h
        exact ⟨0, rfl, by simp, fun _ h => by cases h⟩

theorem Device.writeLoop_quiet : ∀ (fuel : Nat) (d : Device) (bs : List Byte), d.Quiet →
    d.script.length + bs.length ≤ fuel → ∃ d', writeLoop fuel d bs = (.ok (), [], d') ∧ d'.Quiet
  | 0, d, [], hq, _ | _ + 1, d, [], hq, _ => ⟨d, by simp [writeLoop], hq⟩
  | 0, d, b :: bs, hq, hf => by simp at hf
  | fuel + 1, d, b :: bs, hq, hf => by
    unfold writeLoop write
    rcases hs : d.script with _ | ⟨a, sc⟩
    · simp only [List.length_cons]
      exact writeLoop_quiet fuel _ _ (by intro a ha; exact hq a (by rw [hs]; exact ha)) (by simp)
    · have hsc : ∀ a ∈ sc, (∃ k, a = .take k) ∨ a = .interrupt := fun x hx => hq x (by rw [hs]; exact List.mem_cons_of_mem _ hx)
      rw [hs] at hf
      simp only [List.length_cons] at hf
      cases a with
      | take n =>
        simp only [List.take_succ_cons, List.length_cons]
        exact writeLoop_quiet fuel _ _ hsc (by simp; omega)
      | interrupt => exact writeLoop_quiet fuel _ _ hsc (by simp; omega)
      | full => have := hq .full (by simp [hs]); simp at this
      | fail e => have := hq (.fail e) (by simp [hs]); simp at this

theorem Device.honest : HonestSink Device.impl Device.Has := by
  intro d out bs h
  obtain rfl := h
  rcases hx : writeLoop (d.script.length + bs.length) d bs with ⟨x, left, d'⟩
  obtain ⟨k, h1, h2, h3⟩ := writeLoop_law _ _ _ _ _ _ hx
  simp only [Device.impl, writeAll, hx, Prod.mk.injEq]
  refine ⟨?_, ?_⟩
  · rintro u s' ⟨rfl, rfl⟩
    have := h3 _ rfl
    rw [this] at h1
    have hk : bs.length ≤ k := List.drop_eq_nil_iff.1 h1.symm
    simp only [Device.Has]
    rw [h2, List.take_of_length_le hk]
  · rintro e s' ⟨rfl, rfl⟩
    exact ⟨k, h2⟩

theorem Device.reliable : ReliableSink Device.impl (fun d out => d.Has out ∧ d.Quiet) := by
  intro d out bs h
  obtain ⟨d', e, hq⟩ := writeLoop_quiet _ d bs h.2 (Nat.le_refl _)
  have e' : Device.impl d bs = (.ok (), d') := by simp only [Device.impl, writeAll, e]
  exact ⟨d', e', (Device.honest d out bs h.1).1 _ _ e', hq⟩

theorem BufWriter.flush_law (w : BufWriter) : (w.flush).2.inner.out ++ (w.flush).2.buf = w.inner.out ++ w.buf ∧
    (w.flush).2.cap = w.cap ∧ (w.flush).2.buf.length ≤ w.buf.length ∧ (∀ u, (w.flush).1 = .ok u → (w.flush).2.buf = []) := by
  unfold BufWriter.flush
  rcases hx : Device.writeLoop (w.inner.script.length + w.buf.length) w.inner w.buf with ⟨x, left, d'⟩
  obtain ⟨k, h1, h2, h3⟩ := Device.writeLoop_law _ _ _ _ _ _ hx
  refine ⟨?_, rfl, ?_, h3⟩
  · simp only
    rw [h1, h2, List.append_assoc, List.take_append_drop]
  · simp [h1]

theorem BufWriter.flush_quiet (w : BufWriter) (hq : w.inner.Quiet) :
    ∃ w', w.flush = (.ok (), w') ∧ w'.inner.Quiet := by
  obtain ⟨d', e, hq⟩ := Device.writeLoop_quiet _ w.inner w.buf hq (Nat.le_refl _)
  exact ⟨_, by unfold BufWriter.flush; rw [e], hq⟩

/-- A large write bypasses the buffer, which must be empty then. -/
theorem BufWriter.store_law (w : BufWriter) (bs : List Byte) (hb : w.cap ≤ bs.length → w.buf = [])
    (hl : bs.length < w.cap → w.buf.length + bs.length ≤ w.cap) :
    (∀ u w', w.store bs = (.ok u, w') → w'.Has (w.inner.out ++ w.buf ++ bs)) ∧
    (∀ e w', w.store bs = (.error e, w') → ∃ k, w'.Has (w.inner.out ++ w.buf ++ bs.take k)) := by
  unfold BufWriter.store
  split
  · rename_i hc
    have he := hb hc
    obtain ⟨h1, h2⟩ := Device.honest w.inner w.inner.out bs rfl
    rcases hx : w.inner.writeAll bs with ⟨x, d⟩
    simp only [Prod.mk.injEq]
    refine ⟨?_, ?_⟩
    · rintro u w' ⟨rfl, rfl⟩
      have := h1 _ _ hx
      simpa [he, Device.Has, BufWriter.Has] using this
    · rintro e w' ⟨rfl, rfl⟩
      obtain ⟨k, this⟩ := h2 _ _ hx
      exact ⟨k, by simpa [he, Device.Has, BufWriter.Has] using this⟩
  · rename_i hc
    refine ⟨fun u w' h => ?_, fun e w' h => by simp at h⟩
    simp only [Prod.mk.injEq] at h
    obtain ⟨_, rfl⟩ := h
    exact ⟨by simp, by simpa using hl (by omega)⟩

theorem BufWriter.store_quiet (w : BufWriter) (bs : List Byte) (hq : w.inner.Quiet) :
    ∃ w', w.store bs = (.ok (), w') ∧ w'.inner.Quiet := by
  unfold BufWriter.store
  split
  · obtain ⟨d, e, _, hq'⟩ := Device.reliable w.inner w.inner.out bs ⟨rfl, hq⟩
    simp only [Device.impl] at e
    rw [e]
    exact ⟨_, rfl, hq'⟩
  · exact ⟨_, rfl, hq⟩

theorem BufWriter.honest : HonestSink BufWriter.impl BufWriter.Has := by
  intro w out bs h
  obtain ⟨rfl, hw⟩ := h
  show (∀ u s', w.writeAll bs = (.ok u, s') → _) ∧ (∀ e s', w.writeAll bs = (.error e, s') → _)
  unfold BufWriter.writeAll
  split
  · refine ⟨fun u w' h => ?_, fun e w' h => by simp at h⟩
    simp only [Prod.mk.injEq] at h
    obtain ⟨_, rfl⟩ := h
    exact ⟨by simp, by simp; omega⟩
  · split
    · obtain ⟨f1, f2, f3, f4⟩ := w.flush_law
      rcases hx : w.flush with ⟨x, w1⟩
      rw [hx] at f1 f2 f3 f4
      cases x with
      | ok u =>
        have hs := w1.store_law bs (fun _ => f4 u rfl) (fun hl => by rw [f4 u rfl]; simp; omega)
        simp only at f1 f2 f3 ⊢
        rw [f1] at hs
        exact hs
      | error e =>
        refine ⟨fun u w' h => by simp at h, fun e w' h => ?_⟩
        simp only [Prod.mk.injEq] at h
        obtain ⟨_, rfl⟩ := h
        exact ⟨0, by simpa using f1, by simp only at f2 f3; omega⟩
    · exact w.store_law bs (fun hc => List.length_eq_zero_iff.1 (by omega)) (fun hl => by omega)

theorem BufWriter.reliable : ReliableSink BufWriter.impl (fun w out => w.Has out ∧ w.inner.Quiet) := by
  intro w out bs h
  have key : ∃ w', w.writeAll bs = (.ok (), w') ∧ w'.inner.Quiet := by
    unfold BufWriter.writeAll
    split
    · exact ⟨_, rfl, h.2⟩
    · split
      · obtain ⟨w1, e, hq⟩ := w.flush_quiet h.2
        rw [e]
        exact w1.store_quiet bs hq
      · exact w.store_quiet bs h.2
  obtain ⟨w', e, hq⟩ := key
  exact ⟨w', e, (BufWriter.honest w out bs h.1).1 _ _ e, hq⟩

/-! ### Running the same program on two sinks -/

theorem splice_end (d bs : List Byte) : Sink.splice d d.length bs = d ++ bs := by
  simp [Sink.splice]

theorem Talk.run_reliable_sink {α S : Type} {impl : Impl WriteCall WriteAnswer S} {R : S → List Byte → Prop}
    (hr : ReliableSink impl R) : ∀ (t : Talk WriteCall WriteAnswer α) (s : S) (c : Sink), c.pos = c.data.length →
    c.cap = none → c.faults = noFaults → R s c.data →
    (t.run impl s).1 = (t.run Sink.impl c).1 ∧ R (t.run impl s).2 (t.run Sink.impl c).2.data
  | .done a, s, c, _, _, _, h => ⟨rfl, h⟩
  | .call bs k, s, c, hp, hc, hf, h => by
    obtain ⟨s', e, h'⟩ := hr s c.data bs h
    have e' : Sink.impl c bs = (.ok (), { c with calls := c.calls + 1, data := c.data ++ bs, pos := c.pos + bs.length }) := by
      simp [Sink.impl, Sink.writeAll, hf, noFaults, hc, hp, splice_end]
    simp only [Talk.run]
    rw [e, e']
    exact Talk.run_reliable_sink hr (k _) s' _ (by simp [hp]) hc hf h'

theorem Talk.run_honest_sink {α S : Type} {impl : Impl WriteCall WriteAnswer S} {R : S → List Byte → Prop}
    (hr : HonestSink impl R) : ∀ (t : Talk WriteCall WriteAnswer α) (s : S) (out : List Byte), R s out →
    ∃ F : Nat → Option (Nat × IoKind), ∀ c : Sink, c.data = out → c.pos = out.length → c.cap = none →
      (∀ i, c.faults (c.calls + i) = F i) →
      (t.run impl s).1 = (t.run Sink.impl c).1 ∧ R (t.run impl s).2 (t.run Sink.impl c).2.data
  | .done a, s, out, h => ⟨fun _ => none, fun c hd _ _ _ => ⟨rfl, by rw [← hd] at h; exact h⟩⟩
  | .call bs k, s, out, h => by
    have hr' := hr s out bs h
    simp only [Talk.run]
    rcases hx : impl s bs with ⟨x, s'⟩
    rw [hx] at hr'
    cases x with
    | ok u =>
      have h' := hr'.1 u s' rfl
      obtain ⟨F, hF⟩ := Talk.run_honest_sink hr (k (.ok u)) s' _ h'
      refine ⟨nextFault none F, fun c hd hp hc hf => ?_⟩
      have e' : Sink.impl c bs = (.ok u, { c with calls := c.calls + 1, data := c.data ++ bs, pos := c.pos + bs.length }) := by
        have := hf 0
        simp only [Nat.add_zero, nextFault] at this
        simp [Sink.impl, Sink.writeAll, this, hc, hp, hd, splice_end]
      rw [e']
      refine hF _ (by simp [hd]) (by simp [hp]) hc fun i => ?_
      have := hf (i + 1)
      simpa [nextFault, Nat.add_assoc, Nat.add_comm 1] using this
    | error e =>
      obtain ⟨m, h'⟩ := hr'.2 e s' rfl
      obtain ⟨F, hF⟩ := Talk.run_honest_sink hr (k (.error e)) s' _ h'
      refine ⟨nextFault (some (m, e)) F, fun c hd hp hc hf => ?_⟩
      have hm : bs.take (min m bs.length) = bs.take m := by
        rcases Nat.le_total m bs.length with hm | hm
        · rw [Nat.min_eq_left hm]
        · rw [Nat.min_eq_right hm, List.take_of_length_le hm, List.take_of_length_le (Nat.le_refl _)]
      have e' : Sink.impl c bs = (.error e, { c with calls := c.calls + 1, data := c.data ++ bs.take m, pos := c.pos + (bs.take m).length }) := by
        have := hf 0
        simp only [Nat.add_zero, nextFault] at this
        simp only [Sink.impl, Sink.writeAll, this, hc, hm]
        rw [hp, hd, splice_end]
      rw [e']
      refine hF _ (by simp [hd]) (by simp [hp]) hc fun i => ?_
      have := hf (i + 1)
      simpa [nextFault, Nat.add_assoc, Nat.add_comm 1] using this

end Deku
