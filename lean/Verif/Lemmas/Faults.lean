import Verif.Spec.Faults
import Verif.Lemmas.Monad

/-! # Lemmas: which calls report source errors -/

namespace Deku

namespace Reports

variable {α β : Type} {r : Reader}

/-- A computation that makes no call on the source. -/
theorem silent {f : M Reader α} (h : (f r).2.inner = r.inner) : Reports r f :=
  ⟨by rw [h], by rw [h]; exact Nat.le_refl _, fun i _ _ h1 h2 => by rw [h] at h2; omega⟩

theorem pure (a : α) : Reports r (Pure.pure a : M Reader α) := silent rfl
theorem throw (e : DekuError) : Reports r (M.throw e : M Reader α) := silent rfl

theorem bind {f : M Reader α} {g : α → M Reader β} (hf : Reports r f)
    (hg : ∀ a r', f r = (.ok a, r') → Reports r' (g a)) : Reports r (f >>= g) := by
  rcases h : f r with ⟨x, r'⟩
  have h1 := hf.faults
  have h2 := hf.calls
  have h3 := hf.reported
  rw [h] at h1 h2 h3
  cases x with
  | err e =>
    refine ⟨?_, ?_, ?_⟩
    · rw [M.bind_err h]; exact h1
    · rw [M.bind_err h]; exact h2
    · rw [M.bind_err h]
      intro i k e' a b c d
      have := h3 i k e' a b c d
      simpa using this
  | panic =>
    refine ⟨?_, ?_, ?_⟩
    · rw [M.bind_panic h]; exact h1
    · rw [M.bind_panic h]; exact h2
    · rw [M.bind_panic h]
      intro i k e' a b c d
      have := h3 i k e' a b c d
      simp at this
  | ok a =>
    have hga := hg a r' h
    refine ⟨?_, ?_, ?_⟩
    · rw [M.bind_ok h, hga.faults]; exact h1
    · rw [M.bind_ok h]; exact Nat.le_trans h2 hga.calls
    · rw [M.bind_ok h]
      intro i k e' ha hb hc hd
      by_cases hi : i < r'.inner.calls
      · have := h3 i k e' ha hi hc hd
        simp at this
      · exact hga.reported i k e' (by omega) hb (by rw [h1]; exact hc) hd

/-- The state is looked at and modified without calls in front of the rest. -/
theorem of_eq {f g : M Reader α} {r' : Reader} (h : f r = g r') (hi : r'.inner = r.inner)
    (hg : Reports r' g) : Reports r f := by
  have h1 := hg.faults
  have h2 := hg.calls
  have h3 := hg.reported
  rw [hi] at h1 h2 h3
  exact ⟨by rw [h]; exact h1, by rw [h]; exact h2, by rw [h]; exact h3⟩

end Reports

namespace Reader

/-- What one call on the source does to the schedule and the call counter. -/
theorem ioRead_calls (n : Nat) (r : Reader) :
    ∃ x r', ioRead n r = (.ok x, r') ∧ r'.inner.faults = r.inner.faults ∧
      r'.inner.calls = r.inner.calls + 1 ∧
      (∀ k e, r.inner.faults r.inner.calls = some (k, e) → x = .error e) := by
  simp only [ioRead, Src.readExact]
  rcases hf : r.inner.faults r.inner.calls with _ | ⟨k, e⟩
  · by_cases h : n ≤ r.inner.data.length - r.inner.pos
    · simp only [if_pos h]; exact ⟨_, _, rfl, rfl, rfl, by simp⟩
    · simp only [if_neg h]; exact ⟨_, _, rfl, rfl, rfl, by simp⟩
  · exact ⟨_, _, rfl, rfl, rfl, by simp⟩

/-- A read of the source whose error is matched on: if every error other than end-of-file is thrown,
errors are reported. -/
theorem ioRead_reports {α : Type} (n : Nat) (r : Reader) (g : Except IoKind (List Byte) → M Reader α)
    (hg : ∀ e, e ≠ .unexpectedEof → g (.error e) = M.throw (.io e))
    (hok : ∀ x r', Reports r' (g x)) : Reports r (ioRead n >>= g) := by
  obtain ⟨x, r', h, h1, h2, h3⟩ := ioRead_calls n r
  have hx := hok x r'
  refine ⟨?_, ?_, ?_⟩
  · rw [M.bind_ok h, hx.faults, h1]
  · rw [M.bind_ok h]; have := hx.calls; omega
  · rw [M.bind_ok h]
    intro i k e ha hb hc hd
    by_cases hi : i = r.inner.calls
    · subst hi
      rw [h3 k e hc, hg e hd]; rfl
    · exact hx.reported i k e (by omega) hb (by rw [h1]; exact hc) hd

theorem uintLoop_reports (amt fuel acc hv : Nat) (r : Reader) :
    Reports r (uintLoop amt fuel acc hv) := by
  induction fuel generalizing acc hv r with
  | zero => exact Reports.pure _
  | succ fuel ih =>
    rw [uintLoop]
    by_cases h : hv < amt
    · rw [if_pos h]
      refine ioRead_reports 1 r _ ?_ ?_
      · intro e he
        cases e <;> first | rfl | exact absurd rfl he
      · intro x r'
        rcases x with e | bs
        · cases e <;> exact Reports.throw _
        · exact ih _ _ r'
    · rw [if_neg h]; exact Reports.pure _

theorem uint_reports (amt : Nat) (r : Reader) : Reports r (readBitsUintMsb0 amt) := by
  rw [readBitsUintMsb0]
  rcases hc : (decide (1 ≤ amt) && decide (amt ≤ 64)) with _ | _
  · exact Reports.silent (by simp)
  · refine Reports.of_eq (r' := { r with leftover := none })
      (g := uintLoop amt amt (ofBits (leftoverBits r.leftover)) (leftoverBits r.leftover).length >>= _)
      rfl rfl ?_
    refine Reports.bind (uintLoop_reports _ _ _ _ _) ?_
    rintro ⟨acc, hv⟩ r' _
    apply Reports.silent
    simp only []
    by_cases hz : hv - amt = 0 <;> simp [hz]

theorem readPartial_reports (d : Nat) (r : Reader) : Reports r (readPartial d) := by
  rw [readPartial]
  refine ioRead_reports 1 r _ ?_ ?_
  · intro e he
    cases e <;> first | rfl | exact absurd rfl he
  · intro x r'
    rcases x with e | bs
    · cases e <;> exact Reports.throw _
    · exact Reports.pure _

/-- A bit read that does not go through the whole-byte loop. -/
theorem readBitsInto_reports (n : Nat) (o : Order) (r : Reader) (h : n < r.rest.length + 8) :
    Reports r (readBitsInto n o) := by
  rw [readBitsInto]
  by_cases hn : n = 0
  · rw [if_pos hn]; exact Reports.pure _
  rw [if_neg hn]
  generalize hlo : leftoverBits r.leftover = lo
  have hr : r.rest = lo := hlo
  rw [hr] at h
  by_cases h1 : n < lo.length
  · apply Reports.silent
    cases o <;> simp [hlo, h1]
  by_cases h2 : n = lo.length
  · apply Reports.silent
    subst h2
    simp [hlo]
  have hq : (n - lo.length) / 8 = 0 := by omega
  have hm : (n - lo.length) % 8 ≠ 0 := by omega
  cases o
  · refine Reports.of_eq (r' := { r with leftover := none }) (g := readPartial n >>= _) (by
      simp only [M.get_bind_run, M.modify_bind_run, hlo, h1, h2, if_false, hq, readSlots,
        M.pure_bind_run, hm]; rfl) rfl ?_
    exact Reports.bind (readPartial_reports _ _) (fun a r' _ => Reports.silent rfl)
  · refine Reports.of_eq (r' := { r with leftover := none }) (g := readPartial n >>= _) (by
      simp only [M.get_bind_run, M.modify_bind_run, hlo, h1, h2, if_false, hq, readSlots,
        M.pure_bind_run, hm]; rfl) rfl ?_
    exact Reports.bind (readPartial_reports _ _) (fun a r' _ => Reports.silent rfl)

theorem readBytes_reports (n : Nat) (o : Order) (r : Reader)
    (h : ∀ l, r.leftover = some (.bits l) → 8 * n < l.length + 8) :
    Reports r (readBytes n o) := by
  rw [readBytes]
  rcases hl : r.leftover with _ | (b | l)
  · refine Reports.of_eq (r' := r) (g := ioRead n >>= _) (by simp only [M.get_bind_run, hl]; rfl) rfl ?_
    refine ioRead_reports n r _ ?_ ?_
    · intro e he
      cases e <;> first | rfl | exact absurd rfl he
    · intro x r'
      rcases x with e | bs
      · cases e <;> exact Reports.throw _
      · exact Reports.silent rfl
  · refine Reports.of_eq (r' := r) (g := readBytesLeftover b n) (by simp only [M.get_bind_run, hl]) rfl ?_
    rw [readBytesLeftover]
    by_cases hn : n = 0
    · rw [if_pos hn]; exact Reports.silent rfl
    rw [if_neg hn]
    by_cases h1 : n - 1 = 0
    · simp only [h1, if_true]; exact Reports.silent rfl
    · simp only [h1, if_false]
      refine Reports.of_eq (r' := { r with leftover := none }) (g := ioRead (n - 1) >>= _)
        (by rw [M.modify_bind_run]) rfl ?_
      refine ioRead_reports _ _ _ ?_ ?_
      · intro e he
        cases e <;> first | rfl | exact absurd rfl he
      · intro x r'
        rcases x with e | bs
        · cases e <;> exact Reports.throw _
        · exact Reports.silent rfl
  · refine Reports.of_eq (r' := r) (g := readBitsInto (n * 8) o >>= _)
      (by simp only [M.get_bind_run, hl]; rfl) rfl ?_
    refine Reports.bind (readBitsInto_reports _ _ _ ?_) ?_
    · have := h l hl
      simp [Reader.rest, hl, leftoverBits]; omega
    · intro a r' _; cases o <;> exact Reports.pure _

end Reader

end Deku
