import Verif.Lemmas.AppendSource
import Verif.Lemmas.CoreStream
import Verif.Lemmas.CoreSafe
import Verif.Spec.Wire

/-! # Lemmas: values of definitions to which fields have been added, and definitions that do not seek -/

namespace Deku

variable {Q : Fields → Prop}

mutual

theorem Edit.has_cut : ∀ (e : Edit) (old new : STy), e.MakesS old new → ∀ u, new.has u = true →
    e.Shaped u ∧ old.has (e.cut u) = true
  | .same, old, new, h, u, hu => by
    rw [Edit.MakesS] at h
    subst h
    rw [Edit.cut, Edit.Shaped]
    exact ⟨trivial, hu⟩
  | .option e, old, new, h, u, hu => by
    rw [Edit.MakesS] at h
    obtain ⟨t, t', rfl, rfl, h⟩ := h
    cases u with
    | some x =>
      rw [STy.has] at hu
      simp only [Edit.cut, Edit.Shaped, STy.has]
      exact e.has_cut t t' h x hu
    | none => simp only [Edit.cut, Edit.Shaped, STy.has]; exact ⟨trivial, trivial⟩
    | num _ => simp [STy.has] at hu
    | nil => simp [STy.has] at hu
    | cons _ _ => simp [STy.has] at hu
    | variant _ _ => simp [STy.has] at hu
  | .pair e, old, new, h, u, hu => by
    rw [Edit.MakesS] at h
    obtain ⟨a, b, b', rfl, rfl, h⟩ := h
    rw [STy.has.eq_def] at hu
    dsimp only at hu
    split at hu
    · rename_i x y
      rw [Bool.and_eq_true] at hu
      have := e.has_cut b b' h y hu.2
      simp only [Edit.cut, Edit.Shaped, STy.has, Bool.and_eq_true]
      exact ⟨⟨trivial, this.1⟩, hu.1, this.2⟩
    · cases hu
  | .struct e, old, new, h, u, hu => by
    rw [Edit.MakesS] at h
    obtain ⟨c, fs, fs', rfl, rfl, h, hr⟩ := h
    rw [STy.has] at hu
    rw [Edit.cut, Edit.Shaped, STy.has]
    exact e.has_cut e.kept (fun t ht => t.eval_cut e ht u) fs fs' h hr u hu
  | .enum e, old, new, h, u, hu => by
    rw [Edit.MakesS] at h
    obtain ⟨c, id, vs, vs', rfl, rfl, h⟩ := h
    cases u with
    | variant i fs =>
      rw [STy.has] at hu
      simp only [Edit.cut, Edit.Shaped, STy.has]
      exact e.has_cut vs vs' h i fs hu
    | none => simp [STy.has] at hu
    | some _ => simp [STy.has] at hu
    | num _ => simp [STy.has] at hu
    | nil => simp [STy.has] at hu
    | cons _ _ => simp [STy.has] at hu

theorem FEdit.has_cut : ∀ (e : FEdit) (k : Nat) {all all' : Val}, (∀ t : Temp, t.field < k → t.eval all = t.eval all') →
    ∀ (old new : SFields), e.MakesS old new → e.refers k old = true → ∀ u, new.has all' u = true →
    e.Shaped u ∧ old.has all (e.cut u) = true
  | .same, k, all, all', hk, old, new, h, hr, u, hu => by
    rw [FEdit.MakesS] at h
    subst h
    cases new with
    | nil => rw [FEdit.cut, FEdit.Shaped]; exact ⟨trivial, by rw [SFields.has] at hu ⊢; exact hu⟩
    | cons a t rest => simp [FEdit.refers] at hr
  | .more, k, all, all', hk, old, new, h, hr, u, hu => by
    rw [FEdit.MakesS] at h
    subst h
    rw [FEdit.cut, FEdit.Shaped, SFields.has]
    exact ⟨trivial, decide_eq_true rfl⟩
  | .field e, k, all, all', hk, old, new, h, hr, u, hu => by
    rw [FEdit.MakesS] at h
    obtain ⟨a, t, rest, rest', rfl, rfl, ht, h⟩ := h
    rw [FEdit.refers] at hr
    simp only [SFields.has, ht] at hu
    cases u with
    | cons x xs =>
      simp only [Bool.and_eq_true] at hu
      have := e.has_cut k hk rest rest' h hr xs hu.2
      simp only [FEdit.cut, FEdit.Shaped, SFields.has, ht, Bool.and_eq_true]
      exact ⟨this.1, hu.1, this.2⟩
    | nil => cases hu
    | none => cases hu
    | some _ => cases hu
    | num _ => cases hu
    | variant _ _ => cases hu
  | .temp e, k, all, all', hk, old, new, h, hr, u, hu => by
    rw [FEdit.MakesS] at h
    obtain ⟨a, t, rest, rest', rfl, rfl, ht, h⟩ := h
    rw [FEdit.refers] at hr
    obtain ⟨f, hf⟩ := Option.isSome_iff_exists.1 ht
    simp only [SFields.has, hf, Bool.and_eq_true] at hu
    simp only [hf, Bool.and_eq_true, decide_eq_true_eq] at hr
    have := e.has_cut k hk rest rest' h hr.2 u hu.2
    simp only [FEdit.cut, FEdit.Shaped, SFields.has, hf, Bool.and_eq_true]
    rw [hk f hr.1]
    exact ⟨this.1, hu.1, this.2⟩
  | .last e, k, all, all', hk, old, new, h, hr, u, hu => by
    rw [FEdit.MakesS] at h
    obtain ⟨a, t, t', rfl, rfl, ha, h⟩ := h
    have ht : a.temp = none := by simp [SAttrs.bare] at ha; exact ha.2
    simp only [SFields.has, ht] at hu
    cases u with
    | cons x xs =>
      simp only [Bool.and_eq_true, decide_eq_true_eq] at hu
      have := e.has_cut t t' h x hu.1
      simp only [FEdit.cut, FEdit.Shaped, SFields.has, ht, Bool.and_eq_true, decide_eq_true_eq]
      exact ⟨⟨hu.2, this.1⟩, this.2, hu.2⟩
    | nil => cases hu
    | none => cases hu
    | some _ => cases hu
    | num _ => cases hu
    | variant _ _ => cases hu

theorem VEdit.has_cut : ∀ (e : VEdit) (old new : SVariants), e.MakesS old new → ∀ i u, new.hasAt i u = true →
    e.Shaped i u ∧ old.hasAt i (e.cut i u) = true
  | .nil, old, new, h, i, u, hu => by
    rw [VEdit.MakesS] at h
    obtain ⟨rfl, rfl⟩ := h
    rw [SVariants.hasAt] at hu
    cases hu
  | .cons e es, old, new, h, 0, u, hu => by
    rw [VEdit.MakesS] at h
    obtain ⟨a, fs, fs', vs, vs', rfl, rfl, h, hr, _, _⟩ := h
    rw [SVariants.hasAt] at hu
    rw [VEdit.cut, VEdit.Shaped, SVariants.hasAt]
    rcases hr with rfl | hr
    · rw [FEdit.MakesS] at h
      subst h
      rw [FEdit.cut, FEdit.Shaped]
      exact ⟨trivial, hu⟩
    · exact e.has_cut e.kept (fun t ht => t.eval_cut e ht u) fs fs' h hr u hu
  | .cons e es, old, new, h, i + 1, u, hu => by
    rw [VEdit.MakesS] at h
    obtain ⟨a, fs, fs', vs, vs', rfl, rfl, _, _, _, h⟩ := h
    rw [SVariants.hasAt] at hu
    rw [VEdit.cut, VEdit.Shaped, SVariants.hasAt]
    exact es.has_cut vs vs' h i u hu

end

/-! ### no seeks -/

mutual

theorem Edit.makes_runs : ∀ (e : Edit) (old new : Ty), e.Makes Q old new → new.Runs →
    old.Runs ∧ e.Makes (fun fs => Q fs ∧ fs.Runs) old new
  | .same, old, new, h, hn => by
    rw [Edit.Makes] at h ⊢
    subst h
    exact ⟨hn, rfl⟩
  | .option e, old, new, h, hn => by
    rw [Edit.Makes] at h ⊢
    obtain ⟨t, t', rfl, rfl, h⟩ := h
    rw [Ty.Runs] at hn ⊢
    obtain ⟨h1, h2⟩ := e.makes_runs t t' h hn
    exact ⟨h1, t, t', rfl, rfl, h2⟩
  | .pair e, old, new, h, hn => by
    rw [Edit.Makes] at h ⊢
    obtain ⟨a, b, b', rfl, rfl, h⟩ := h
    rw [Ty.Runs] at hn ⊢
    obtain ⟨h1, h2⟩ := e.makes_runs b b' h hn.2
    exact ⟨⟨hn.1, h1⟩, a, b, b', rfl, rfl, h2⟩
  | .struct e, old, new, h, hn => by
    rw [Edit.Makes] at h ⊢
    obtain ⟨args, seek, magic, fs, fs', rfl, rfl, h⟩ := h
    rw [Ty.Runs] at hn ⊢
    obtain ⟨h1, h2⟩ := e.makes_runs fs fs' h hn.2
    exact ⟨⟨hn.1, h1⟩, args, seek, magic, fs, fs', rfl, rfl, h2⟩
  | .enum e, old, new, h, hn => by
    rw [Edit.Makes] at h ⊢
    obtain ⟨args, magic, id, store, vs, vs', rfl, rfl, h⟩ := h
    rw [Ty.Runs.eq_def] at hn ⊢
    obtain ⟨h1, h2⟩ := e.makes_runs vs vs' h hn.2
    exact ⟨⟨hn.1, h1⟩, args, magic, id, store, vs, vs', rfl, rfl, h2⟩

theorem FEdit.makes_runs : ∀ (e : FEdit) (old new : Fields), e.Makes Q old new → new.Runs →
    old.Runs ∧ e.Makes (fun fs => Q fs ∧ fs.Runs) old new
  | .same, old, new, h, hn => by
    rw [FEdit.Makes] at h ⊢
    subst h
    exact ⟨hn, rfl⟩
  | .more, old, new, h, hn => by
    rw [FEdit.Makes] at h ⊢
    obtain ⟨rfl, h⟩ := h
    exact ⟨by rw [Fields.Runs]; trivial, rfl, h, hn⟩
  | .field e, old, new, h, hn => by
    rw [FEdit.Makes] at h ⊢
    obtain ⟨a, t, rest, rest', rfl, rfl, h⟩ := h
    rw [Fields.Runs] at hn ⊢
    obtain ⟨h1, h2⟩ := e.makes_runs rest rest' h hn.2.2
    exact ⟨⟨hn.1, hn.2.1, h1⟩, a, t, rest, rest', rfl, rfl, h2⟩
  | .temp e, old, new, h, hn => by
    rw [FEdit.Makes] at h ⊢
    obtain ⟨a, t, value, rest, rest', rfl, rfl, h⟩ := h
    rw [Fields.Runs] at hn ⊢
    obtain ⟨h1, h2⟩ := e.makes_runs rest rest' h hn.2.2
    exact ⟨⟨hn.1, hn.2.1, h1⟩, a, t, value, rest, rest', rfl, rfl, h2⟩
  | .last e, old, new, h, hn => by
    rw [FEdit.Makes] at h ⊢
    obtain ⟨a, t, t', rfl, rfl, ha, h⟩ := h
    rw [Fields.Runs] at hn ⊢
    obtain ⟨h1, h2⟩ := e.makes_runs t t' h hn.2.1
    exact ⟨⟨hn.1, h1, hn.2.2⟩, a, t, t', rfl, rfl, ha, h2⟩

theorem VEdit.makes_runs : ∀ (e : VEdit) (old new : Variants), e.Makes Q old new → new.Runs →
    old.Runs ∧ e.Makes (fun fs => Q fs ∧ fs.Runs) old new
  | .nil, old, new, h, hn => by
    rw [VEdit.Makes] at h ⊢
    obtain ⟨rfl, rfl⟩ := h
    exact ⟨hn, rfl, rfl⟩
  | .cons e es, old, new, h, hn => by
    rw [VEdit.Makes] at h ⊢
    obtain ⟨a, fs, fs', vs, vs', rfl, rfl, h, ha, hs⟩ := h
    rw [Variants.Runs] at hn ⊢
    obtain ⟨h1, h2⟩ := e.makes_runs fs fs' h hn.1
    obtain ⟨h3, h4⟩ := es.makes_runs vs vs' hs hn.2
    exact ⟨⟨h1, h3⟩, a, fs, fs', vs, vs', rfl, rfl, h2, ha, h4⟩

end

end Deku
