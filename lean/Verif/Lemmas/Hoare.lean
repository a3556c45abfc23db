import Verif.Lemmas.FitsSound

/-! # What successful reads of collections consist of -/

namespace Deku

open Reader Writer Coll

variable {α β σ : Type}

/-- Started in a state satisfying `I`, a success leads to a state satisfying `I` and a result
satisfying `R`. -/
def Keeps {τ : Type} (I : τ → Prop) (R : α → Prop) (f : M τ α) : Prop :=
  ∀ r a r', I r → f r = (.ok a, r') → I r' ∧ R a

theorem Keeps.bind {τ : Type} {I : τ → Prop} {R : α → Prop} {S : β → Prop} {f : M τ α}
    {g : α → M τ β} (hf : Keeps I R f) (hg : ∀ a, R a → Keeps I S (g a)) : Keeps I S (f >>= g) := by
  intro r b r' hr h
  obtain ⟨a, r1, e1, e2⟩ := M.bind_eq_ok h
  obtain ⟨h1, h2⟩ := hf r a r1 hr e1
  exact hg a h2 r1 b r' h1 e2

theorem Keeps.pure {τ : Type} {I : τ → Prop} {R : α → Prop} {a : α} (h : R a) :
    Keeps I R (Pure.pure a : M τ α) := by
  intro r b r' hr he
  simp at he
  obtain ⟨rfl, rfl⟩ := he
  exact ⟨hr, h⟩

theorem Keeps.throw {τ : Type} {I : τ → Prop} {R : α → Prop} {e : DekuError} :
    Keeps I R (M.throw e : M τ α) := by
  intro r b r' hr he
  simp at he

theorem Keeps.panic {τ : Type} {I : τ → Prop} {R : α → Prop} : Keeps I R (M.panic : M τ α) := by
  intro r b r' hr he
  simp [M.panic] at he

theorem Keeps.mono {τ : Type} {I : τ → Prop} {R S : α → Prop} {f : M τ α} (h : Keeps I R f)
    (hs : ∀ a, R a → S a) : Keeps I S f := by
  intro r a r' hr he
  obtain ⟨h1, h2⟩ := h r a r' hr he
  exact ⟨h1, hs a h2⟩

theorem Keeps.get {τ : Type} {I : τ → Prop} : Keeps I (fun r => I r) (M.get : M τ τ) := by
  intro r a r' hr he
  simp [M.get] at he
  obtain ⟨rfl, rfl⟩ := he
  exact ⟨hr, hr⟩

theorem Keeps.assert {τ : Type} {I : τ → Prop} {b : Bool} :
    Keeps I (fun _ => b = true) (M.assert b : M τ Unit) := by
  intro r a r' hr he
  cases b
  · simp [M.assert, M.panic] at he
  · simp only [M.assert, if_true] at he
    have : r = r' := congrArg Prod.snd he
    exact ⟨this ▸ hr, rfl⟩

theorem arrayRead_keeps {I : Reader → Prop} {R : α → Prop} {f : M Reader α} (hf : Keeps I R f)
    (n : Nat) : Keeps I (fun vs => vs.length = n ∧ ∀ x ∈ vs, R x) (arrayRead f n) := by
  induction n with
  | zero => exact Keeps.pure ⟨rfl, by simp⟩
  | succ n ih =>
    refine hf.bind fun a ha => ih.bind fun vs hvs => Keeps.pure ⟨by simp [hvs.1], ?_⟩
    simpa using ⟨ha, hvs.2⟩

theorem vecLoop_keeps {I : Reader → Prop} {R : α → Prop} {f : M Reader α} (hf : Keeps I R f)
    (pred : Nat → α → σ → Bool × σ) (start mem : Nat) (s : σ) :
    Keeps I (fun vs => ∀ x ∈ vs, R x) (vecLoop f pred start mem s) := by
  induction mem generalizing s with
  | zero => exact hf.bind fun _ _ => Keeps.panic
  | succ mem ih =>
    refine hf.bind fun v hv => Keeps.get.bind fun r _ => Keeps.assert.bind fun _ _ => ?_
    split
    · exact Keeps.pure (by simpa using hv)
    · exact (ih _).bind fun vs hvs => Keeps.pure (by simpa using ⟨hv, hvs⟩)

theorem vecWithPredicate_keeps {I : Reader → Prop} {R : α → Prop} {f : M Reader α} (hf : Keeps I R f)
    (mem size : Nat) (c : Option Nat) (pred : Nat → α → σ → Bool × σ) (s : σ) :
    Keeps I (fun vs => ∀ x ∈ vs, R x) (vecWithPredicate mem size c f pred s) := by
  unfold vecWithPredicate
  split
  · exact Keeps.pure (by simp)
  · have hc : Keeps I (fun _ => True) (withCapacity mem c) := by
      cases c
      · exact Keeps.pure trivial
      · exact Keeps.assert.mono fun _ _ => trivial
    exact hc.bind fun _ _ => Keeps.get.bind fun _ _ => vecLoop_keeps hf _ _ _ _

theorem vecEndLoop_keeps {I : Reader → Prop} {R : α → Prop} {f : M Reader α} (hf : Keeps I R f)
    (he : Keeps I (fun _ => True) Reader.end) (mem : Nat) :
    Keeps I (fun vs => ∀ x ∈ vs, R x) (vecEndLoop f mem) := by
  induction mem with
  | zero =>
    refine he.bind fun b _ => ?_
    split
    · exact Keeps.pure (by simp)
    · exact hf.bind fun _ _ => Keeps.panic
  | succ mem ih =>
    refine he.bind fun b _ => ?_
    split
    · exact Keeps.pure (by simp)
    · exact hf.bind fun v hv => ih.bind fun vs hvs => Keeps.pure (by simpa using ⟨hv, hvs⟩)

theorem vecRead_keeps {I : Reader → Prop} {R : α → Prop} {f : M Reader α} (hf : Keeps I R f)
    (he : Keeps I (fun _ => True) Reader.end) (mem size : Nat) (l : Limit α σ) :
    Keeps I (fun vs => ∀ x ∈ vs, R x) (vecRead mem size f l) := by
  cases l with
  | count n =>
    simp only [vecRead]
    split
    · exact Keeps.pure (by simp)
    · exact vecWithPredicate_keeps hf _ _ _ _ _
  | «until» p s => exact vecWithPredicate_keeps hf _ _ _ _ _
  | bits n =>
    simp only [vecRead]
    split
    · exact Keeps.pure (by simp)
    · exact vecWithPredicate_keeps hf _ _ _ _ _
  | bytes n =>
    simp only [vecRead]
    have hu : Keeps I (fun _ => True) (usize (n * 8)) := by
      unfold usize
      split
      · exact Keeps.pure trivial
      · exact Keeps.panic
    refine hu.bind fun k _ => ?_
    split
    · exact Keeps.pure (by simp)
    · exact vecWithPredicate_keeps hf _ _ _ _ _
  | «end» =>
    simp only [vecRead, vecToEnd]
    split
    · exact Keeps.pure (by simp)
    · exact vecEndLoop_keeps hf he mem

theorem writeAll_keeps {I : Writer → Prop} {R : α → Prop} {g : α → M Writer Unit}
    (hg : ∀ x, Keeps I (fun _ => R x) (g x)) (vs : List α) :
    Keeps I (fun _ => ∀ x ∈ vs, R x) (Coll.writeAll g vs) := by
  induction vs with
  | nil => exact Keeps.pure (by simp)
  | cons v vs ih => exact (hg v).bind fun _ h => ih.mono fun _ h' => by simpa using ⟨h, h'⟩

end Deku
