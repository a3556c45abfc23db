import Verif.Spec.Sequence
import Verif.Lemmas.Laws

/-! # Collections -/

namespace Deku

open Reader Writer Coll

variable {α β σ : Type} {o : Order} {p : Nat} {I : Reader → Prop}

/-! ### traces -/

theorem Trace.readN {f : M Reader α} {r r' : Reader} {t : List (α × Nat)} (h : Trace f r t r') :
    readN f t.length r = (.ok (t.map Prod.fst), r') := by
  induction h with
  | nil => rfl
  | cons h _ ih =>
    simp only [List.length_cons, Deku.readN]
    rw [M.bind_ok h, M.bind_ok ih]
    rfl

theorem Trace.of_readN {f : M Reader α} {n : Nat} {r r' : Reader} {vs : List α}
    (h : Deku.readN f n r = (.ok vs, r')) :
    vs.length = n ∧ ∃ t, Trace f r t r' ∧ t.map Prod.fst = vs := by
  induction n generalizing r vs with
  | zero =>
    simp [Deku.readN] at h
    obtain ⟨rfl, rfl⟩ := h
    exact ⟨rfl, [], .nil _, rfl⟩
  | succ n ih =>
    simp only [Deku.readN] at h
    obtain ⟨a, r1, h1, h⟩ := M.bind_eq_ok h
    obtain ⟨as, r2, h2, h⟩ := M.bind_eq_ok h
    simp at h
    obtain ⟨rfl, rfl⟩ := h
    obtain ⟨hl, t, ht, hm⟩ := ih h2
    exact ⟨by simp [hl], _, .cons h1 ht, by simp [hm]⟩

theorem Trace.forward {f : M Reader α} (hf : Forward I f) {r r' : Reader} {t : List (α × Nat)}
    (h : Trace f r t r') (hr : I r) :
    (r.bitsRead ≤ r'.bitsRead ∧ ∀ x ∈ t, r.bitsRead ≤ x.2) ∧ I r' := by
  induction h with
  | nil => exact ⟨⟨Nat.le_refl _, by simp⟩, hr⟩
  | cons h _ ih =>
    obtain ⟨hi, this⟩ := hf _ _ _ hr h
    have ih := ih hi
    refine ⟨⟨by omega, ?_⟩, ih.2⟩
    intro x hx
    rcases List.mem_cons.1 hx with rfl | hx
    · exact this
    · have := ih.1.2 x hx; omega

/-- Where the loop stops: the predicate is asked with the number of bits consumed since the start. -/
def StopsAt (pred : Nat → α → σ → Bool × σ) (start : Nat) : σ → List (α × Nat) → Prop
  | _, [] => False
  | s, [(v, b)] => start ≤ b ∧ (pred (b - start) v s).1 = true
  | s, (v, b) :: t => start ≤ b ∧ (pred (b - start) v s).1 = false ∧
      StopsAt pred start (pred (b - start) v s).2 t

theorem StopsAt.cons_iff {pred : Nat → α → σ → Bool × σ} {start : Nat} {s : σ} {v : α} {b : Nat}
    {t : List (α × Nat)} : StopsAt pred start s ((v, b) :: t) ↔ start ≤ b ∧
      if (pred (b - start) v s).1 = true then t = [] else StopsAt pred start (pred (b - start) v s).2 t := by
  cases t with
  | nil =>
    simp only [StopsAt]
    by_cases h : (pred (b - start) v s).1 = true <;> simp [h]
  | cons x t =>
    simp only [StopsAt]
    by_cases h : (pred (b - start) v s).1 = true <;> simp [h]

theorem vecLoop_ok_iff {f : M Reader α} {pred : Nat → α → σ → Bool × σ} {start mem : Nat} {s : σ}
    {r r' : Reader} {vs : List α} :
    vecLoop f pred start mem s r = (.ok vs, r') ↔
      ∃ t, Trace f r t r' ∧ t.map Prod.fst = vs ∧ StopsAt pred start s t ∧ t.length ≤ mem := by
  induction mem generalizing r s vs with
  | zero =>
    constructor
    · intro h
      simp only [vecLoop] at h
      obtain ⟨a, r1, _, h⟩ := M.bind_eq_ok h
      simp at h
    · rintro ⟨t, ht, hm, hs, hl⟩
      have : t = [] := List.eq_nil_of_length_eq_zero (by omega)
      subst this
      exact hs.elim
  | succ mem ih =>
    constructor
    · intro h
      simp only [vecLoop] at h
      obtain ⟨a, r1, h1, h⟩ := M.bind_eq_ok h
      rw [M.get_bind_run] at h
      by_cases hb : start ≤ r1.bitsRead
      · simp only [hb, decide_true, M.assert_true_bind_run] at h
        by_cases hp : (pred (r1.bitsRead - start) a s).1 = true
        · simp only [hp, if_true, M.pure_run, Prod.mk.injEq, Res.ok.injEq] at h
          obtain ⟨rfl, rfl⟩ := h
          refine ⟨[(a, r1.bitsRead)], .cons h1 (.nil _), rfl, ?_, by simp⟩
          exact StopsAt.cons_iff.2 ⟨hb, by simp [hp]⟩
        · rw [if_neg hp] at h
          obtain ⟨as, r2, h2, h⟩ := M.bind_eq_ok h
          simp only [M.pure_run, Prod.mk.injEq, Res.ok.injEq] at h
          obtain ⟨rfl, rfl⟩ := h
          obtain ⟨t, ht, hm, hs, hl⟩ := ih.1 h2
          refine ⟨_, .cons h1 ht, by simp [hm], ?_, by simp; omega⟩
          exact StopsAt.cons_iff.2 ⟨hb, by rw [if_neg hp]; exact hs⟩
      · simp only [hb, decide_false, M.assert_false_bind_run] at h
        simp at h
    · rintro ⟨t, ht, hm, hs, hl⟩
      cases ht with
      | nil => exact hs.elim
      | cons h1 ht =>
        obtain ⟨hb, hs⟩ := StopsAt.cons_iff.1 hs
        simp only [vecLoop]
        rw [M.bind_ok h1, M.get_bind_run]
        simp only [hb, decide_true, M.assert_true_bind_run]
        split at hs
        · subst hs
          cases ht
          rw [if_pos ‹_›, ← hm]
          rfl
        · rw [if_neg ‹_›]
          have h2 := ih.2 ⟨_, ht, rfl, hs, by simpa using hl⟩
          rw [M.bind_ok h2, ← hm]
          rfl

/-- How the loop fails: an element fails after some that did not stop it. -/
theorem vecLoop_err {f : M Reader α} {pred : Nat → α → σ → Bool × σ} {start mem : Nat} {s : σ}
    {r r' : Reader} {e : DekuError} (h : vecLoop f pred start mem s r = (.err e, r')) :
    ∃ t r1, Trace f r t r1 ∧ f r1 = (.err e, r') := by
  induction mem generalizing r s with
  | zero =>
    simp only [vecLoop] at h
    cases hf : f r with
    | mk x r1 =>
      cases x with
      | ok a => rw [M.bind_ok hf] at h; simp at h
      | err e' =>
        rw [M.bind_err hf] at h; simp at h
        exact ⟨[], r, .nil _, by rw [hf, h.1, h.2]⟩
      | panic => rw [M.bind_panic hf] at h; simp at h
  | succ mem ih =>
    simp only [vecLoop] at h
    cases hf : f r with
    | mk x r1 =>
      cases x with
      | ok a =>
        rw [M.bind_ok hf, M.get_bind_run] at h
        by_cases hb : start ≤ r1.bitsRead
        · simp only [hb, decide_true, M.assert_true_bind_run] at h
          by_cases hp : (pred (r1.bitsRead - start) a s).1 = true
          · simp [hp] at h
          · rw [if_neg hp] at h
            cases hl : vecLoop f pred start mem (pred (r1.bitsRead - start) a s).2 r1 with
            | mk y r2 =>
              cases y with
              | ok as => rw [M.bind_ok hl] at h; simp at h
              | err e' =>
                rw [M.bind_err hl] at h; simp at h
                rw [h.1, h.2] at hl
                obtain ⟨t, r3, ht, he⟩ := ih hl
                exact ⟨_, r3, .cons hf ht, he⟩
              | panic => rw [M.bind_panic hl] at h; simp at h
        · simp only [hb, decide_false, M.assert_false_bind_run] at h
          simp at h
      | err e' =>
        rw [M.bind_err hf] at h; simp at h
        exact ⟨[], r, .nil _, by rw [hf, h.1, h.2]⟩
      | panic => rw [M.bind_panic hf] at h; simp at h

/-! ### the count limit -/

theorem vecLoop_count {f : M Reader α} (hf : Forward I f) {n mem start : Nat} (h1 : 1 ≤ n)
    (hm : n ≤ mem) {r : Reader} (hr : I r) (hs : start ≤ r.bitsRead) :
    vecLoop f countPred start mem n r = readN f n r := by
  induction n generalizing mem r with
  | zero => omega
  | succ n ih =>
    obtain ⟨mem, rfl⟩ : ∃ m, mem = m + 1 := ⟨mem - 1, by omega⟩
    simp only [vecLoop, readN]
    cases h : f r with
    | mk x r1 =>
      cases x with
      | ok a =>
        obtain ⟨hi, hb'⟩ := hf _ _ _ hr h
        have hb : start ≤ r1.bitsRead := Nat.le_trans hs hb'
        rw [M.bind_ok h, M.bind_ok h, M.get_bind_run]
        simp only [hb, decide_true, M.assert_true_bind_run]
        simp only [countPred, Nat.add_sub_cancel, beq_iff_eq]
        by_cases hn : n = 0
        · subst hn; rfl
        · rw [if_neg hn]
          simp only [M.bind_def]
          rw [ih (by omega) (by omega) hi hb]
      | err e => rw [M.bind_err h, M.bind_err h]
      | panic => rw [M.bind_panic h, M.bind_panic h]

theorem vecRead_count {f : M Reader α} (hf : Forward I f) {n mem size : Nat} (hz : size ≠ 0)
    (hm : n ≤ mem) {r : Reader} (hr : I r) : vecRead (σ := σ) mem size f (.count n) r = readN f n r := by
  simp only [vecRead]
  by_cases h0 : n = 0
  · subst h0; rfl
  · simp only [if_neg h0, vecWithPredicate, if_neg hz, withCapacity, hm, decide_true]
    rw [M.assert_true_bind_run, M.get_bind_run]
    exact vecLoop_count hf (by omega) hm hr (Nat.le_refl _)

/-! ### sequences of reads and writes -/

theorem ReadsList.readN {f : M Reader α} {bits : List Bool} {vs : List α} (h : ReadsList o f p bits vs) :
    Reads o p (readN f vs.length) bits vs := by
  induction h with
  | nil => exact Reads.pure o _ _
  | cons h _ ih => exact h.bind (ih.map _)

theorem WritesList.writeAll {g : α → M Writer Unit} {bits : List Bool} {vs : List α}
    (h : WritesList o g p bits vs) : Writes o p (writeAll g vs) bits := by
  induction h with
  | nil => exact Writes.pure o _
  | cons h _ ih => exact h.bind ih

theorem readN_local {f : M Reader α} (hf : ∀ q, Local o q f) (n p : Nat) : Local o p (readN f n) := by
  induction n generalizing p with
  | zero => exact Local.pure _
  | succ n ih => exact (hf p).bind fun a m => (ih (p + m)).map _

theorem readN_list {f : M Reader α} (hf : ∀ q, Local o q f) {n : Nat} {r r' : Reader} {vs : List α}
    (hr : r.At p) (he : readN f n r = (.ok vs, r')) :
    (∃ k, k ≤ (r.unread o).length ∧ ReadsList o f p ((r.unread o).take k) vs ∧ Step o k r r' ∧
      vs.length = n) ∨ (r'.Past ∧ r'.inner.data = r.inner.data) := by
  induction n generalizing p r vs with
  | zero =>
    simp [readN] at he
    obtain ⟨rfl, rfl⟩ := he
    exact .inl ⟨0, Nat.zero_le _, .nil p, Step.refl o hr.healthy hr.wf, rfl⟩
  | succ n ih =>
    simp only [readN] at he
    obtain ⟨a, r1, h1, he⟩ := M.bind_eq_ok he
    obtain ⟨as, r2, h2, he⟩ := M.bind_eq_ok he
    simp at he
    obtain ⟨rfl, rfl⟩ := he
    rcases (hf p).here r a r1 hr h1 with ⟨k, hk, hR⟩ | ⟨hpast, hd⟩
    · obtain ⟨_, s1⟩ := hR.run hr hk h1
      rcases ih (hr.step s1) h2 with ⟨m, hm, hL, s2, hl⟩ | ⟨hp2, hd2⟩
      · rw [s1.unread] at hm hL
        rw [List.length_drop] at hm
        refine .inl ⟨k + m, by omega, ?_, s1.trans s2, by simp [hl]⟩
        rw [List.take_add]
        refine .cons hR ?_
        rw [List.length_take, Nat.min_eq_left hk]
        exact hL
      · exact .inr ⟨hp2, hd2.trans s1.data⟩
    · have := (readN_local hf n 0).past r1 as r2 hpast h2
      exact .inr ⟨this.1, this.2.1.trans hd⟩

theorem writeAll_sound {f : M Reader α} {g : α → M Writer Unit} {vs : List α}
    (h : ∀ v ∈ vs, ∀ q, Sound o q f (g v) v) (p : Nat) :
    Sound o p (readN f vs.length) (writeAll g vs) vs := by
  induction vs generalizing p with
  | nil => exact Sound.pure _
  | cons v vs ih =>
    refine (h v List.mem_cons_self p).bind (f' := fun v => readN f vs.length >>= fun vs => pure (v :: vs))
      fun bits _ _ => ?_
    exact (ih (fun v hv => h v (List.mem_cons_of_mem _ hv)) _).mapRead _

theorem writeAll_accepted {f : M Reader α} {g : α → M Writer Unit} {vs : List α}
    (h : ∀ v ∈ vs, ∀ q, Sound o q f (g v) v) {w w' : Writer} (hw : w.At o p)
    (he : writeAll g vs w = (.ok (), w')) :
    ∃ bits, WritesList o g p bits vs ∧ ReadsList o f p bits vs := by
  induction vs generalizing p w with
  | nil => exact ⟨[], .nil p, .nil p⟩
  | cons v vs ih =>
    simp only [Coll.writeAll] at he
    obtain ⟨u, w1, e1, e2⟩ := M.bind_eq_ok he
    obtain ⟨x, hW, hR⟩ := h v List.mem_cons_self p w w1 hw e1
    obtain ⟨_, hw1⟩ := hW.run hw e1
    obtain ⟨y, hW', hR'⟩ := ih (fun v hv => h v (List.mem_cons_of_mem _ hv)) hw1 e2
    exact ⟨x ++ y, .cons hW hW', .cons hR hR'⟩

theorem readN_canonical {f : M Reader α} {g : α → M Writer Unit} (h : ∀ q, Canonical o q f g)
    (n p : Nat) : Canonical o p (readN f n) (writeAll g) := by
  induction n generalizing p with
  | zero =>
    intro r a r' hr he
    simp [readN] at he
    obtain ⟨rfl, rfl⟩ := he
    exact ⟨0, Nat.zero_le _, Reads.pure o p _, Writes.pure o p⟩
  | succ n ih =>
    intro r vs r' hr he
    simp only [readN] at he
    obtain ⟨a, r1, h1, he⟩ := M.bind_eq_ok he
    obtain ⟨as, r2, h2, he⟩ := M.bind_eq_ok he
    simp at he
    obtain ⟨rfl, rfl⟩ := he
    obtain ⟨k, hk, hR, hW, s1⟩ := (h p).here hr h1
    obtain ⟨m, hm, hR2, hW2, s2⟩ := (ih (p + k)).here (hr.step s1) h2
    rw [s1.unread] at hm hR2 hW2
    rw [List.length_drop] at hm
    have hlen : ((r.unread o).take k).length = k := by rw [List.length_take, Nat.min_eq_left hk]
    refine ⟨k + m, by omega, ?_, ?_⟩
    · rw [List.take_add]
      exact hR.bind (by rw [hlen]; exact hR2.map _)
    · rw [List.take_add]
      exact hW.bind (by rw [hlen]; exact hW2)

theorem readN_forward {f : M Reader α} (hf : Forward I f) (n : Nat) : Forward I (readN f n) := by
  intro r vs r' hr h
  obtain ⟨_, t, ht, _⟩ := Trace.of_readN h
  exact ⟨(ht.forward hf hr).2, (ht.forward hf hr).1.1⟩

end Deku
