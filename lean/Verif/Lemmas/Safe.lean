import Verif.Lemmas.Select
import Verif.Spec.Safe
import Verif.Lemmas.Chain

/-! # Parsers that do not panic -/

namespace Deku

open Reader Coll

variable {α β σ : Type} {o : Order} {len : Nat} {s t u : Stage}

theorem Stage.le_refl (s : Stage) : s.le s := ⟨id, id⟩

theorem Stage.le.trans (h : s.le t) (h' : t.le u) : s.le u := ⟨h'.1 ∘ h.1, h'.2 ∘ h.2⟩

theorem Stage.le_any (s : Stage) : s.le .any := ⟨fun _ => rfl, fun _ => rfl⟩

theorem Stage.fresh_le (s : Stage) : fresh.le s := ⟨by simp [fresh], by simp [fresh]⟩

theorem Reader.In.mono {r : Reader} (h : r.In s) (hl : s.le t) : r.In t := by
  refine ⟨h.healthy, h.wf, h.sync, h.inside, fun ht => h.past ?_, fun ht => h.peek ?_⟩
  · cases hs : s.past
    · rfl
    · rw [hl.1 hs] at ht; simp at ht
  · cases hs : s.peek
    · rfl
    · rw [hl.2 hs] at ht; simp at ht

/-! ### the logic -/

theorem Panicless.mono {f : M Reader α} {R R' : α → Prop} {s' t' : Stage} (h : Panicless len s f t R)
    (hs : s'.le s) (ht : t.le t') (hR : ∀ a, R a → R' a) : Panicless len s' f t' R' := by
  intro r hr hl
  refine ⟨(h r (hr.mono hs) hl).1, fun a r' he => ?_⟩
  obtain ⟨h1, h2, h3⟩ := (h r (hr.mono hs) hl).2 a r' he
  exact ⟨h1.mono ht, h2, hR a h3⟩

theorem Panicless.pure {a : α} {R : α → Prop} (h : R a) : Panicless len s (Pure.pure a : M Reader α) s R := by
  intro r hr _
  refine ⟨by simp, fun b r' he => ?_⟩
  simp at he
  obtain ⟨rfl, rfl⟩ := he
  exact ⟨hr, rfl, h⟩

theorem Panicless.throw {e : DekuError} {R : α → Prop} : Panicless len s (M.throw e : M Reader α) t R := by
  intro r hr _
  refine ⟨by simp, fun b r' he => by simp at he⟩

theorem Panicless.bind {f : M Reader α} {g : α → M Reader β} {R : α → Prop} {R' : β → Prop}
    (hf : Panicless len s f t R) (hg : ∀ a, R a → Panicless len t (g a) u R') :
    Panicless len s (f >>= g) u R' := by
  intro r hr hl
  obtain ⟨h1, h2⟩ := hf r hr hl
  cases he : f r with
  | mk x r1 =>
    cases x with
    | ok a =>
      obtain ⟨hr1, hd, ha⟩ := h2 a r1 he
      obtain ⟨h3, h4⟩ := hg a ha r1 hr1 (by rw [hd]; exact hl)
      rw [M.bind_ok he]
      refine ⟨h3, fun b r' hb => ?_⟩
      obtain ⟨h5, h6, h7⟩ := h4 b r' hb
      exact ⟨h5, h6.trans hd, h7⟩
    | err e =>
      rw [M.bind_err he]
      exact ⟨by simp, fun b r' hb => by simp at hb⟩
    | panic => rw [he] at h1; exact absurd rfl h1

theorem Panicless.map {f : M Reader α} {k : α → β} {R : α → Prop} {R' : β → Prop}
    (hf : Panicless len s f t R) (hk : ∀ a, R a → R' (k a)) :
    Panicless len s (f >>= fun a => Pure.pure (k a)) t R' :=
  hf.bind fun a ha => Panicless.pure (hk a ha)

/-! ### reads -/

theorem Reader.In.bound {n : Nat} {r : Reader} (h : r.In s) (h1 : 1 ≤ n) (hn : n ≤ (r.unread o).length) :
    r.inner.pos ≤ r.inner.data.length := by
  by_cases hr : r.rest = []
  · rw [length_unread, hr] at hn
    simp only [avail, List.length_drop, List.length_nil] at hn
    omega
  · exact h.inside hr

theorem Reader.In.step {n : Nat} {r r' : Reader} (h : r.In s) (hs : Step o n r r') (h1 : 1 ≤ n)
    (hn : n ≤ (r.unread o).length) : r'.In .fresh := by
  have hb : r'.inner.pos ≤ r'.inner.data.length := by rw [hs.data]; exact hs.bound (h.bound h1 hn)
  exact ⟨hs.healthy, hs.wf, hs.synced h.sync, fun _ => hb, fun _ => hb, fun _ => hs.noPeek (.inr h1)⟩

theorem Prim.Delivers.panicless {n : Nat} {f : M Reader α} {val : List Bool → α}
    (h : Prim.Delivers o n f val) (h0 : 1 ≤ n) {R : α → Prop} (hR : ∀ l, l.length = n → R (val l)) :
    Panicless len s f .fresh R := by
  intro r hr _
  obtain ⟨h1, h2⟩ := h r hr.healthy hr.wf
  by_cases hn : n ≤ (r.unread o).length
  · obtain ⟨r1, he, hs⟩ := h1 hn
    rw [he]
    refine ⟨by simp, fun a r' h => ?_⟩
    simp at h
    obtain ⟨rfl, rfl⟩ := h
    exact ⟨hr.step hs h0 hn, hs.data, hR _ (by simp; omega)⟩
  · obtain ⟨k, r1, he, _⟩ := h2 hn
    rw [he]
    exact ⟨by simp, fun a r' h => by simp at h⟩

theorem Prim.Delivers.moves {n : Nat} {f : M Reader α} {val : List Bool → α}
    (h : Prim.Delivers o n f val) (h0 : 1 ≤ n) : Moves f := by
  intro r a r' hr he
  obtain ⟨h1, h2⟩ := h r hr.healthy hr.wf
  by_cases hn : n ≤ (r.unread o).length
  · obtain ⟨r1, he1, hs⟩ := h1 hn
    rw [he1] at he
    simp at he
    obtain ⟨rfl, rfl⟩ := he
    refine ⟨(hr.step hs h0 hn).mono (Stage.le_any _), hs.data, ?_, by have := hs.bitsRead; omega⟩
    have h1 := hs.sync
    have h2 := hs.bitsRead
    have h3 : r.rest.length ≤ 8 := hr.wf.len_le
    have := rest_lt_of hs.wf (hs.noPeek (.inr h0))
    omega
  · obtain ⟨k, r1, he1, _⟩ := h2 hn
    rw [he1] at he
    simp at he

theorem Prim.Delivers.eats {n : Nat} {f : M Reader α} {val : List Bool → α}
    (h : Prim.Delivers o n f val) (h0 : 1 ≤ n) : Eats f := by
  intro r a r' hr he
  obtain ⟨h1, h2⟩ := h r hr.healthy hr.wf
  by_cases hn : n ≤ (r.unread o).length
  · obtain ⟨r1, he1, hs⟩ := h1 hn
    rw [he1] at he
    simp at he
    obtain ⟨rfl, rfl⟩ := he
    exact ⟨hr.bound h0 hn, by have := hs.bitsRead; omega⟩
  · obtain ⟨k, r1, he1, _⟩ := h2 hn
    rw [he1] at he
    simp at he

theorem Moves.pure (a : α) : Moves (Pure.pure a : M Reader α) := by
  intro r b r' hr he
  simp at he
  obtain ⟨rfl, rfl⟩ := he
  exact ⟨hr, rfl, Nat.le_refl _, Nat.le_refl _⟩

theorem Moves.throw (e : DekuError) : Moves (M.throw e : M Reader α) := by
  intro r b r' hr he; simp at he

theorem Moves.panic : Moves (M.panic : M Reader α) := by
  intro r b r' hr he; simp at he

theorem Moves.bind {f : M Reader α} {g : α → M Reader β} (hf : Moves f) (hg : ∀ a, Moves (g a)) :
    Moves (f >>= g) := by
  intro r b r' hr he
  obtain ⟨a, r1, h1, h2⟩ := M.bind_eq_ok he
  obtain ⟨k1, k2, k3, k4⟩ := hf r a r1 hr h1
  obtain ⟨j1, j2, j3, j4⟩ := hg a r1 b r' k1 h2
  exact ⟨j1, j2.trans k2, by omega, by omega⟩

theorem Moves.ite {c : Prop} [Decidable c] {f g : M Reader α} (hf : Moves f) (hg : Moves g) :
    Moves (if c then f else g) := by
  split
  · exact hf
  · exact hg

/-- A sequence eats if its first part does. -/
theorem Eats.bind_left {f : M Reader α} {g : α → M Reader β} (hf : Eats f) (hm : Moves f)
    (hg : ∀ a, Moves (g a)) : Eats (f >>= g) := by
  intro r b r' hr he
  obtain ⟨a, r1, h1, h2⟩ := M.bind_eq_ok he
  obtain ⟨k1, k2, k3, k4⟩ := hm r a r1 hr h1
  obtain ⟨j1, j2, j3, j4⟩ := hg a r1 b r' k1 h2
  obtain ⟨i1, i2⟩ := hf r a r1 hr h1
  exact ⟨i1, by omega⟩

/-- Or its second part. -/
theorem Eats.bind_right {f : M Reader α} {g : α → M Reader β} (hm : Moves f) (hg : ∀ a, Eats (g a)) :
    Eats (f >>= g) := by
  intro r b r' hr he
  obtain ⟨a, r1, h1, h2⟩ := M.bind_eq_ok he
  obtain ⟨k1, k2, k3, k4⟩ := hm r a r1 hr h1
  obtain ⟨i1, i2⟩ := hg a r1 b r' k1 h2
  rw [k2] at i1
  exact ⟨by omega, by omega⟩

theorem Eats.throw (e : DekuError) : Eats (M.throw e : M Reader α) := by
  intro r b r' hr he; simp at he

theorem Eats.panic : Eats (M.panic : M Reader α) := by
  intro r b r' hr he; simp at he

/-! ### seeks and skips -/

theorem readBitsInto_zero (o : Order) : readBitsInto 0 o = Pure.pure [] := by
  funext r; simp [readBitsInto]

theorem readBitsInto_panicless (n : Nat) (o : Order) : Panicless len s (readBitsInto n o) s fun _ => True := by
  by_cases h : n = 0
  · subst h; rw [readBitsInto_zero]; exact Panicless.pure trivial
  · exact ((Prim.readBitsInto_delivers n o).panicless (by omega) (R := fun _ => True) fun _ _ => trivial).mono
      (Stage.le_refl _) (Stage.fresh_le _) fun _ => id

theorem readBitsInto_moves (n : Nat) (o : Order) : Moves (readBitsInto n o) := by
  by_cases h : n = 0
  · subst h; rw [readBitsInto_zero]; exact Moves.pure _
  · exact (Prim.readBitsInto_delivers n o).moves (by omega)

/-- A reader whose position is as a seek leaves it. -/
theorem in_of_seek {r : Reader} (hf : r.Healthy) (hl : r.leftover = none) (hb : r.bitsRead = 8 * r.inner.pos) :
    r.In ⟨true, false⟩ := by
  refine ⟨hf, ?_, ?_, ?_, by simp, fun _ => ?_⟩
  · intro l h; rw [hl] at h; simp at h
  · simp [Synced, Reader.rest, hl, leftoverBits, hb]
  · simp [Reader.rest, hl, leftoverBits]
  · intro b h; rw [hl] at h; simp at h

theorem Reader.In.phase {r : Reader} (h : r.In s) (hl : ∀ l, r.leftover ≠ some (.bits l)) : r.bitsRead % 8 = 0 := by
  have hs := h.sync
  simp only [Synced] at hs
  rcases he : r.leftover with _ | (b | l)
  · simp [Reader.rest, he, leftoverBits] at hs; omega
  · simp [Reader.rest, he, leftoverBits] at hs; omega
  · exact absurd he (hl l)

theorem skipTail_run {n : Nat} {r : Reader} (hr : r.In s) (hl : ∀ l, r.leftover ≠ some (.bits l)) :
    ∃ r1, skipTail n o r = (readBitsInto (n % 8) o >>= fun _ => Pure.pure ()) r1 ∧
      r1.In ⟨true, s.peek⟩ ∧ r1.inner.data = r.inner.data ∧ r.inner.pos ≤ r1.inner.pos ∧ r.bitsRead ≤ r1.bitsRead := by
  rw [skipTail_eq]
  split
  · have hrun := skipSeek_run (n / 8) hr.healthy
    rw [if_pos (hr.phase hl)] at hrun
    refine ⟨_, M.bind_ok hrun _, ?_, rfl, ?_, ?_⟩
    · exact (in_of_seek (r := { (adv 1 (n / 8) r) with leftover := none, bitsRead := (r.inner.pos + n / 8) * 8 })
        hr.healthy rfl (by simp [adv]; omega)).mono ⟨fun _ => rfl, by simp⟩
    · simp [adv]
    · have := hr.sync
      simp only [Synced] at this
      simp only []
      omega
  · exact ⟨r, rfl, hr.mono ⟨fun _ => rfl, id⟩, rfl, Nat.le_refl _, Nat.le_refl _⟩

theorem skipBits_run {n : Nat} {r : Reader} (hr : r.In s) :
    (∃ k, skipBits n o r = skipTail k o r ∧ ∀ l, r.leftover ≠ some (.bits l)) ∨
    ∃ l, r.leftover = some (.bits l) ∧ ((n < l.length ∧ skipBits n o r = (readBitsInto n o >>= fun _ => Pure.pure ()) r) ∨
      ∃ r1, l.length ≤ n ∧ skipBits n o r = skipTail (n - l.length) o r1 ∧ Step o l.length r r1 ∧ r1.In .fresh ∧ r1.leftover = none) := by
  rcases hl : r.leftover with _ | (b | l)
  · exact .inl ⟨n, skipBits_other (by simp [hl]), by simp⟩
  · exact .inl ⟨n, skipBits_other (by simp [hl]), by simp⟩
  · refine .inr ⟨l, rfl, ?_⟩
    have hrest : r.rest = l := by simp [Reader.rest, hl, leftoverBits]
    have hw := hr.wf l hl
    have hu := length_unread o r
    rw [hrest] at hu
    rw [skipBits_bits hl]
    by_cases hn : n < l.length
    · left
      refine ⟨hn, ?_⟩
      rw [show min n l.length = n by omega, Nat.sub_self]
      refine congrFun (congrArg _ (funext fun _ => ?_)) r
      simp [skipTail_eq, readBitsInto_zero, M.pure_bind]
    · right
      obtain ⟨r1, h1, hst⟩ := readBitsInto_ok o (n := l.length) hr.healthy hr.wf (by omega)
      have hin := hr.step hst hw.1 (by omega)
      refine ⟨r1, by omega, ?_, hst, hin, ?_⟩
      · rw [show min n l.length = l.length by omega, M.bind_ok h1]
      · have hs := hst.sync
        have hb := hst.bitsRead
        rw [hrest] at hs
        rcases hl1 : r1.leftover with _ | (b1 | l1)
        · rfl
        · exact absurd hl1 (hin.peek rfl b1)
        · exfalso
          have := hin.wf l1 hl1
          rw [show r1.rest = l1 by simp [Reader.rest, hl1, leftoverBits]] at hs
          omega

theorem readTail_panicless (n : Nat) (o : Order) :
    Panicless len s (readBitsInto n o >>= fun _ => Pure.pure ()) s fun _ => True :=
  (readBitsInto_panicless n o).bind fun _ _ => Panicless.pure trivial

theorem readTail_moves (n : Nat) (o : Order) : Moves (readBitsInto n o >>= fun _ => Pure.pure ()) :=
  (readBitsInto_moves n o).bind fun _ => Moves.pure _

theorem skipBits_panicless (n : Nat) (o : Order) : Panicless len s (skipBits n o) ⟨true, s.peek⟩ fun _ => True := by
  intro r hr hl
  rcases skipBits_run (n := n) (o := o) hr with ⟨k, he, hlo⟩ | ⟨l, hlo, ⟨hn, he⟩ | ⟨r1, hn, he, hst, hin, hnone⟩⟩
  · obtain ⟨r1, h1, h2, h3, h4, h5⟩ := skipTail_run (o := o) (n := k) hr hlo
    rw [he, h1]
    obtain ⟨j1, j2⟩ := readTail_panicless (k % 8) o r1 h2 (by rw [h3]; exact hl)
    refine ⟨j1, fun a r' h => ?_⟩
    obtain ⟨i1, i2, i3⟩ := j2 a r' h
    exact ⟨i1, i2.trans h3, i3⟩
  · rw [he]
    obtain ⟨j1, j2⟩ := readTail_panicless n o r hr hl
    refine ⟨j1, fun a r' h => ?_⟩
    obtain ⟨i1, i2, i3⟩ := j2 a r' h
    exact ⟨i1.mono ⟨fun _ => rfl, id⟩, i2, i3⟩
  · obtain ⟨r2, h1, h2, h3, h4, h5⟩ := skipTail_run (o := o) (n := n - l.length) hin (by simp [hnone])
    rw [he, h1]
    obtain ⟨j1, j2⟩ := readTail_panicless ((n - l.length) % 8) o r2 h2 (by rw [h3, hst.data]; exact hl)
    refine ⟨j1, fun a r' h => ?_⟩
    obtain ⟨i1, i2, i3⟩ := j2 a r' h
    exact ⟨i1.mono ⟨fun _ => rfl, by simp [Stage.fresh]⟩, i2.trans (h3.trans hst.data), i3⟩

theorem skipBits_moves (n : Nat) (o : Order) : Moves (skipBits n o) := by
  intro r a r' hr h
  rcases skipBits_run (n := n) (o := o) hr with ⟨k, he, hlo⟩ | ⟨l, hlo, ⟨hn, he⟩ | ⟨r1, hn, he, hst, hin, hnone⟩⟩
  · obtain ⟨r1, h1, h2, h3, h4, h5⟩ := skipTail_run (o := o) (n := k) hr hlo
    rw [he, h1] at h
    obtain ⟨j1, j2, j3, j4⟩ := readTail_moves (k % 8) o r1 a r' (h2.mono (Stage.le_any _)) h
    exact ⟨j1, j2.trans h3, by omega, by omega⟩
  · rw [he] at h
    exact readTail_moves n o r a r' hr h
  · obtain ⟨r2, h1, h2, h3, h4, h5⟩ := skipTail_run (o := o) (n := n - l.length) hin (by simp [hnone])
    rw [he, h1] at h
    obtain ⟨j1, j2, j3, j4⟩ := readTail_moves ((n - l.length) % 8) o r2 a r' (h2.mono (Stage.le_any _)) h
    have e1 := hst.bitsRead
    have e2 := step_pos hst
    have e3 : r.rest = l := by simp [Reader.rest, hlo, leftoverBits]
    have e4 : r1.rest = [] := by simp [Reader.rest, hnone, leftoverBits]
    rw [e3, e4] at e2
    simp only [List.length_nil] at e2
    exact ⟨j1, j2.trans (h3.trans hst.data), by omega, by omega⟩

theorem seekRead_panicless {sk : Option (Env → Option SeekFrom)} {env : Env}
    (h : ∀ f, sk = some f → f env ≠ none) :
    Panicless len s (seekRead sk env) (.afterSeek sk s) fun _ => True := by
  cases sk with
  | none => exact Panicless.pure trivial
  | some f =>
    intro r hr _
    have h0 : r.inner.faults = noFaults := hr.healthy
    simp only [seekRead, Stage.afterSeek, Option.isSome_some, if_true]
    cases hp : f env with
    | none => exact absurd hp (h f rfl)
    | some p =>
      simp only []
      cases ht : Src.seekTarget r.inner.data.length r.inner.pos p with
      | none =>
        have he : Reader.seek p r = (.ok (.error .invalidInput),
            { r with leftover := none, inner := { r.inner with calls := r.inner.calls + 1 } }) := by
          simp [Reader.seek, Src.seek, h0, noFaults, ht]
        rw [M.bind_ok he]
        exact ⟨by simp, fun a r' h => by simp at h⟩
      | some n =>
        have he : Reader.seek p r = (.ok (.ok n),
            { r with leftover := none, inner := { r.inner with calls := r.inner.calls + 1, pos := n }, bitsRead := n * 8 }) := by
          simp [Reader.seek, Src.seek, h0, noFaults, ht]
        rw [M.bind_ok he]
        refine ⟨by simp, fun a r' h => ?_⟩
        simp at h
        subst h
        exact ⟨in_of_seek h0 rfl (Nat.mul_comm _ _), rfl, trivial⟩

/-! ### pieces of derived code -/

theorem magicRead_panicless (native : Endian) : ∀ (magic : List Byte) (s : Stage),
    Panicless len s (magicRead native magic) (.afterMagic magic s) fun _ => True
  | [], _ => Panicless.pure trivial
  | b :: bs, s => by
    simp only [magicRead, Stage.afterMagic]
    rw [if_neg (by simp)]
    refine ((u8Read_delivers native).panicless (by omega) (R := fun _ => True) fun _ _ => trivial).bind fun v _ => ?_
    split
    · exact Panicless.throw
    · refine (magicRead_panicless native bs .fresh).mono (Stage.le_refl _) ?_ fun _ => id
      simp only [Stage.afterMagic]
      split <;> exact Stage.le_refl _

theorem padSize_panicless (n : Int) : Panicless len s (padSize n : M Reader Nat) s fun _ => True := by
  unfold padSize
  split
  · exact Panicless.pure trivial
  · exact Panicless.throw

theorem padRead_panicless (order : Option Order) (pad : Option (Env → Int)) (env : Env) :
    Panicless len s (padRead order pad env) (.afterPad pad s) fun _ => True := by
  cases pad with
  | none => exact Panicless.pure trivial
  | some f => exact (padSize_panicless _).bind fun n _ => skipBits_panicless n _

theorem check_panicless (a : Attrs) (env : Env) (v : Val) :
    Panicless len s (a.check env v : M Reader Unit) s fun _ => a.Passes env v := by
  unfold Attrs.check
  by_cases h : a.assert env v = false
  · rw [if_pos h]; exact Panicless.throw
  · rw [if_neg h]
    cases he : a.assertEq env with
    | none => exact Panicless.pure ⟨by simpa using h, by simp [he]⟩
    | some x =>
      simp only []
      split
      · exact Panicless.throw
      · rename_i hx
        refine Panicless.pure ⟨by simpa using h, fun y hy => ?_⟩
        rw [he] at hy
        simp at hy hx
        rw [hx, hy]

theorem Attrs.read_panicless {a : Attrs} {native : Endian} {rd : Env → M Reader Val} {env : Env}
    {ty : Env → Stage → Stage → (Val → Prop) → Prop}
    (hty : ∀ env s t R, ty env s t R → Panicless len s (rd env) t R) {R : Val → Prop}
    (h : a.Safe ty env s t R) : Panicless len s (a.read native rd env) t R := by
  unfold Attrs.read
  refine (seekRead_panicless h.1).bind fun _ _ => (magicRead_panicless native a.magic _).bind fun _ _ =>
    (padRead_panicless _ _ _).bind fun _ _ => ?_
  intro r hr hl
  rw [M.get_bind_run]
  generalize hoff : (if a.usesOffset = true then r.bitsRead else 0) = off
  obtain ⟨s', h1, h2, h3⟩ := h.2 off (fun hu => by rw [hu] at hoff; simpa using hoff.symm)
  refine Panicless.bind (t := s') (R := fun v => a.Passes (env.at off) v → R v) ?_ (fun v hv => ?_) r hr hl
  · unfold Attrs.value
    by_cases hi : a.isRead (env.at off) = true
    · rw [if_pos hi]
      obtain ⟨R', k1, k2⟩ := h1 hi
      refine (hty _ _ _ _ k1).bind fun raw hraw => ?_
      unfold Attrs.applyMap
      cases hm : a.map (env.at off) raw with
      | ok v => exact Panicless.pure fun hp => k2 raw v hraw hm hp
      | error e => exact Panicless.throw
    · rw [if_neg hi]
      obtain ⟨k1, k2⟩ := h2 (by simpa using hi)
      exact (Panicless.pure (R := fun v => a.Passes (env.at off) v → R v) k2).mono (Stage.le_refl _) k1 fun _ => id
  · refine (check_panicless a (env.at off) v).bind fun _ hp => ?_
    refine ((padRead_panicless _ _ _).mono (Stage.le_refl _) h3 fun _ => id).bind fun _ _ => Panicless.pure (hv hp)

/-! ### collections -/

theorem arrayRead_panicless {f : M Reader α} {R : α → Prop} {s' t' : Stage} (hf : Panicless len s' f t' R)
    (ht : t'.le s') : ∀ (n : Nat) {s t : Stage}, s.le s' → t'.le t → (n = 0 → s.le t) →
      Panicless len s (arrayRead f n) t fun vs => vs.length = n ∧ ∀ v ∈ vs, R v
  | 0, s, t, _, _, h0 => by
    simp only [arrayRead]
    exact (Panicless.pure (R := fun vs => vs.length = 0 ∧ ∀ v ∈ vs, R v) (by simp)).mono (Stage.le_refl _)
      (h0 rfl) fun _ => id
  | n + 1, s, t, hs, htt, _ => by
    simp only [arrayRead]
    refine (hf.mono hs (Stage.le_refl _) fun _ => id).bind fun v hv => ?_
    refine (arrayRead_panicless hf ht n ht htt fun _ => htt).bind fun vs hvs => Panicless.pure ?_
    refine ⟨by simp [hvs.1], fun w hw => ?_⟩
    rcases List.mem_cons.1 hw with rfl | hw
    · exact hv
    · exact hvs.2 w hw

/-- The loop: it ends before memory does, or the elements run out of input. -/
theorem vecLoop_panicless {f : M Reader α} {R : α → Prop} {s' t' : Stage} (hf : Panicless len s' f t' R)
    (hm : Moves f) (ht : t'.le s') (pred : Nat → α → σ → Bool × σ) (start : Nat)
    (enough : Nat → σ → Reader → Prop)
    (hstep : ∀ mem st r a r', enough mem st r → r.In s' → r.inner.data.length ≤ len → f r = (.ok a, r') →
      mem ≠ 0 ∧ ∀ d, (pred d a st).1 = false → enough (mem - 1) (pred d a st).2 r') :
    ∀ (mem : Nat) (st : σ) (r : Reader), r.In s' → r.inner.data.length ≤ len → start ≤ r.bitsRead →
      enough mem st r → (vecLoop f pred start mem st r).1 ≠ .panic ∧
      ∀ vs r', vecLoop f pred start mem st r = (.ok vs, r') →
        r'.In t' ∧ r'.inner.data = r.inner.data ∧ ∀ v ∈ vs, R v
  | 0, st, r, hr, hl, hstart, hen => by
    simp only [vecLoop]
    obtain ⟨h1, h2⟩ := hf r hr hl
    cases he : f r with
    | mk x r1 =>
      cases x with
      | ok a => exact absurd rfl (hstep 0 st r a r1 hen hr hl he).1
      | err e => rw [M.bind_err he]; exact ⟨by simp, fun a r' h => by simp at h⟩
      | panic => rw [he] at h1; exact absurd rfl h1
  | mem + 1, st, r, hr, hl, hstart, hen => by
    simp only [vecLoop]
    obtain ⟨h1, h2⟩ := hf r hr hl
    cases he : f r with
    | mk x r1 =>
      cases x with
      | ok a =>
        obtain ⟨hr1, hd, ha⟩ := h2 a r1 he
        have hb := (hm r a r1 (hr.mono (Stage.le_any _)) he).2.2.2
        rw [M.bind_ok he, M.get_bind_run]
        simp only [show start ≤ r1.bitsRead by omega, decide_true, M.assert_true_bind_run]
        cases hp : (pred (r1.bitsRead - start) a st).1 with
        | true =>
          simp only [if_true]
          refine ⟨by simp, fun vs r' h => ?_⟩
          simp at h
          obtain ⟨rfl, rfl⟩ := h
          exact ⟨hr1, hd, by simpa using ha⟩
        | false =>
          simp only [Bool.false_eq_true, if_false]
          obtain ⟨k1, k2⟩ := vecLoop_panicless hf hm ht pred start enough hstep mem
            (pred (r1.bitsRead - start) a st).2 r1 (hr1.mono ht) (by rw [hd]; exact hl) (by omega)
            ((hstep (mem + 1) st r a r1 hen hr hl he).2 _ hp)
          cases he2 : vecLoop f pred start mem (pred (r1.bitsRead - start) a st).2 r1 with
          | mk y r2 =>
            cases y with
            | ok as =>
              obtain ⟨j1, j2, j3⟩ := k2 as r2 he2
              rw [M.bind_ok he2]
              refine ⟨by simp, fun vs r' h => ?_⟩
              simp at h
              obtain ⟨rfl, rfl⟩ := h
              refine ⟨j1, j2.trans hd, fun w hw => ?_⟩
              rcases List.mem_cons.1 hw with rfl | hw
              · exact ha
              · exact j3 w hw
            | err e => rw [M.bind_err he2]; exact ⟨by simp, fun a r' h => by simp at h⟩
            | panic => rw [he2] at k1; exact absurd rfl k1
      | err e => rw [M.bind_err he]; exact ⟨by simp, fun a r' h => by simp at h⟩
      | panic => rw [he] at h1; exact absurd rfl h1

theorem vecWithPredicate_panicless {f : M Reader α} {R : α → Prop} {s' t' : Stage} {mem size : Nat}
    (hf : Panicless len s' f t' R) (hm : Moves f) (ht : t'.le s') (hs : s.le s') (htt : t'.le t)
    (hz : size ≠ 0) (cap : Option Nat) (hcap : ∀ n, cap = some n → n ≤ mem)
    (pred : Nat → α → σ → Bool × σ) (init : σ) (enough : Nat → σ → Reader → Prop)
    (hstep : ∀ mem st r a r', enough mem st r → r.In s' → r.inner.data.length ≤ len → f r = (.ok a, r') →
      mem ≠ 0 ∧ ∀ d, (pred d a st).1 = false → enough (mem - 1) (pred d a st).2 r')
    (hinit : ∀ r, enough mem init r) :
    Panicless len s (vecWithPredicate mem size cap f pred init) t fun vs => ∀ v ∈ vs, R v := by
  intro r hr hl
  have hc : withCapacity mem cap = Pure.pure () := by
    cases cap with
    | none => rfl
    | some n => simp [withCapacity, hcap n rfl, M.assert]; rfl
  simp only [vecWithPredicate]
  rw [if_neg hz, hc, M.pure_bind_run, M.get_bind_run]
  obtain ⟨h1, h2⟩ := vecLoop_panicless hf hm ht pred r.bitsRead enough hstep mem init r (hr.mono hs) hl
    (Nat.le_refl _) (hinit r)
  refine ⟨h1, fun a r' h => ?_⟩
  obtain ⟨k1, k2, k3⟩ := h2 a r' h
  exact ⟨k1.mono htt, k2, k3⟩

/-- With elements that eat, there are never more of them than bits of input. -/
theorem eats_enough {f : M Reader α} {s' : Stage} (he : Eats f) (pred : Nat → α → σ → Bool × σ) :
    ∀ mem st r a r', 8 * len + 1 ≤ mem + r.bitsRead → r.In s' → r.inner.data.length ≤ len →
      f r = (.ok a, r') → mem ≠ 0 ∧ ∀ d, (pred d a st).1 = false → 8 * len + 1 ≤ mem - 1 + r'.bitsRead := by
  intro mem st r a r' hen hr hl h
  obtain ⟨h1, h2⟩ := he r a r' (hr.mono (Stage.le_any _)) h
  have hs := hr.sync
  simp only [Synced] at hs
  exact ⟨by omega, fun _ _ => by omega⟩

theorem end_in {r : Reader} (hr : r.In s) : ∃ b r', «end» r = (.ok b, r') ∧
    r'.inner.data = r.inner.data ∧ r'.bitsRead = r.bitsRead ∧ r.inner.pos ≤ r'.inner.pos ∧
    (b = true → r'.In ⟨s.past, false⟩) ∧ (b = false → r'.In ⟨false, true⟩) := by
  have h0 : r.inner.faults = noFaults := hr.healthy
  unfold «end»
  rw [M.get_bind_run]
  rcases hl : r.leftover with _ | lo
  · simp only [Option.isSome_none, Bool.false_eq_true, if_false]
    have hrest : r.rest = [] := by simp [Reader.rest, hl, leftoverBits]
    have hs := hr.sync
    simp only [Synced, hrest, List.length_nil] at hs
    rcases ha : avail r with _ | ⟨b, bs⟩
    · have hlen : r.inner.data.length ≤ r.inner.pos := by
        have := congrArg List.length ha; simp [avail] at this; omega
      have he : ioRead 1 r = (.ok (.error .unexpectedEof), adv 1 0 r) := by
        have h1 : ¬ 1 ≤ r.inner.data.length - r.inner.pos := by omega
        simp only [ioRead, Src.readExact, h0, noFaults, h1, if_false, adv]
        rw [Nat.max_eq_left hlen]
        rfl
      rw [M.bind_ok he]
      refine ⟨true, adv 1 0 r, rfl, rfl, rfl, Nat.le_refl _, fun _ => ?_, by simp⟩
      exact ⟨hr.healthy, hr.wf, hr.sync, hr.inside, hr.past, fun _ b h => by
        rw [show (adv 1 0 r).leftover = r.leftover from rfl, hl] at h; simp at h⟩
    · have h1 := ioRead_ok (r := r) (n := 1) hr.healthy (by simp [ha])
      rw [ha] at h1
      rw [M.bind_ok h1]
      have hlen : r.inner.pos + 1 ≤ r.inner.data.length := by
        have := congrArg List.length ha; simp [avail] at this; omega
      refine ⟨false, { adv 1 1 r with leftover := some (.byte b) }, rfl, rfl, rfl, by simp, by simp, fun _ => ?_⟩
      refine ⟨hr.healthy, ?_, ?_, fun _ => hlen, fun _ => hlen, by simp⟩
      · intro l h; simp at h
      · simp [Synced, Reader.rest, leftoverBits, adv]; omega
  · simp only [Option.isSome_some, if_true, M.pure_run]
    refine ⟨false, r, rfl, rfl, rfl, Nat.le_refl _, by simp, fun _ => ?_⟩
    refine ⟨hr.healthy, hr.wf, hr.sync, hr.inside, fun _ => hr.inside ?_, by simp⟩
    rcases lo with b | l
    · intro h
      have := congrArg List.length h
      simp [Reader.rest, hl, leftoverBits] at this
    · intro h
      have := hr.wf l hl
      simp [Reader.rest, hl, leftoverBits] at h
      rw [h] at this
      simp at this

theorem vecEndLoop_panicless {f : M Reader α} {R : α → Prop} {s' t' t : Stage} (hf : Panicless len s' f t' R)
    (hea : Eats f) (hs' : Stage.le ⟨false, true⟩ s') (htt : t'.past = true → t.past = true) :
    ∀ (mem : Nat) (s : Stage) (r : Reader), r.In s → (s.past = true → t.past = true) →
      r.inner.data.length ≤ len → 8 * len + 1 ≤ mem + r.bitsRead →
      (vecEndLoop f mem r).1 ≠ .panic ∧ ∀ vs r', vecEndLoop f mem r = (.ok vs, r') →
        r'.In t ∧ r'.inner.data = r.inner.data ∧ ∀ v ∈ vs, R v := by
  intro mem
  induction mem with
  | zero =>
    intro s r hr hst hl hen
    simp only [vecEndLoop]
    obtain ⟨b, r1, he, hd, hb, hp, h1, h2⟩ := end_in hr
    rw [M.bind_ok he]
    cases b with
    | true =>
      simp only [if_true]
      refine ⟨by simp, fun vs r' h => ?_⟩
      simp at h
      obtain ⟨rfl, rfl⟩ := h
      exact ⟨(h1 rfl).mono ⟨hst, by simp⟩, hd, by simp⟩
    | false =>
      exfalso
      have hin := h2 rfl
      have hsy := hin.sync
      have hpa := hin.past rfl
      simp only [Synced] at hsy
      rw [hd] at hpa
      omega
  | succ mem ih =>
    intro s r hr hst hl hen
    simp only [vecEndLoop]
    obtain ⟨b, r1, he, hd, hb, hp, h1, h2⟩ := end_in hr
    rw [M.bind_ok he]
    cases b with
    | true =>
      simp only [if_true]
      refine ⟨by simp, fun vs r' h => ?_⟩
      simp at h
      obtain ⟨rfl, rfl⟩ := h
      exact ⟨(h1 rfl).mono ⟨hst, by simp⟩, hd, by simp⟩
    | false =>
      simp only [Bool.false_eq_true, if_false]
      obtain ⟨k1, k2⟩ := hf r1 ((h2 rfl).mono hs') (by rw [hd]; exact hl)
      cases hfr : f r1 with
      | mk x r2 =>
        cases x with
        | ok a =>
          rw [M.bind_ok hfr]
          obtain ⟨j1, j2, j3⟩ := k2 a r2 hfr
          obtain ⟨i1, i2⟩ := hea r1 a r2 ((h2 rfl).mono (Stage.le_any _)) hfr
          obtain ⟨g1, g2⟩ := ih t' r2 j1 htt (by rw [j2, hd]; exact hl) (by omega)
          cases hv : vecEndLoop f mem r2 with
          | mk y r3 =>
            cases y with
            | ok as =>
              rw [M.bind_ok hv]
              refine ⟨by simp, fun vs r' h => ?_⟩
              simp at h
              obtain ⟨rfl, rfl⟩ := h
              obtain ⟨e1, e2, e3⟩ := g2 as _ hv
              refine ⟨e1, e2.trans (j2.trans hd), fun w hw => ?_⟩
              rcases List.mem_cons.1 hw with rfl | hw
              · exact j3
              · exact e3 w hw
            | err e => rw [M.bind_err hv]; exact ⟨by simp, fun a r' h => by simp at h⟩
            | panic => rw [hv] at g1; exact absurd rfl g1
        | err e => rw [M.bind_err hfr]; exact ⟨by simp, fun a r' h => by simp at h⟩
        | panic => rw [hfr] at k1; exact absurd rfl k1

theorem toUsize_panicless (n : Int) : Panicless len s (toUsize n : M Reader Nat) s fun k => (k : Int) = n := by
  unfold toUsize
  split
  · rename_i h; exact Panicless.pure (by omega)
  · exact Panicless.throw

theorem usize_panicless {n : Nat} (h : n < 2 ^ 64) : Panicless len s (usize n) s fun k => k = n := by
  unfold usize
  rw [if_pos h]
  exact Panicless.pure rfl

theorem readExact_panicless {n : Nat} (hp : s.past = false) (hn : n < 2 ^ 61) (hpk : s.peek = true → n ≠ 0) :
    Panicless len s (readExact n) t fun bs => bs.length = n := by
  intro r hr hl
  rw [readExact_run hr.healthy (hr.past hp)]
  have hin : (adv 3 0 r).In s := ⟨hr.healthy, hr.wf, hr.sync, hr.inside, hr.past, hr.peek⟩
  split
  · refine Panicless.bind (usize_panicless (len := len) (by omega)) (fun k _ => Panicless.throw) (adv 3 0 r) hin hl
  · rename_i hav
    by_cases h0 : n = 0
    · have hnp : (adv 3 0 r).NoPeek := hin.peek (by
        cases h : s.peek
        · rfl
        · exact absurd h0 (hpk h))
      obtain ⟨bs, r', e, hb, hs⟩ := readBytes_ok .lsb0 (n := n) hin.healthy hin.wf (.inl hnp) (by subst h0; simp)
      rw [e]
      refine ⟨by simp, fun a r2 h => ?_⟩
      simp at h
      obtain ⟨rfl, rfl⟩ := h
      have hg := Good.step ⟨hin.healthy, hin.wf, hnp, hin.sync, hin.inside⟩ hs
      have hb' : r'.inner.pos ≤ r'.inner.data.length := by rw [hs.data]; exact hs.bound (hin.past hp)
      refine ⟨⟨hg.healthy, hg.wf, hg.sync, hg.inside, fun _ => hb', fun _ => hg.noPeek⟩, hs.data, ?_⟩
      have := congrArg List.length hb
      rw [length_orderBits, List.length_take] at this
      omega
    · obtain ⟨h1, h2⟩ := (Prim.readBytes_delivers .lsb0 (k := n) (by omega)).panicless (len := len) (s := s) (by omega)
        (R := fun bs => bs.length = n) (fun l hl => by simp [Prim.bytesOf, packBytes, hl]) (adv 3 0 r) hin hl
      refine ⟨h1, fun a r' h => ?_⟩
      obtain ⟨k1, k2, k3⟩ := h2 a r' h
      exact ⟨k1.mono (Stage.fresh_le _), k2, k3⟩

theorem vecRead_panicless {m : Machine} {l : LimitE} {env : Env} {f : M Reader Val} {R : Val → Prop}
    {s' t' : Stage} {size : Nat} (hmem : 8 * len + 1 ≤ m.mem) (hf : Panicless len s' f t' R) (hz : size ≠ 0)
    (hl : l.Safe m env f s s' t' t) :
    Panicless len s (l.eval env >>= fun lim => vecRead m.mem size f lim) t fun vs => ∀ v ∈ vs, R v := by
  have hnil : ∀ {s t : Stage}, s.le t → Panicless len s (Pure.pure [] : M Reader (List Val)) t fun vs => ∀ v ∈ vs, R v :=
    fun h => (Panicless.pure (R := fun vs : List Val => ∀ v ∈ vs, R v) (by simp)).mono (Stage.le_refl _) h fun _ => id
  have hsz : ∀ n, (n = 0 → s.le t) → Moves f → Eats f → s.le s' → t'.le s' → t'.le t →
      Panicless len s (if n = 0 then Pure.pure [] else vecWithPredicate m.mem size none f (sizePred n) ()) t
        fun vs => ∀ v ∈ vs, R v := by
    intro n h0 hm he h1 h2 h3
    split
    · rename_i hn; exact hnil (h0 hn)
    · exact vecWithPredicate_panicless hf hm h2 h1 h3 hz none (by simp) _ ()
        (fun mem _ r => 8 * len + 1 ≤ mem + r.bitsRead) (eats_enough he _) (fun r => by omega)
  cases l with
  | count n =>
    obtain ⟨hn, hm, h1, h2, h3, h0⟩ := hl
    simp only [LimitE.eval, M.bind_assoc, M.pure_bind]
    refine (toUsize_panicless _).bind fun k hk => ?_
    simp only [vecRead]
    split
    · rename_i h; exact hnil (h0 (by omega))
    · rename_i h
      refine vecWithPredicate_panicless hf hm h2 h1 h3 hz (some k) (fun j hj => by simp at hj; omega) _ k
        (fun mem st _ => 1 ≤ st ∧ st ≤ mem) ?_ (fun r => ⟨by omega, by omega⟩)
      intro mem st r a r' hen _ _ _
      refine ⟨by omega, fun d hd => ?_⟩
      simp only [countPred, beq_eq_false_iff_ne] at hd ⊢
      omega
  | «until» p =>
    obtain ⟨hm, he, h1, h2, h3⟩ := hl
    simp only [LimitE.eval, M.pure_bind, vecRead]
    exact vecWithPredicate_panicless hf hm h2 h1 h3 hz none (by simp) _ _
      (fun mem _ r => 8 * len + 1 ≤ mem + r.bitsRead) (eats_enough he _) (fun r => by omega)
  | bytes n =>
    obtain ⟨hn, hm, he, h1, h2, h3, h0⟩ := hl
    simp only [LimitE.eval, M.bind_assoc, M.pure_bind, vecRead]
    refine (toUsize_panicless _).bind fun k hk => (usize_panicless (by omega)).bind fun j hj => ?_
    exact hsz j (fun h => h0 (by omega)) hm he h1 h2 h3
  | bits n =>
    obtain ⟨hm, he, h1, h2, h3, h0⟩ := hl
    simp only [LimitE.eval, M.bind_assoc, M.pure_bind, vecRead]
    refine (toUsize_panicless _).bind fun k hk => ?_
    exact hsz k (fun h => h0 (by omega)) hm he h1 h2 h3
  | «end» =>
    obtain ⟨he, h1, h2, h3⟩ := hl
    simp only [LimitE.eval, M.pure_bind, vecRead, vecToEnd]
    rw [if_neg hz]
    intro r hr hlen
    exact vecEndLoop_panicless hf he h1 h3 m.mem s r hr h2 hlen (by omega)

theorem vecRead_zst {m : Machine} {l : LimitE} {env : Env} {f : M Reader Val} {R : List Val → Prop}
    (h : ∀ n, l = .bytes n → n env < 2 ^ 61) (ht : s.le t) (hR : R []) :
    Panicless len s (l.eval env >>= fun lim => vecRead m.mem 0 f lim) t R := by
  have hnil : Panicless len s (Pure.pure [] : M Reader (List Val)) t R :=
    (Panicless.pure hR).mono (Stage.le_refl _) ht fun _ => id
  have hite : ∀ {c : Prop} [Decidable c] {x : M Reader (List Val)}, Panicless len s x t R →
      Panicless len s (if c then Pure.pure [] else x) t R := by
    intro c _ x hx
    split
    · exact hnil
    · exact hx
  cases l with
  | count n =>
    simp only [LimitE.eval, M.bind_assoc, M.pure_bind, vecRead, vecWithPredicate, if_true]
    exact (toUsize_panicless _).bind fun k hk => hite hnil
  | «until» p =>
    simp only [LimitE.eval, M.pure_bind, vecRead, vecWithPredicate, if_true]
    exact hnil
  | bytes n =>
    simp only [LimitE.eval, M.bind_assoc, M.pure_bind, vecRead, vecWithPredicate, if_true]
    have := h n rfl
    exact (toUsize_panicless _).bind fun k hk => (usize_panicless (by omega)).bind fun j _ => hite hnil
  | bits n =>
    simp only [LimitE.eval, M.bind_assoc, M.pure_bind, vecRead, vecWithPredicate, if_true]
    exact (toUsize_panicless _).bind fun k hk => hite hnil
  | «end» =>
    simp only [LimitE.eval, M.pure_bind, vecRead, vecToEnd, if_true]
    exact hnil

/-! ### definitions -/

theorem dispatch_panicless {sel : Option Nat} {arm : Nat → M Reader Val} {R : Val → Prop}
    (h : ∀ i, sel = some i → Panicless len s (arm i) t fun fs => R (.variant i fs)) :
    Panicless len s (dispatch sel arm) t R := by
  cases sel with
  | none => exact Panicless.throw
  | some i => exact (h i rfl).map fun _ => id

mutual

theorem Ty.panicless {m : Machine} (hmem : 8 * len + 1 ≤ m.mem) :
    ∀ (x : Ty) (env : Env) (s t : Stage) (R : Val → Prop), x.Safe m len env s t R →
      Panicless len s (x.read m env) t R
  | .prim _ c, env, s, t, R, h => by
    simp only [Ty.read]
    simp only [Ty.Safe] at h
    exact h
  | .option x, env, s, t, R, h => by
    simp only [Ty.read]
    exact (Ty.panicless hmem x env s t _ h).map fun _ => id
  | .array n x, env, s, t, R, h => by
    simp only [Ty.read]
    obtain ⟨s', t', R', hx, h1, h2, h3, h4, h5⟩ := h
    exact (arrayRead_panicless (Ty.panicless hmem x env s' t' R' hx) h2 n h1 h3 h4).map fun vs hvs => h5 vs hvs.1 hvs.2
  | .pair a b, env, s, t, R, h => by
    simp only [Ty.read]
    obtain ⟨s', R', h1, h2⟩ := h
    exact (Ty.panicless hmem a env s s' R' h1).bind fun v hv =>
      (Ty.panicless hmem b env s' t _ (h2 v hv)).map fun _ => id
  | .vec size l x, env, s, t, R, h => by
    simp only [Ty.read]
    rw [← M.bind_assoc]
    by_cases hz : size = 0
    · obtain ⟨h1, h2, h3⟩ := h.1 hz
      subst hz
      exact (vecRead_zst (R := fun vs => vs = []) h1 h2 rfl).map fun vs hvs => by rw [hvs]; exact h3
    · obtain ⟨s', t', R', hx, hl, hR⟩ := h.2 hz
      exact (vecRead_panicless hmem (Ty.panicless hmem x env s' t' R' hx) hz hl).map fun vs hvs => hR vs hvs
  | .bytes n _, env, s, t, R, h => by
    simp only [Ty.read]
    obtain ⟨h1, h2, h3, h4⟩ := h
    refine (toUsize_panicless _).bind fun k hk => ?_
    exact (readExact_panicless h1 (by omega) (fun hp => by have := h3 hp; omega)).map fun bs hbs => h4 bs (by omega)
  | .struct args sk magic fs, env, s, t, R, h => by
    simp only [Ty.read]
    exact (seekRead_panicless h.1).bind fun _ _ => (magicRead_panicless m.native magic _).bind fun _ _ =>
      Fields.panicless hmem fs _ _ t R h.2
  | .enum args magic id _ vs, env, s, t, R, h => by
    simp only [Ty.read]
    refine (magicRead_panicless m.native magic _).bind fun _ _ => ?_
    cases id with
    | ctx e =>
      simp only [Ty.Safe] at h
      exact dispatch_panicless fun i hi => Variants.panicless hmem vs _ _ _ i _ t _ (h i hi)
    | typed _ c =>
      simp only [Ty.Safe] at h
      obtain ⟨s', R', h1, h2⟩ := h
      exact h1.bind fun x hx => dispatch_panicless fun i hi => Variants.panicless hmem vs _ _ _ i _ t _ (h2 x hx i hi)

theorem Fields.panicless {m : Machine} (hmem : 8 * len + 1 ≤ m.mem) :
    ∀ (fs : Fields) (env : Env) (s t : Stage) (R : Val → Prop), fs.Safe m len env s t R →
      Panicless len s (fs.read m env) t R
  | .nil, env, s, t, R, h => by
    simp only [Fields.read]
    exact (Panicless.pure h.2).mono (Stage.le_refl _) h.1 fun _ => id
  | .cons a x rest, env, s, t, R, h => by
    simp only [Fields.read]
    obtain ⟨s', R', h1, h2⟩ := h
    exact (Attrs.read_panicless (fun env s t R h => Ty.panicless hmem x env s t R h) h1).bind fun v hv =>
      (Fields.panicless hmem rest _ s' t _ (h2 v hv)).map fun _ => id
  | .temp a x _ rest, env, s, t, R, h => by
    simp only [Fields.read]
    obtain ⟨s', R', h1, h2⟩ := h
    exact (Attrs.read_panicless (fun env s t R h => Ty.panicless hmem x env s t R h) h1).bind fun v hv =>
      Fields.panicless hmem rest _ s' t _ (h2 v hv)

theorem Fields.storedPanicless {m : Machine} (hmem : 8 * len + 1 ≤ m.mem) :
    ∀ (fs : Fields) (env : Env) (x : Val) (s t : Stage) (R : Val → Prop), fs.SafeStored m len env x s t R →
      Panicless len s (fs.readStored m env x) t R
  | .nil, env, x, s, t, R, h => by
    simp only [Fields.readStored]
    exact (Panicless.pure h.2).mono (Stage.le_refl _) h.1 fun _ => id
  | .cons _ _ rest, env, x, s, t, R, h => by
    simp only [Fields.readStored]
    exact (Fields.panicless hmem rest _ s t _ h).map fun _ => id
  | .temp _ _ _ rest, env, x, s, t, R, h => by
    simp only [Fields.readStored]
    exact Fields.panicless hmem rest _ s t _ h

theorem Variants.panicless {m : Machine} (hmem : 8 * len + 1 ≤ m.mem) :
    ∀ (vs : Variants) (env : Env) (x : Val) (typed : Bool) (i : Nat) (s t : Stage) (R : Val → Prop),
      vs.SafeAt m len env x typed i s t R → Panicless len s (vs.readAt m env x typed i) t R
  | .nil, _, _, _, _, _, _, _, h => h.elim
  | .cons a fs _, env, x, typed, 0, s, t, R, h => by
    simp only [Variants.readAt]
    simp only [Variants.SafeAt] at h
    split
    · rename_i hc
      rw [if_pos hc] at h
      exact Fields.storedPanicless hmem fs env x s t R h
    · rename_i hc
      rw [if_neg hc] at h
      exact Fields.panicless hmem fs env s t R h
  | .cons _ _ rest, env, x, typed, i + 1, s, t, R, h => by
    simp only [Variants.readAt]
    exact Variants.panicless hmem rest env x typed i s t R (by simpa only [Variants.SafeAt] using h)

end

/-! ### progress of definitions -/

theorem magicRead_moves (native : Endian) : ∀ magic : List Byte, Moves (magicRead native magic)
  | [] => Moves.pure _
  | b :: bs => by
    simp only [magicRead]
    exact ((u8Read_delivers native).moves (by omega)).bind fun v => Moves.ite (Moves.throw _) (magicRead_moves native bs)

theorem magicRead_eats (native : Endian) {magic : List Byte} (h : magic ≠ []) : Eats (magicRead native magic) := by
  cases magic with
  | nil => exact absurd rfl h
  | cons b bs =>
    simp only [magicRead]
    exact ((u8Read_delivers native).eats (by omega)).bind_left ((u8Read_delivers native).moves (by omega))
      fun v => Moves.ite (Moves.throw _) (magicRead_moves native bs)

theorem padSize_moves (n : Int) : Moves (padSize n : M Reader Nat) := Moves.ite (Moves.pure _) (Moves.throw _)
theorem toUsize_moves (n : Int) : Moves (toUsize n : M Reader Nat) := Moves.ite (Moves.pure _) (Moves.throw _)
theorem usize_moves (n : Nat) : Moves (usize n) := Moves.ite (Moves.pure _) Moves.panic

theorem padRead_moves (order : Option Order) (pad : Option (Env → Int)) (env : Env) : Moves (padRead order pad env) := by
  cases pad with
  | none => exact Moves.pure _
  | some f => exact (padSize_moves _).bind fun n => skipBits_moves n _

theorem check_moves (a : Attrs) (env : Env) (v : Val) : Moves (a.check env v : M Reader Unit) := by
  unfold Attrs.check
  refine Moves.ite (Moves.throw _) ?_
  cases a.assertEq env with
  | none => exact Moves.pure _
  | some x => exact Moves.ite (Moves.throw _) (Moves.pure _)

theorem applyMap_moves (a : Attrs) (env : Env) (raw : Val) : Moves (a.applyMap env raw) := by
  unfold Attrs.applyMap
  cases a.map env raw with
  | ok v => exact Moves.pure _
  | error e => exact Moves.throw _

/-- What follows the offset of a field. -/
theorem Moves.get {g : Reader → M Reader α} (h : ∀ r, Moves (g r)) : Moves (M.get >>= g) := by
  intro r a r' hr he
  rw [M.get_bind_run] at he
  exact h r r a r' hr he

theorem Eats.get {g : Reader → M Reader α} (h : ∀ r, Eats (g r)) : Eats (M.get >>= g) := by
  intro r a r' hr he
  rw [M.get_bind_run] at he
  exact h r r a r' hr he

theorem seekRead_none (env : Env) : seekRead none env = Pure.pure () := rfl

theorem Attrs.value_moves (a : Attrs) {rd : Env → M Reader Val} (h : ∀ env, Moves (rd env)) (env : Env) :
    Moves (a.value rd env) :=
  Moves.ite ((h env).bind fun _ => applyMap_moves _ _ _) (Moves.pure _)

theorem Attrs.read_moves {a : Attrs} (ha : a.seek = none) (native : Endian) {rd : Env → M Reader Val}
    (h : ∀ env, Moves (rd env)) (env : Env) : Moves (a.read native rd env) := by
  unfold Attrs.read
  rw [ha, seekRead_none, M.pure_bind]
  exact (magicRead_moves _ _).bind fun _ => (padRead_moves _ _ _).bind fun _ => Moves.get fun r =>
    (Attrs.value_moves a h _).bind fun v => (check_moves _ _ _).bind fun _ => (padRead_moves _ _ _).bind fun _ =>
      Moves.pure _

theorem Attrs.read_eats {a : Attrs} (ha : a.seek = none) (native : Endian) {rd : Env → M Reader Val}
    (h : ∀ env, Moves (rd env))
    (he : a.magic ≠ [] ∨ ((∀ env, a.isRead env = true) ∧ ∀ env, Eats (rd env))) (env : Env) :
    Eats (a.read native rd env) := by
  unfold Attrs.read
  rw [ha, seekRead_none, M.pure_bind]
  have htail : ∀ env' v, Moves (do
      a.check env' v
      padRead a.padOrder a.padAfter (env'.push v)
      Pure.pure v) := fun env' v => (check_moves _ _ _).bind fun _ => (padRead_moves _ _ _).bind fun _ => Moves.pure _
  rcases he with hm | ⟨h1, h2⟩
  · exact (magicRead_eats native hm).bind_left (magicRead_moves _ _) fun _ => (padRead_moves _ _ _).bind fun _ =>
      Moves.get fun r => (Attrs.value_moves a h _).bind fun v => htail _ v
  · refine Eats.bind_right (magicRead_moves _ _) fun _ => Eats.bind_right (padRead_moves _ _ _) fun _ =>
      Eats.get fun r => Eats.bind_left ?_ (Attrs.value_moves a h _) fun v => htail _ v
    unfold Attrs.value
    rw [if_pos (h1 _)]
    exact (h2 _).bind_left (h _) fun _ => applyMap_moves _ _ _

theorem arrayRead_moves {f : M Reader α} (hf : Moves f) : ∀ n, Moves (arrayRead f n)
  | 0 => Moves.pure _
  | n + 1 => hf.bind fun _ => (arrayRead_moves hf n).bind fun _ => Moves.pure _

theorem assert_moves (b : Bool) : Moves (M.assert b : M Reader Unit) := by
  cases b
  · exact Moves.panic
  · exact Moves.pure _

theorem vecLoop_moves {f : M Reader α} (hf : Moves f) (pred : Nat → α → σ → Bool × σ) (start : Nat) :
    ∀ mem st, Moves (vecLoop f pred start mem st)
  | 0, _ => hf.bind fun _ => Moves.panic
  | mem + 1, _ => hf.bind fun _ => Moves.get fun _ => (assert_moves _).bind fun _ =>
      Moves.ite (Moves.pure _) ((vecLoop_moves hf pred start mem _).bind fun _ => Moves.pure _)

theorem vecLoop_eats {f : M Reader α} (hm : Moves f) (hf : Eats f) (pred : Nat → α → σ → Bool × σ) (start : Nat) :
    ∀ mem st, Eats (vecLoop f pred start mem st)
  | 0, _ => hf.bind_left hm fun _ => Moves.panic
  | mem + 1, _ => hf.bind_left hm fun _ => Moves.get fun _ => (assert_moves _).bind fun _ =>
      Moves.ite (Moves.pure _) ((vecLoop_moves hm pred start mem _).bind fun _ => Moves.pure _)

theorem end_moves : Moves «end» := by
  intro r a r' hr he
  obtain ⟨b, r1, h1, h2, h3, h4, h5, h6⟩ := end_in hr
  rw [h1] at he
  simp at he
  obtain ⟨rfl, rfl⟩ := he
  refine ⟨?_, h2, h4, by omega⟩
  cases b
  · exact (h6 rfl).mono (Stage.le_any _)
  · exact (h5 rfl).mono (Stage.le_any _)

theorem vecEndLoop_moves {f : M Reader α} (hf : Moves f) : ∀ mem, Moves (vecEndLoop f mem)
  | 0 => end_moves.bind fun _ => Moves.ite (Moves.pure _) (hf.bind fun _ => Moves.panic)
  | mem + 1 => end_moves.bind fun _ => Moves.ite (Moves.pure _) (hf.bind fun _ =>
      (vecEndLoop_moves hf mem).bind fun _ => Moves.pure _)

theorem withCapacity_moves (mem : Nat) (cap : Option Nat) : Moves (withCapacity mem cap) := by
  cases cap with
  | none => exact Moves.pure _
  | some n => exact assert_moves _

theorem vecWithPredicate_moves {f : M Reader α} (hf : Moves f) (mem size : Nat) (cap : Option Nat)
    (pred : Nat → α → σ → Bool × σ) (init : σ) : Moves (vecWithPredicate mem size cap f pred init) :=
  Moves.ite (Moves.pure _) ((withCapacity_moves _ _).bind fun _ => Moves.get fun _ => vecLoop_moves hf _ _ _ _)

theorem vecRead_moves {f : M Reader α} (hf : Moves f) (mem size : Nat) (l : Limit α σ) :
    Moves (vecRead mem size f l) := by
  cases l with
  | count n => exact Moves.ite (Moves.pure _) (vecWithPredicate_moves hf _ _ _ _ _)
  | «until» p st => exact vecWithPredicate_moves hf _ _ _ _ _
  | bytes n => exact (usize_moves _).bind fun _ => Moves.ite (Moves.pure _) (vecWithPredicate_moves hf _ _ _ _ _)
  | bits n => exact Moves.ite (Moves.pure _) (vecWithPredicate_moves hf _ _ _ _ _)
  | «end» => exact Moves.ite (Moves.pure _) (vecEndLoop_moves hf _)

theorem limitEval_moves (l : LimitE) (env : Env) : Moves (l.eval env) := by
  cases l with
  | count n => exact (toUsize_moves _).bind fun _ => Moves.pure _
  | «until» p => exact Moves.pure _
  | bytes n => exact (toUsize_moves _).bind fun _ => Moves.pure _
  | bits n => exact (toUsize_moves _).bind fun _ => Moves.pure _
  | «end» => exact Moves.pure _

theorem readExact_moves (n : Nat) : Moves (readExact n) := by
  intro r a r' hr he
  by_cases hb : r.inner.pos ≤ r.inner.data.length
  · have hin : (adv 3 0 r).In .any := ⟨hr.healthy, hr.wf, hr.sync, hr.inside, hr.past, hr.peek⟩
    rw [readExact_run hr.healthy hb] at he
    split at he
    · obtain ⟨k, r1, e1, e2⟩ := M.bind_eq_ok he
      simp at e2
    · by_cases h0 : n = 0
      · by_cases hnp : r.NoPeek
        · have hg : (adv 3 0 r).Good := ⟨hin.healthy, hin.wf, hnp, hin.sync, hin.inside⟩
          obtain ⟨k1, k2, k3, k4, _⟩ := readBytes_follows (fixed := true) n .lsb0 _ a r' hg he
          exact ⟨⟨k1.healthy, k1.wf, k1.sync, k1.inside, by simp [Stage.any], by simp [Stage.any]⟩, k2, k3, k4⟩
        · obtain ⟨b, hl⟩ : ∃ b, r.leftover = some (.byte b) := by
            simpa [NoPeek] using hnp
          subst h0
          unfold readBytes at he
          rw [M.get_bind_run] at he
          simp [adv, hl, readBytesLeftover] at he
      · exact (Prim.readBytes_delivers .lsb0 (k := n) (by omega)).moves (by omega) (adv 3 0 r) a r' hin he
  · rw [readExact_beyond hr.healthy hb] at he
    simp at he

theorem dispatch_moves {sel : Option Nat} {arm : Nat → M Reader Val} (h : ∀ i, Moves (arm i)) :
    Moves (dispatch sel arm) := by
  cases sel with
  | none => exact Moves.throw _
  | some i => exact (h i).bind fun _ => Moves.pure _

theorem dispatch_eats {sel : Option Nat} {arm : Nat → M Reader Val} (hm : ∀ i, Moves (arm i))
    (h : ∀ i, Eats (arm i)) : Eats (dispatch sel arm) := by
  cases sel with
  | none => exact Eats.throw _
  | some i => exact (h i).bind_left (hm i) fun _ => Moves.pure _

mutual

theorem Ty.moves (m : Machine) : ∀ (x : Ty) (env : Env), x.Runs → Moves (x.read m env)
  | .prim _ c, env, h => by
    simp only [Ty.read]
    simp only [Ty.Runs] at h
    exact h env
  | .option x, env, h => by
    simp only [Ty.read]
    exact (Ty.moves m x env h).bind fun _ => Moves.pure _
  | .array n x, env, h => by
    simp only [Ty.read]
    exact (arrayRead_moves (Ty.moves m x env h) n).bind fun _ => Moves.pure _
  | .pair a b, env, h => by
    simp only [Ty.read]
    exact (Ty.moves m a env h.1).bind fun _ => (Ty.moves m b env h.2).bind fun _ => Moves.pure _
  | .vec size l x, env, h => by
    simp only [Ty.read]
    exact (limitEval_moves l env).bind fun _ => (vecRead_moves (Ty.moves m x env h) _ _ _).bind fun _ => Moves.pure _
  | .bytes n _, env, h => by
    simp only [Ty.read]
    exact (toUsize_moves _).bind fun k => (readExact_moves k).bind fun _ => Moves.pure _
  | .struct args sk magic fs, env, h => by
    simp only [Ty.read]
    rw [h.1, seekRead_none, M.pure_bind]
    exact (magicRead_moves _ _).bind fun _ => Fields.moves m fs _ h.2
  | .enum args magic id _ vs, env, h => by
    simp only [Ty.read]
    refine (magicRead_moves _ _).bind fun _ => ?_
    cases id with
    | ctx e => exact dispatch_moves fun i => Variants.moves m vs _ _ _ i h.2
    | typed _ c => exact (h.1 _).bind fun x => dispatch_moves fun i => Variants.moves m vs _ _ _ i h.2

theorem Fields.moves (m : Machine) : ∀ (fs : Fields) (env : Env), fs.Runs → Moves (fs.read m env)
  | .nil, env, _ => by
    simp only [Fields.read]
    exact Moves.pure _
  | .cons a x rest, env, h => by
    simp only [Fields.read]
    exact (Attrs.read_moves h.1 _ (fun env => Ty.moves m x env h.2.1) env).bind fun v =>
      (Fields.moves m rest _ h.2.2).bind fun _ => Moves.pure _
  | .temp a x _ rest, env, h => by
    simp only [Fields.read]
    exact (Attrs.read_moves h.1 _ (fun env => Ty.moves m x env h.2.1) env).bind fun v => Fields.moves m rest _ h.2.2

theorem Fields.storedMoves (m : Machine) : ∀ (fs : Fields) (env : Env) (x : Val), fs.Runs →
    Moves (fs.readStored m env x)
  | .nil, env, x, _ => by
    simp only [Fields.readStored]
    exact Moves.pure _
  | .cons _ _ rest, env, x, h => by
    simp only [Fields.readStored]
    exact (Fields.moves m rest _ h.2.2).bind fun _ => Moves.pure _
  | .temp _ _ _ rest, env, x, h => by
    simp only [Fields.readStored]
    exact Fields.moves m rest _ h.2.2

theorem Variants.moves (m : Machine) : ∀ (vs : Variants) (env : Env) (x : Val) (typed : Bool) (i : Nat),
    vs.Runs → Moves (vs.readAt m env x typed i)
  | .nil, _, _, _, _, _ => by
    simp only [Variants.readAt]
    exact Moves.panic
  | .cons a fs _, env, x, typed, 0, h => by
    simp only [Variants.readAt]
    exact Moves.ite (Fields.storedMoves m fs env x h.1) (Fields.moves m fs env h.1)
  | .cons _ _ rest, env, x, typed, i + 1, h => by
    simp only [Variants.readAt]
    exact Variants.moves m rest env x typed i h.2

end

mutual

theorem Ty.eats (m : Machine) : ∀ (x : Ty) (env : Env), x.Runs → x.Hungry → Eats (x.read m env)
  | .prim _ c, env, _, h => by
    simp only [Ty.read]
    simp only [Ty.Hungry] at h
    exact h env
  | .option x, env, hr, h => by
    simp only [Ty.read]
    exact (Ty.eats m x env hr h).bind_left (Ty.moves m x env hr) fun _ => Moves.pure _
  | .array 0 x, env, hr, h => absurd rfl h.1
  | .array (n + 1) x, env, hr, h => by
    have hm := Ty.moves m x env hr
    simp only [Ty.read, arrayRead]
    exact (Eats.bind_left (Ty.eats m x env hr h.2) hm fun _ => (arrayRead_moves hm n).bind fun _ => Moves.pure _).bind_left
      (hm.bind fun _ => (arrayRead_moves hm n).bind fun _ => Moves.pure _) fun _ => Moves.pure _
  | .pair a b, env, hr, h => by
    have hma := Ty.moves m a env hr.1
    have hmb := Ty.moves m b env hr.2
    simp only [Ty.read]
    rcases h with h | h
    · exact (Ty.eats m a env hr.1 h).bind_left hma fun _ => hmb.bind fun _ => Moves.pure _
    · exact Eats.bind_right hma fun _ => (Ty.eats m b env hr.2 h).bind_left hmb fun _ => Moves.pure _
  | .vec size l x, env, hr, h => by
    obtain ⟨hz, ⟨p, rfl⟩, hx⟩ := h
    have hm := Ty.moves m x env hr
    simp only [Ty.read, LimitE.eval, M.pure_bind, vecRead, vecWithPredicate]
    rw [if_neg hz]
    exact Eats.bind_left (Eats.bind_right (withCapacity_moves _ _) fun _ => Eats.get fun _ =>
      vecLoop_eats hm (Ty.eats m x env hr hx) _ _ _ _)
      ((withCapacity_moves _ _).bind fun _ => Moves.get fun _ => vecLoop_moves hm _ _ _ _) fun _ => Moves.pure _
  | .bytes _ _, _, _, h => h.elim
  | .struct args sk magic fs, env, hr, h => by
    simp only [Ty.read]
    rw [hr.1, seekRead_none, M.pure_bind]
    rcases h with h | h
    · exact (magicRead_eats _ h).bind_left (magicRead_moves _ _) fun _ => Fields.moves m fs _ hr.2
    · exact Eats.bind_right (magicRead_moves _ _) fun _ => Fields.eats m fs _ hr.2 h
  | .enum args magic id _ vs, env, hr, h => by
    simp only [Ty.read]
    cases id with
    | ctx e =>
      have hd := fun i => Variants.moves m vs { ctx := args env } (e { ctx := args env }) false i hr.2
      rcases h with h | h | h
      · exact (magicRead_eats _ h).bind_left (magicRead_moves _ _) fun _ => dispatch_moves hd
      · exact h.elim
      · exact Eats.bind_right (magicRead_moves _ _) fun _ => dispatch_eats hd fun i => Variants.eats m vs _ _ _ i hr.2 h
    | typed _ c =>
      have hd := fun x i => Variants.moves m vs { ctx := args env } x true i hr.2
      rcases h with h | h | h
      · exact (magicRead_eats _ h).bind_left (magicRead_moves _ _) fun _ => (hr.1 _).bind fun x => dispatch_moves (hd x)
      · exact Eats.bind_right (magicRead_moves _ _) fun _ => (h _).bind_left (hr.1 _) fun x => dispatch_moves (hd x)
      · exact Eats.bind_right (magicRead_moves _ _) fun _ => Eats.bind_right (hr.1 _) fun x =>
          dispatch_eats (hd x) fun i => Variants.eats m vs _ _ _ i hr.2 h

theorem Fields.eats (m : Machine) : ∀ (fs : Fields) (env : Env), fs.Runs → fs.Hungry → Eats (fs.read m env)
  | .nil, _, _, h => h.elim
  | .cons a x rest, env, hr, h => by
    have hx := fun env => Ty.moves m x env hr.2.1
    have ha := Attrs.read_moves hr.1 m.native hx env
    simp only [Fields.read]
    rcases h with h | h | h
    · exact (Attrs.read_eats hr.1 _ hx (.inl h) env).bind_left ha fun v =>
        (Fields.moves m rest _ hr.2.2).bind fun _ => Moves.pure _
    · exact (Attrs.read_eats hr.1 _ hx (.inr ⟨h.1, fun env => Ty.eats m x env hr.2.1 h.2⟩) env).bind_left ha fun v =>
        (Fields.moves m rest _ hr.2.2).bind fun _ => Moves.pure _
    · exact Eats.bind_right ha fun v => (Fields.eats m rest _ hr.2.2 h).bind_left (Fields.moves m rest _ hr.2.2)
        fun _ => Moves.pure _
  | .temp a x _ rest, env, hr, h => by
    have hx := fun env => Ty.moves m x env hr.2.1
    have ha := Attrs.read_moves hr.1 m.native hx env
    simp only [Fields.read]
    rcases h with h | h | h
    · exact (Attrs.read_eats hr.1 _ hx (.inl h) env).bind_left ha fun v => Fields.moves m rest _ hr.2.2
    · exact (Attrs.read_eats hr.1 _ hx (.inr ⟨h.1, fun env => Ty.eats m x env hr.2.1 h.2⟩) env).bind_left ha fun v =>
        Fields.moves m rest _ hr.2.2
    · exact Eats.bind_right ha fun v => Fields.eats m rest _ hr.2.2 h

theorem Variants.eats (m : Machine) : ∀ (vs : Variants) (env : Env) (x : Val) (typed : Bool) (i : Nat),
    vs.Runs → vs.Hungry → Eats (vs.readAt m env x typed i)
  | .nil, _, _, _, _, _, _ => by
    simp only [Variants.readAt]
    exact Eats.panic
  | .cons a fs _, env, x, typed, 0, hr, h => by
    simp only [Variants.readAt, h.1, Bool.false_and, Bool.false_eq_true, if_false]
    exact Fields.eats m fs env hr.1 h.2.1
  | .cons _ _ rest, env, x, typed, i + 1, hr, h => by
    simp only [Variants.readAt]
    exact Variants.eats m rest env x typed i hr.2 h.2.2

end

/-! ### the structural condition -/

theorem select_lt {env : Env} {x : Val} {vs : Variants} {i : Nat} (h : vs.select env x = some i) :
    i < vs.toList.length := by
  obtain ⟨a, ha, _⟩ := Variants.select_some.mp h
  exact (List.getElem?_eq_some_iff.mp ha).1

theorem Stage.afterMagic_le (magic : List Byte) : (Stage.afterMagic magic s).le s := by
  unfold Stage.afterMagic
  split
  · exact Stage.le_refl _
  · exact Stage.fresh_le _

theorem Stage.afterSeek_le {sk : Option (Env → Option SeekFrom)} (hs : s.le t)
    (h : ∀ f, sk = some f → t.past = true) : (Stage.afterSeek sk s).le t := by
  cases sk with
  | none => exact hs
  | some f => exact ⟨fun _ => h f rfl, by simp [Stage.afterSeek]⟩

theorem Stage.afterMagic_mono (magic : List Byte) (h : s.le t) : (Stage.afterMagic magic s).le t :=
  (Stage.afterMagic_le magic).trans h

theorem Stage.afterPad_mono {pad : Option (Env → Int)} (hs : s.le t) (h : pad.isSome → t.past = true) :
    (Stage.afterPad pad s).le t := by
  cases pad with
  | none => exact hs
  | some f => exact ⟨fun _ => h rfl, hs.2⟩

theorem Attrs.Tame.safe {a : Attrs} (h : a.Tame t) (hs : s.le t) {ty : Env → Stage → Stage → (Val → Prop) → Prop}
    (hty : ∀ env s', Stage.le s' t → ty env s' t fun _ => True) (env : Env) :
    a.Safe ty env s t fun _ => True := by
  have hl : Stage.le (.afterPad a.padBefore (.afterMagic a.magic (.afterSeek a.seek s))) t :=
    Stage.afterPad_mono (Stage.afterMagic_mono _ (Stage.afterSeek_le hs fun f hf => (h.1 f hf).1)) h.2.1
  exact ⟨fun f hf => (h.1 f hf).2 env, fun off _ => ⟨t, fun _ => ⟨fun _ => True, hty _ _ hl, fun _ _ _ _ _ => trivial⟩,
    fun _ => ⟨hl, fun _ => trivial⟩, Stage.afterPad_mono (Stage.le_refl _) h.2.2⟩⟩

mutual

theorem Ty.Tame.safe {m : Machine} : ∀ (x : Ty) (env : Env) (s s' : Stage), x.Tame m len s → Stage.le s' s →
    x.Safe m len env s' s fun _ => True
  | .prim _ c, env, s, s', h, hs => by
    simp only [Ty.Safe]
    exact (h env).mono hs (Stage.le_refl _) fun _ h => h
  | .option x, env, s, s', h, hs => by
    simp only [Ty.Safe]
    exact Ty.Tame.safe x env s s' h hs
  | .array n x, env, s, s', h, hs => by
    simp only [Ty.Safe]
    exact ⟨s, s, _, Ty.Tame.safe x env s s h (Stage.le_refl _), hs, Stage.le_refl _, Stage.le_refl _, fun _ => hs,
      fun _ _ _ => trivial⟩
  | .pair a b, env, s, s', h, hs => by
    simp only [Ty.Safe]
    exact ⟨s, _, Ty.Tame.safe a env s s' h.1 hs, fun _ _ => Ty.Tame.safe b env s s h.2 (Stage.le_refl _)⟩
  | .vec size l x, env, s, s', h, hs => by
    simp only [Ty.Safe]
    have hx := Ty.Tame.safe x env _ _ h.2.2 (Stage.le_refl _)
    refine ⟨fun h0 => absurd h0 h.1, fun _ => ⟨_, _, _, hx, ?_, fun _ _ => trivial⟩⟩
    have hl := h.2.1
    cases l with
    | count n => exact ⟨hl.1 env, Ty.moves m x env hl.2, hs, Stage.le_refl _, Stage.le_refl _, fun _ => hs⟩
    | «until» p => exact ⟨Ty.moves m x env hl.1, Ty.eats m x env hl.1 hl.2, hs, Stage.le_refl _, Stage.le_refl _⟩
    | bytes n => exact ⟨hl.1 env, Ty.moves m x env hl.2.1, Ty.eats m x env hl.2.1 hl.2.2, hs, Stage.le_refl _,
        Stage.le_refl _, fun _ => hs⟩
    | bits n => exact ⟨Ty.moves m x env hl.1, Ty.eats m x env hl.1 hl.2, hs, Stage.le_refl _,
        Stage.le_refl _, fun _ => hs⟩
    | «end» => exact ⟨Ty.eats m x env hl.1 hl.2, ⟨by simp, fun _ => rfl⟩, hs.1, fun h => h⟩
  | .bytes n _, env, s, s', h, hs => by
    simp only [Ty.Safe]
    refine ⟨?_, (h.2 env).1, fun hp => (h.2 env).2 (hs.2 hp), fun _ _ => trivial⟩
    cases h' : s'.past with
    | false => rfl
    | true => rw [← hs.1 h', h.1]
  | .struct args sk magic fs, env, s, s', h, hs => by
    simp only [Ty.Safe]
    refine ⟨fun f hf => (h.1 f hf).2 _, Fields.Tame.safe fs _ s _ h.2 (Stage.afterMagic_mono _ (Stage.afterSeek_le hs fun f hf => (h.1 f hf).1))⟩
  | .enum args magic id st vs, env, s, s', h, hs => by
    simp only [Ty.Safe]
    cases id with
    | ctx e => exact fun i hi => Variants.Tame.safe vs _ _ _ i s _ h.2 (Stage.afterMagic_mono _ hs) (select_lt hi)
    | typed sz c => exact ⟨s, fun _ => True, (h.1 _).mono (Stage.afterMagic_mono _ hs) (Stage.le_refl _) fun _ h => h,
        fun x _ i hi => Variants.Tame.safe vs _ _ _ i s _ h.2 (Stage.le_refl _) (select_lt hi)⟩

theorem Fields.Tame.safe {m : Machine} : ∀ (fs : Fields) (env : Env) (s s' : Stage), fs.Tame m len s →
    Stage.le s' s → fs.Safe m len env s' s fun _ => True
  | .nil, _, s, s', _, hs => by
    simp only [Fields.Safe]
    exact ⟨hs, trivial⟩
  | .cons a x rest, env, s, s', h, hs => by
    simp only [Fields.Safe]
    exact ⟨s, fun _ => True, Attrs.Tame.safe h.1 hs (fun env s' hs => Ty.Tame.safe x env s s' h.2.1 hs) env,
      fun v _ => Fields.Tame.safe rest _ s s h.2.2 (Stage.le_refl _)⟩
  | .temp a x _ rest, env, s, s', h, hs => by
    simp only [Fields.Safe]
    exact ⟨s, fun _ => True, Attrs.Tame.safe h.1 hs (fun env s' hs => Ty.Tame.safe x env s s' h.2.1 hs) env,
      fun v _ => Fields.Tame.safe rest _ s s h.2.2 (Stage.le_refl _)⟩

theorem Fields.Tame.safeStored {m : Machine} : ∀ (fs : Fields) (env : Env) (x : Val) (s s' : Stage), fs.Tame m len s →
    Stage.le s' s → fs.SafeStored m len env x s' s fun _ => True
  | .nil, _, _, s, s', _, hs => by
    simp only [Fields.SafeStored]
    exact ⟨hs, trivial⟩
  | .cons a x rest, env, _, s, s', h, hs => by
    simp only [Fields.SafeStored]
    exact Fields.Tame.safe rest _ s s' h.2.2 hs
  | .temp a x _ rest, env, _, s, s', h, hs => by
    simp only [Fields.SafeStored]
    exact Fields.Tame.safe rest _ s s' h.2.2 hs

theorem Variants.Tame.safe {m : Machine} : ∀ (vs : Variants) (env : Env) (x : Val) (typed : Bool) (i : Nat)
    (s s' : Stage), vs.Tame m len s → Stage.le s' s → i < vs.toList.length →
    vs.SafeAt m len env x typed i s' s fun _ => True
  | .nil, _, _, _, _, _, _, _, _, hi => absurd hi (by simp [Variants.toList])
  | .cons a fs _, env, x, typed, 0, s, s', h, hs, _ => by
    simp only [Variants.SafeAt]
    split
    · exact Fields.Tame.safeStored fs env x s s' h.1 hs
    · exact Fields.Tame.safe fs env s s' h.1 hs
  | .cons a fs rest, env, x, typed, i + 1, s, s', h, hs, hi => by
    simp only [Variants.SafeAt]
    exact Variants.Tame.safe rest env x typed i s s' h.2 hs (by simp [Variants.toList] at hi; omega)

end

/-! ### integers -/

theorem uint_delivers {native : Endian} {W : Nat} {ctx : IntCtx} (hW : 1 ≤ W)
    (h1 : 1 ≤ (ctx.shape native W).2.1) (h2 : (ctx.shape native W).2.1 ≤ 8 * W) :
    Prim.Delivers (ctx.shape native W).2.2 (ctx.shape native W).2.1 (uintCodec native W ctx).read
      (fun l => .num (fieldValue (ctx.shape native W).1 (ctx.shape native W).2.2 l)) := by
  have h := Prim.readUnsigned_delivers native ctx hW
  simp only at h
  exact (h h1 h2).map fun l r _ => rfl

theorem uint_panicless {native e : Endian} {W n : Nat} {ctx : IntCtx} {o : Order} (hW : 1 ≤ W)
    (hs : ctx.shape native W = (e, n, o)) (h1 : 1 ≤ n) (h2 : n ≤ 8 * W) :
    Panicless len s (uintCodec native W ctx).read .fresh fun v =>
      ∃ k : Nat, v = .num k ∧ (Prim.Dense e n o → k < 2 ^ n) := by
  have h := uint_delivers (native := native) (ctx := ctx) hW (by rw [hs]; exact h1) (by rw [hs]; exact h2)
  rw [hs] at h
  refine h.panicless h1 fun l hl => ⟨_, rfl, fun hd => ?_⟩
  have := Prim.fieldValue_dense_lt (e := e) (o := o) (l := l) (by rw [hl]; exact hd)
  rwa [hl] at this

theorem uint_moves {native e : Endian} {W n : Nat} {ctx : IntCtx} {o : Order} (hW : 1 ≤ W)
    (hs : ctx.shape native W = (e, n, o)) (h1 : 1 ≤ n) (h2 : n ≤ 8 * W) : Moves (uintCodec native W ctx).read := by
  have h := uint_delivers (native := native) (ctx := ctx) hW (by rw [hs]; exact h1) (by rw [hs]; exact h2)
  rw [hs] at h
  exact h.moves h1

theorem uint_eats {native e : Endian} {W n : Nat} {ctx : IntCtx} {o : Order} (hW : 1 ≤ W)
    (hs : ctx.shape native W = (e, n, o)) (h1 : 1 ≤ n) (h2 : n ≤ 8 * W) : Eats (uintCodec native W ctx).read := by
  have h := uint_delivers (native := native) (ctx := ctx) hW (by rw [hs]; exact h1) (by rw [hs]; exact h2)
  rw [hs] at h
  exact h.eats h1

/-! ### the entry points -/

theorem in_new (data : List Byte) (s : Stage) : (Reader.new { data := data }).In s := by
  have h := Reader.new_at data
  exact ⟨h.healthy, h.wf, h.sync, fun _ => h.bound, fun _ => h.bound, fun _ => h.noPeek⟩

theorem readFrom_panicless {f : M Reader α} {R : α → Prop} (hf : Panicless len s f t R) {data : List Byte} {off : Nat}
    (hd : data.length ≤ len) (ho : 8 * data.length < off → s.past = true) :
    (readFrom f off (Reader.new { data := data })).1 ≠ .panic := by
  unfold readFrom
  by_cases h0 : off = 0
  · simp only [h0, ne_eq, not_true_eq_false, if_false]
    exact (hf _ (in_new data s) hd).1
  · simp only [ne_eq, h0, not_false_eq_true, if_true]
    have hn := Reader.new_at data
    by_cases hl : off ≤ 8 * data.length
    · obtain ⟨r', hr, hs⟩ := skip_step (o := .msb0) (n := off) hn.healthy hn.wf hn.noPeek hn.sync
        (by rw [Reader.new_unread]; simpa using hl)
      rw [M.bind_ok hr]
      have hin := (in_new data .fresh).step hs (by omega) (by rw [Reader.new_unread]; simpa using hl)
      exact (hf _ (hin.mono (Stage.fresh_le _)) (by rw [hs.data]; exact hd)).1
    · have hp := skipBits_panicless (len := len) (s := .fresh) off .msb0
      refine ((hp.bind (R' := fun _ => True) (u := .any) fun _ _ => ?_) _ (in_new data _) hd).1
      refine hf.mono ⟨fun _ => ho (by omega), by simp [Stage.fresh]⟩ (Stage.le_any _) fun _ _ => trivial

end Deku
