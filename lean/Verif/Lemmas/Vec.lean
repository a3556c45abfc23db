import Verif.Lemmas.Containers

/-! # Vectors: predicates, sizes, the end of the input, the fast path -/

namespace Deku

open Reader Writer Coll

variable {α β σ : Type} {o : Order} {p : Nat} {I : Reader → Prop}

theorem readN_err {f : M Reader α} {n : Nat} {r r' : Reader} {e : DekuError} :
    readN f n r = (.err e, r') ↔
      ∃ k vs r1, k < n ∧ readN f k r = (.ok vs, r1) ∧ f r1 = (.err e, r') := by
  induction n generalizing r with
  | zero =>
    constructor
    · intro h; simp [readN] at h
    · rintro ⟨k, _, _, h, _⟩; omega
  | succ n ih =>
    constructor
    · intro h
      simp only [readN] at h
      cases hf : f r with
      | mk x r1 =>
        cases x with
        | ok a =>
          rw [M.bind_ok hf] at h
          cases hl : readN f n r1 with
          | mk y r2 =>
            cases y with
            | ok as => rw [M.bind_ok hl] at h; simp at h
            | err e' =>
              rw [M.bind_err hl] at h; simp at h
              rw [h.1, h.2] at hl
              obtain ⟨k, vs, r3, hk, hvs, he⟩ := ih.1 hl
              refine ⟨k + 1, a :: vs, r3, by omega, ?_, he⟩
              simp only [readN]
              rw [M.bind_ok hf, M.bind_ok hvs]; rfl
            | panic => rw [M.bind_panic hl] at h; simp at h
        | err e' =>
          rw [M.bind_err hf] at h; simp at h
          exact ⟨0, [], r, by omega, rfl, by rw [hf, h.1, h.2]⟩
        | panic => rw [M.bind_panic hf] at h; simp at h
    · rintro ⟨k, vs, r1, hk, hvs, he⟩
      cases k with
      | zero =>
        simp [readN] at hvs
        obtain ⟨_, rfl⟩ := hvs
        simp only [readN]
        rw [M.bind_err he]
      | succ k =>
        simp only [readN] at hvs
        obtain ⟨a, r2, h1, hvs⟩ := M.bind_eq_ok hvs
        obtain ⟨as, r3, h2, hvs⟩ := M.bind_eq_ok hvs
        simp at hvs
        obtain ⟨_, rfl⟩ := hvs
        simp only [readN]
        rw [M.bind_ok h1, M.bind_err (ih.2 ⟨k, as, r3, by omega, h2, he⟩)]

theorem readN_length {f : M Reader α} {n : Nat} {r r' : Reader} {vs : List α}
    (h : readN f n r = (.ok vs, r')) : vs.length = n := (Trace.of_readN h).1

theorem readN_trace {f : M Reader α} {r r' : Reader} {vs : List α} :
    readN f vs.length r = (.ok vs, r') ↔ ∃ t, Trace f r t r' ∧ t.map Prod.fst = vs := by
  constructor
  · intro h; exact (Trace.of_readN h).2
  · rintro ⟨t, ht, rfl⟩
    have := ht.readN
    rwa [List.length_map]

/-! ### predicates -/

theorem FirstMatch.cons_iff {pred : α → σ → Bool × σ} {s : σ} {v : α} {vs : List α} :
    FirstMatch pred s (v :: vs) ↔
      if (pred v s).1 = true then vs = [] else FirstMatch pred (pred v s).2 vs := by
  cases vs with
  | nil => simp only [FirstMatch]; by_cases h : (pred v s).1 = true <;> simp [h]
  | cons w vs => simp only [FirstMatch]; by_cases h : (pred v s).1 = true <;> simp [h]

theorem stopsAt_until {pred : α → σ → Bool × σ} {start : Nat} {s : σ} {t : List (α × Nat)}
    (ht : ∀ x ∈ t, start ≤ x.2) :
    StopsAt (fun _ v st => pred v st) start s t ↔ FirstMatch pred s (t.map Prod.fst) := by
  induction t generalizing s with
  | nil => exact Iff.rfl
  | cons x t ih =>
    obtain ⟨v, b⟩ := x
    rw [StopsAt.cons_iff, List.map_cons, FirstMatch.cons_iff]
    have := ht (v, b) List.mem_cons_self
    simp only [this, true_and]
    by_cases h : (pred v s).1 = true
    · simp [h]
    · simp only [if_neg h]
      exact ih fun x hx => ht x (List.mem_cons_of_mem _ hx)

theorem vecWithPredicate_none {f : M Reader α} {pred : Nat → α → σ → Bool × σ} {mem size : Nat}
    (hz : size ≠ 0) (s : σ) (r : Reader) :
    vecWithPredicate mem size none f pred s r = vecLoop f pred r.bitsRead mem s r := by
  simp only [vecWithPredicate, if_neg hz, withCapacity]
  rfl

theorem vecRead_until_ok {f : M Reader α} (hf : Forward I f) {pred : α → σ → Bool × σ} {s : σ}
    {mem size : Nat} (hz : size ≠ 0) {r r' : Reader} (hr : I r) {vs : List α} :
    vecRead mem size f (.until pred s) r = (.ok vs, r') ↔
      vs.length ≤ mem ∧ readN f vs.length r = (.ok vs, r') ∧ FirstMatch pred s vs := by
  simp only [vecRead, vecWithPredicate_none hz]
  rw [vecLoop_ok_iff, readN_trace]
  constructor
  · rintro ⟨t, ht, rfl, hs, hl⟩
    exact ⟨by simpa using hl, ⟨t, ht, rfl⟩, (stopsAt_until (ht.forward hf hr).1.2).1 hs⟩
  · rintro ⟨hl, ⟨t, ht, rfl⟩, hs⟩
    exact ⟨t, ht, rfl, (stopsAt_until (ht.forward hf hr).1.2).2 hs, by simpa using hl⟩

/-- Where the loop of a predicate fails: an element that fails after some that do not match. -/
theorem vecLoop_until_err {f : M Reader α} (hf : Forward I f) {pred : α → σ → Bool × σ}
    {start mem : Nat} {s : σ} {r r' : Reader} {e : DekuError} (hr : I r) (hs : start ≤ r.bitsRead)
    (h : vecLoop f (fun _ v st => pred v st) start mem s r = (.err e, r')) :
    ∃ vs r1, readN f vs.length r = (.ok vs, r1) ∧ NoMatch pred s vs ∧ f r1 = (.err e, r') := by
  induction mem generalizing r s with
  | zero =>
    simp only [vecLoop] at h
    cases hx : f r with
    | mk x r1 =>
      cases x with
      | ok a => rw [M.bind_ok hx] at h; simp at h
      | err e' =>
        rw [M.bind_err hx] at h; simp at h
        exact ⟨[], r, rfl, trivial, by rw [hx, h.1, h.2]⟩
      | panic => rw [M.bind_panic hx] at h; simp at h
  | succ mem ih =>
    simp only [vecLoop] at h
    cases hx : f r with
    | mk x r1 =>
      cases x with
      | ok a =>
        obtain ⟨hi, hb'⟩ := hf _ _ _ hr hx
        have hb : start ≤ r1.bitsRead := Nat.le_trans hs hb'
        rw [M.bind_ok hx, M.get_bind_run] at h
        simp only [hb, decide_true, M.assert_true_bind_run] at h
        by_cases hp : (pred a s).1 = true
        · simp [hp] at h
        · rw [if_neg hp] at h
          cases hl : vecLoop f (fun _ v st => pred v st) start mem (pred a s).2 r1 with
          | mk y r2 =>
            cases y with
            | ok as => rw [M.bind_ok hl] at h; simp at h
            | err e' =>
              rw [M.bind_err hl] at h; simp at h
              rw [h.1, h.2] at hl
              obtain ⟨vs, r3, hvs, hn, he⟩ := ih hi hb hl
              refine ⟨a :: vs, r3, ?_, ⟨by simpa using hp, hn⟩, he⟩
              simp only [List.length_cons, readN]
              rw [M.bind_ok hx, M.bind_ok hvs]; rfl
            | panic => rw [M.bind_panic hl] at h; simp at h
      | err e' =>
        rw [M.bind_err hx] at h; simp at h
        exact ⟨[], r, rfl, trivial, by rw [hx, h.1, h.2]⟩
      | panic => rw [M.bind_panic hx] at h; simp at h

/-- Enough memory: the predicate is met within it. -/
theorem vecLoop_until_calm {f : M Reader α} (hf : Forward I f) {pred : α → σ → Bool × σ}
    {start mem : Nat} {s : σ} {r : Reader} (hr : I r) (hs : start ≤ r.bitsRead)
    (h : (vecLoop f (fun _ v st => pred v st) start mem s r).1 = .panic) :
    (∃ vs r1, readN f vs.length r = (.ok vs, r1) ∧ NoMatch pred s vs ∧ (f r1).1 = .panic) ∨
    (∃ vs r1, readN f vs.length r = (.ok vs, r1) ∧ vs.length = mem + 1) := by
  induction mem generalizing r s with
  | zero =>
    simp only [vecLoop] at h
    cases hx : f r with
    | mk x r1 =>
      cases x with
      | ok a =>
        refine .inr ⟨[a], r1, ?_, rfl⟩
        simp only [List.length_cons, List.length_nil, readN]
        rw [M.bind_ok hx]; rfl
      | err e' => rw [M.bind_err hx] at h; simp at h
      | panic => exact .inl ⟨[], r, rfl, trivial, by rw [hx]⟩
  | succ mem ih =>
    simp only [vecLoop] at h
    cases hx : f r with
    | mk x r1 =>
      cases x with
      | ok a =>
        obtain ⟨hi, hb'⟩ := hf _ _ _ hr hx
        have hb : start ≤ r1.bitsRead := Nat.le_trans hs hb'
        rw [M.bind_ok hx, M.get_bind_run] at h
        simp only [hb, decide_true, M.assert_true_bind_run] at h
        by_cases hp : (pred a s).1 = true
        · simp [hp] at h
        · rw [if_neg hp] at h
          have hl : (vecLoop f (fun _ v st => pred v st) start mem (pred a s).2 r1).1 = .panic := by
            cases hl : vecLoop f (fun _ v st => pred v st) start mem (pred a s).2 r1 with
            | mk y r2 =>
              cases y with
              | ok as => rw [M.bind_ok hl] at h; simp at h
              | err e' => rw [M.bind_err hl] at h; simp at h
              | panic => rfl
          rcases ih hi hb hl with ⟨vs, r3, hvs, hn, he⟩ | ⟨vs, r3, hvs, hn⟩
          · refine .inl ⟨a :: vs, r3, ?_, ⟨by simpa using hp, hn⟩, he⟩
            simp only [List.length_cons, readN]
            rw [M.bind_ok hx, M.bind_ok hvs]; rfl
          · refine .inr ⟨a :: vs, r3, ?_, by simp [hn]⟩
            simp only [List.length_cons, readN]
            rw [M.bind_ok hx, M.bind_ok hvs]; rfl
      | err e' => rw [M.bind_err hx] at h; simp at h
      | panic => exact .inl ⟨[], r, rfl, trivial, by rw [hx]⟩

/-! ### sizes -/

theorem Trace.advances {f : M Reader α} (hf : Advances I f) {r r' : Reader} {t : List (α × Nat)}
    (h : Trace f r t r') (hr : I r) : r.bitsRead + t.length ≤ r'.bitsRead := by
  induction h with
  | nil => simp
  | cons h _ ih =>
    obtain ⟨hi, this⟩ := hf _ _ _ hr h
    have := ih hi
    simp only [List.length_cons]; omega

theorem Advances.forward {f : M Reader α} (h : Advances I f) : Forward I f :=
  fun r a r' hr he => ⟨(h r a r' hr he).1, Nat.le_of_lt (h r a r' hr he).2⟩

theorem stopsAt_size {f : M Reader α} {n start : Nat} {r r' : Reader} {t : List (α × Nat)}
    (h : Trace f r t r') (hs : StopsAt (sizePred n) start () t) : r'.bitsRead = start + n := by
  induction h with
  | nil => exact hs.elim
  | cons h ht ih =>
    obtain ⟨hb, hs⟩ := StopsAt.cons_iff.1 hs
    split at hs
    · subst hs
      cases ht
      rename_i hp
      simp [sizePred] at hp
      omega
    · exact ih hs

theorem stopsAt_size_of {f : M Reader α} (hf : Advances I f) {n start : Nat} {r r' : Reader}
    {t : List (α × Nat)} (h : Trace f r t r') (hr : I r) (hne : t ≠ []) (hs : start ≤ r.bitsRead)
    (hn : r'.bitsRead = start + n) : StopsAt (sizePred n) start () t := by
  induction h with
  | nil => simp at hne
  | @cons r r1 r' a t h ht ih =>
    obtain ⟨hi, h1⟩ := hf _ _ _ hr h
    rw [StopsAt.cons_iff]
    refine ⟨by omega, ?_⟩
    by_cases ht0 : t = []
    · subst ht0
      cases ht
      rw [if_pos (by simp [sizePred]; omega)]
    · have h2 := ht.advances hf hi
      have : 0 < t.length := List.length_pos_iff.2 ht0
      rw [if_neg (by simp [sizePred]; omega)]
      exact ih hi ht0 (by omega) hn

theorem vecRead_bits_eq {f : M Reader α} {mem size n : Nat} (hz : size ≠ 0) (h0 : n ≠ 0)
    (r : Reader) :
    vecRead (σ := σ) mem size f (.bits n) r = vecLoop f (sizePred n) r.bitsRead mem () r := by
  simp only [vecRead, if_neg h0]
  exact vecWithPredicate_none hz () r

theorem vecRead_bytes_eq {f : M Reader α} {mem size n : Nat} (hn : 8 * n < 2 ^ 64)
    (r : Reader) :
    vecRead (σ := σ) mem size f (.bytes n) r = vecRead (σ := σ) mem size f (.bits (8 * n)) r := by
  simp only [vecRead, usize, Nat.mul_comm n 8, if_pos hn]
  rfl

theorem vecRead_bits_ok {f : M Reader α} {mem size n : Nat} (hz : size ≠ 0) {r r' : Reader}
    {vs : List α} (h : vecRead (σ := σ) mem size f (.bits n) r = (.ok vs, r')) :
    readN f vs.length r = (.ok vs, r') ∧ r'.bitsRead = r.bitsRead + n := by
  by_cases h0 : n = 0
  · subst h0
    simp [vecRead] at h
    obtain ⟨rfl, rfl⟩ := h
    exact ⟨rfl, rfl⟩
  · rw [vecRead_bits_eq hz h0, vecLoop_ok_iff] at h
    obtain ⟨t, ht, hm, hs, _⟩ := h
    exact ⟨readN_trace.2 ⟨t, ht, hm⟩, stopsAt_size ht hs⟩

theorem vecRead_bits_iff {f : M Reader α} (hf : Advances I f) {mem size n : Nat} (hz : size ≠ 0)
    (hm : n ≤ mem) {r r' : Reader} (hr : I r) {vs : List α} :
    vecRead (σ := σ) mem size f (.bits n) r = (.ok vs, r') ↔
    readN f vs.length r = (.ok vs, r') ∧ r'.bitsRead = r.bitsRead + n := by
  refine ⟨vecRead_bits_ok hz, ?_⟩
  rintro ⟨h1, h2⟩
  obtain ⟨t, ht, hmap⟩ := readN_trace.1 h1
  have hadv := ht.advances hf hr
  by_cases h0 : n = 0
  · subst h0
    have : t = [] := List.eq_nil_of_length_eq_zero (by omega)
    subst this
    cases ht
    simp [vecRead, ← hmap]
  · rw [vecRead_bits_eq hz h0, vecLoop_ok_iff]
    refine ⟨t, ht, hmap, stopsAt_size_of hf ht hr ?_ (Nat.le_refl _) h2, by omega⟩
    rintro rfl
    cases ht
    omega

/-! ### to the end -/

theorem end_live {r : Reader} (hr : r.Live p) (o : Order) :
    ∃ r1, Reader.end r = (.ok (decide (r.unread o = [])), r1) ∧ r1.Live p ∧
      (∀ o, r1.unread o = r.unread o) ∧ r1.bitsRead = r.bitsRead ∧ r1.inner.data = r.inner.data ∧
      (r.unread o = [] → r1.NoPeek) := by
  obtain ⟨r1, e, hh, hd, hb, hu, hw, _, hpos, _, hsame⟩ := end_spec hr.healthy
  obtain ⟨hsync, hbound⟩ := hpos hr.bound
  have hiff : (r.unreadMsb = [] ∧ r.leftover = none) ↔ r.unread o = [] := by
    have hlen := length_unread o r
    have hlen' : r.unreadMsb.length = _ := length_unread .msb0 r
    rw [← List.length_eq_zero_iff, ← List.length_eq_zero_iff (l := r.unread o), hlen, hlen']
    rcases hl : r.leftover with _ | (b | l)
    · simp
    · have : r.rest.length = 8 := by simp [Reader.rest, hl, leftoverBits]
      simp only [reduceCtorEq, and_false, false_iff]; omega
    · have := hr.wf l hl
      have : r.rest.length = l.length := by simp [Reader.rest, hl, leftoverBits]
      simp only [reduceCtorEq, and_false, false_iff]; omega
  refine ⟨r1, by rw [e, decide_eq_decide.2 hiff], ⟨hh, hw hr.wf, ?_, by rw [hd]; exact hbound, ?_⟩,
    hu, hb, hd, ?_⟩
  · have := hr.sync
    simp only [Synced] at this ⊢
    omega
  · rw [hb]; exact hr.phase
  · intro h b hl
    have h1 : r1.unread .msb0 = [] := by rw [hu]; exact (hiff.2 h).1
    have := congrArg List.length h1
    rw [length_unread] at this
    simp [Reader.rest, hl, leftoverBits] at this

/-- What a successful `read_all` has done: the elements are those found one after the other in the
unread bits, and nothing is left. -/
theorem vecEndLoop_ok {f : M Reader α} (hf : ∀ q, PeekStrict o q f) {mem : Nat} {r r' : Reader}
    {vs : List α} (hr : r.Live p) (h : vecEndLoop f mem r = (.ok vs, r')) :
    ReadsList o f p (r.unread o) vs ∧ r'.unread o = [] ∧ r'.At (p + (r.unread o).length) ∧
      r'.bitsRead = r.bitsRead + (r.unread o).length ∧ r'.inner.data = r.inner.data ∧
      vs.length ≤ (r.unread o).length := by
  induction mem generalizing p r vs with
  | zero =>
    simp only [vecEndLoop] at h
    obtain ⟨r1, e, hl, hu, hb, hd, hp⟩ := end_live hr o
    rw [M.bind_ok e] at h
    by_cases h0 : r.unread o = []
    · simp [h0] at h
      obtain ⟨rfl, rfl⟩ := h
      rw [h0]
      exact ⟨.nil p, by rw [hu, h0], hl.at (hp h0), by simpa using hb, hd, Nat.le_refl _⟩
    · simp only [h0, decide_false, Bool.false_eq_true, if_false] at h
      obtain ⟨a, r2, _, h⟩ := M.bind_eq_ok h
      simp at h
  | succ mem ih =>
    simp only [vecEndLoop] at h
    obtain ⟨r1, e, hl, hu, hb, hd, hp⟩ := end_live hr o
    rw [M.bind_ok e] at h
    by_cases h0 : r.unread o = []
    · simp [h0] at h
      obtain ⟨rfl, rfl⟩ := h
      rw [h0]
      exact ⟨.nil p, by rw [hu, h0], hl.at (hp h0), by simpa using hb, hd, Nat.le_refl _⟩
    · simp only [h0, decide_false, Bool.false_eq_true, if_false] at h
      obtain ⟨a, r2, h1, h⟩ := M.bind_eq_ok h
      obtain ⟨as, r3, h2, h⟩ := M.bind_eq_ok h
      simp at h
      obtain ⟨rfl, rfl⟩ := h
      obtain ⟨n, hn1, hn, hR⟩ := hf p r1 a r2 hl h1
      obtain ⟨_, s⟩ := hR.run hl hn h1
      have hat := hl.step s (.inr hn1)
      obtain ⟨hL, hE, hA, hB, hD, hlen⟩ := ih hat.live h2
      rw [s.unread, hu] at hL hA hB
      rw [hu] at hn hR
      have hx : (r.unread o) = (r.unread o).take n ++ (r.unread o).drop n :=
        (List.take_append_drop ..).symm
      have hlt : ((r.unread o).take n).length = n := by rw [List.length_take, Nat.min_eq_left hn]
      rw [List.length_drop] at hA hB
      refine ⟨?_, hE, ?_, ?_, hD.trans (s.data.trans hd), ?_⟩
      · rw [hx]
        refine .cons hR.reads ?_
        rw [hlt]; exact hL
      · exact hA.congr (by omega)
      · rw [hB, s.bitsRead, hb]; omega
      · rw [s.unread, hu, List.length_drop] at hlen
        simp only [List.length_cons]; omega

/-- Elements whose bits are found one after the other, also when the next byte has been peeked. -/
inductive PeekReadsList (o : Order) (f : M Reader α) : Nat → List Bool → List α → Prop
  | nil (p : Nat) : PeekReadsList o f p [] []
  | cons {p : Nat} {x xs : List Bool} {a : α} {as : List α} (h : PeekReads o p f x a) (hx : x ≠ [])
      (ht : PeekReadsList o f (p + x.length) xs as) : PeekReadsList o f p (x ++ xs) (a :: as)

theorem PeekReadsList.run {f : M Reader α} {bits : List Bool} {vs : List α}
    (h : PeekReadsList o f p bits vs) {mem : Nat} (hm : vs.length ≤ mem) {r : Reader}
    (hr : r.Live p) (hu : r.unread o = bits) :
    ∃ r', vecEndLoop f mem r = (.ok vs, r') ∧ r'.unread o = [] ∧
      r'.bitsRead = r.bitsRead + bits.length := by
  induction h generalizing mem r with
  | nil p =>
    obtain ⟨r1, e, hl, hu1, hb, hd, hp⟩ := end_live hr o
    refine ⟨r1, ?_, by rw [hu1, hu], by simpa using hb⟩
    cases mem <;>
    · simp only [vecEndLoop]
      rw [M.bind_ok e]
      simp [hu]
  | @cons p x xs a as h hx ht ih =>
    obtain ⟨mem, rfl⟩ : ∃ m, mem = m + 1 := ⟨mem - 1, by simp at hm; omega⟩
    obtain ⟨r1, e, hl, hu1, hb, hd, hp⟩ := end_live hr o
    have hne : r.unread o ≠ [] := by rw [hu]; simp [hx]
    obtain ⟨r2, e2, s⟩ := h r1 xs hl (by rw [hu1, hu])
    have hat := hl.step s (.inr (List.length_pos_iff.2 hx))
    obtain ⟨r3, e3, h3, hb3⟩ := ih (by simpa using hm) hat.live (by
      rw [s.unread, hu1, hu, List.drop_left])
    refine ⟨r3, ?_, h3, ?_⟩
    · simp only [vecEndLoop]
      rw [M.bind_ok e]
      simp only [hne, decide_false, Bool.false_eq_true, if_false]
      rw [M.bind_ok e2, M.bind_ok e3]; rfl
    · rw [hb3, s.bitsRead, hb, List.length_append]; omega

/-! ### integers as elements -/

theorem Prim.Delivers.advances {n : Nat} {f : M Reader α} {val : List Bool → α}
    (h : Prim.Delivers o n f val) (h1 : 1 ≤ n) : Advances Usable f := by
  intro r a r' hr he
  by_cases hn : n ≤ (r.unread o).length
  · obtain ⟨r1, e1, s1⟩ := (h r hr.1 hr.2).1 hn
    rw [he] at e1; simp at e1
    rw [e1.2]
    exact ⟨⟨s1.healthy, s1.wf⟩, by rw [s1.bitsRead]; omega⟩
  · obtain ⟨k, r1, e1, _⟩ := (h r hr.1 hr.2).2 hn
    rw [he] at e1; simp at e1

/-- The readers a local parser can meet. -/
def Reader.Reached (r : Reader) : Prop := (∃ p, r.At p) ∨ r.Past

theorem Local.forward {f : M Reader α} (h : ∀ q, Local o q f) : Forward Reached f := by
  intro r a r' hr he
  rcases hr with ⟨q, hr⟩ | hr
  · rcases (h q).here r a r' hr he with ⟨n, hn, hR⟩ | ⟨hp, hd⟩
    · obtain ⟨_, s⟩ := hR.run hr hn he
      exact ⟨.inl ⟨_, hr.step s⟩, by rw [s.bitsRead]; omega⟩
    · refine ⟨.inr hp, ?_⟩
      have h1 := hp.beyond
      have h2 := hr.bound
      have h3 := hr.sync
      simp only [Synced] at h3
      rw [hd] at h1
      rw [hp.counted]
      omega
  · obtain ⟨hp, _, hb⟩ := (h 0).past r a r' hr he
    exact ⟨.inr hp, hb⟩

/-! ### bytes -/

theorem bytesOf_append (o : Order) {x y : List Bool} (hx : x.length % 8 = 0) (hy : y.length % 8 = 0) :
    Prim.bytesOf o (x ++ y) = Prim.bytesOf o x ++ Prim.bytesOf o y := by
  apply orderBits_inj o
  rw [Prim.orderBits_bytesOf o _ (by simp; omega), orderBits_append, Prim.orderBits_bytesOf o _ hx,
    Prim.orderBits_bytesOf o _ hy]

theorem bytesOf_nil (o : Order) : Prim.bytesOf o [] = [] := by cases o <;> rfl

theorem bytesOf_one (o : Order) {x : List Bool} (hx : x.length = 8) :
    Prim.bytesOf o x = [byteOf (present o x)] := by
  have h8 : x.length / 8 = 1 := by omega
  cases o
  · simp only [Prim.bytesOf, h8, packBytes, chunks8, present, List.map_cons, List.map_nil]
    rw [List.take_of_length_le (by omega)]
  · simp only [Prim.bytesOf, h8, packBytes, chunks8, present, List.map_cons, List.map_nil,
      List.reverse_cons, List.reverse_nil, List.nil_append]
    rw [List.take_of_length_le (by simp; omega)]

/-- Reading bytes one by one. -/
theorem readN_bytes {f : M Reader Byte} (hf : Prim.Delivers o 8 f (fun l => byteOf (present o l)))
    (n : Nat) {r : Reader} (hh : r.Healthy) (hw : r.WF) :
    (8 * n ≤ (r.unread o).length → ∃ r', readN f n r =
      (.ok (Prim.bytesOf o ((r.unread o).take (8 * n))), r') ∧ Step o (8 * n) r r') ∧
    (¬ 8 * n ≤ (r.unread o).length → ∃ k r', readN f n r = (.err (.incomplete k), r')) := by
  induction n generalizing r with
  | zero =>
    refine ⟨fun _ => ⟨r, ?_, Step.refl o hh hw⟩, fun h => by omega⟩
    simp [readN, bytesOf_nil]
  | succ n ih =>
    simp only [readN]
    by_cases h8 : 8 ≤ (r.unread o).length
    · obtain ⟨r1, e1, s1⟩ := (hf r hh hw).1 h8
      obtain ⟨ihok, iherr⟩ := ih s1.healthy s1.wf
      rw [s1.unread, List.length_drop] at ihok iherr
      rw [M.bind_ok e1]
      refine ⟨fun h => ?_, fun h => ?_⟩
      · obtain ⟨r2, e2, s2⟩ := ihok (by omega)
        refine ⟨r2, ?_, by rw [show 8 * (n + 1) = 8 + 8 * n by omega]; exact s1.trans s2⟩
        rw [M.bind_ok e2, show 8 * (n + 1) = 8 + 8 * n by omega, List.take_add,
          bytesOf_append o (by simp; omega) (by simp; omega), bytesOf_one (x := (r.unread o).take 8) o (by simp; omega)]
        rfl
      · obtain ⟨k, r2, e2⟩ := iherr (by omega)
        exact ⟨k, r2, by rw [M.bind_err e2]⟩
    · obtain ⟨k, r1, e1, _⟩ := (hf r hh hw).2 h8
      exact ⟨fun h => by omega, fun _ => ⟨k, r1, by rw [M.bind_err e1]⟩⟩

/-- A `u8` of eight bits, as a byte. -/
theorem u8_delivers (native : Endian) (ctx : IntCtx) {e : Endian} {o : Order}
    (hs : ctx.shape native 1 = (e, 8, o)) :
    Prim.Delivers o 8 (do let v ← Prim.readUnsigned native 1 ctx; pure (BitVec.ofNat 8 v))
      (fun l => byteOf (present o l)) := by
  have h := Prim.readUnsigned_delivers native (W := 1) ctx (by omega)
  rw [hs] at h
  refine (h (by omega) (by omega)).map fun l r hl => ?_
  simp only [M.pure_run, byteOf]
  congr 3
  cases o <;> cases e <;> simp only [fieldValue, present]
  · unfold leGroups; rw [if_pos (by omega)]
  · unfold beGroups
    rw [if_neg (by omega)]
    unfold beGroups
    rw [if_pos (by simp; omega), List.take_of_length_le (by omega)]
    simp

theorem srcCall_position {r : Reader} (hf : r.Healthy) :
    srcCall Src.streamPosition r = (.ok r.inner.pos, adv 1 0 r) := by
  simp [srcCall, Src.streamPosition, show r.inner.faults = noFaults from hf, noFaults, adv]

theorem readExact_run {n : Nat} {r : Reader} (hf : r.Healthy) (hb : r.inner.pos ≤ r.inner.data.length) :
    readExact n r = if (avail r).length < n then
      (do let k ← usize (n * 8); M.throw (.incomplete k)) (adv 3 0 r)
      else readBytes n .lsb0 (adv 3 0 r) := by
  have h0 : r.inner.faults = noFaults := hf
  have h2 : srcCall (fun s => s.seek (.end 0)) (adv 1 0 r) =
      (.ok r.inner.data.length, { adv 2 0 r with inner := { (adv 2 0 r).inner with pos := r.inner.data.length } }) := by
    have hneg : ¬ (r.inner.data.length : Int) < 0 := by omega
    simp [srcCall, Src.seek, adv, h0, noFaults, Src.seekTarget, hneg]
  have h3 : srcCall (fun s => s.seek (.start r.inner.pos))
      { adv 2 0 r with inner := { (adv 2 0 r).inner with pos := r.inner.data.length } } =
      (.ok r.inner.pos, adv 3 0 r) := by
    simp [srcCall, Src.seek, adv, h0, noFaults, Src.seekTarget]
  unfold readExact
  rw [M.bind_ok (srcCall_position hf), M.bind_ok h2, M.bind_ok h3]
  simp only [hb, decide_true, M.assert_true_bind_run]
  rw [show r.inner.data.length - r.inner.pos = (avail r).length by simp [avail]]
  split <;> rfl

theorem adv_unread (c : Nat) (r : Reader) (o : Order) : (adv c 0 r).unread o = r.unread o := by
  cases o <;> simp [Reader.unread, unreadMsb_eq, unreadLsb_eq]

theorem adv_at {c : Nat} {r : Reader} (h : r.At p) : (adv c 0 r).At p :=
  ⟨h.healthy, h.wf, h.noPeek, h.sync, h.bound, h.phase⟩

theorem avail_iff {n : Nat} {r : Reader} (hr : r.At p) (o : Order) :
    n ≤ (avail r).length ↔ 8 * n ≤ (r.unread o).length := by
  have hl := length_unread o r
  have : r.rest.length < 8 := by
    rcases hl : r.leftover with _ | (b | l)
    · simp [Reader.rest, hl, leftoverBits]
    · exact absurd hl (hr.noPeek b)
    · have := hr.wf l hl; simp [Reader.rest, hl, leftoverBits]; omega
  omega

theorem Step.adv {c n : Nat} {r r' : Reader} (h : Step o n (Reader.adv c 0 r) r') : Step o n r r' where
  unread := by rw [h.unread, adv_unread]
  bitsRead := h.bitsRead
  data := h.data
  healthy := h.healthy
  wf := h.wf
  noPeek := h.noPeek
  sync := h.sync
  bound := h.bound

/-- The fast path on a reader in the middle of parsing, without a peeked byte. -/
theorem readExact_ok {n : Nat} {r : Reader} (hr : r.At p) (h : 8 * n ≤ (r.unread .lsb0).length) :
    ∃ r', readExact n r = (.ok (Prim.bytesOf .lsb0 ((r.unread .lsb0).take (8 * n))), r') ∧
      Step .lsb0 (8 * n) r r' := by
  rw [readExact_run hr.healthy hr.bound, if_neg (by rw [Nat.not_lt]; exact (avail_iff hr .lsb0).2 h)]
  obtain ⟨bs, r', e, hb, hs⟩ := readBytes_ok .lsb0 (adv_at (c := 3) hr).healthy (adv_at (c := 3) hr).wf
    (.inl (adv_at (c := 3) hr).noPeek) (by rw [adv_unread]; exact h)
  rw [adv_unread] at hb
  exact ⟨r', by rw [e, ← hb, Prim.bytesOf_orderBits], Step.adv hs⟩

theorem readExact_short {n : Nat} {r : Reader} (hr : r.At p) (h : ¬ 8 * n ≤ (r.unread .lsb0).length)
    (hn : 8 * n < 2 ^ 64) : readExact n r = (.err (.incomplete (8 * n)), adv 3 0 r) := by
  rw [readExact_run hr.healthy hr.bound, if_pos (by
    rw [← Nat.not_le]; exact fun h' => h ((avail_iff hr .lsb0).1 h'))]
  simp only [usize, Nat.mul_comm n 8, if_pos hn]
  rfl

end Deku
