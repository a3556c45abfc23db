import Verif.Spec.Locality
import Verif.Lemmas.FromBytes

/-! # Parsers that depend only on the bits they consume -/

namespace Deku

open Reader Coll

variable {α β σ : Type} {o : Order} {P : Nat → Prop} {fixed : Bool}

theorem Reads.at {p : Nat} {f : M Reader α} {bits : List Bool} {a : α} (h : Reads o p f bits a) :
    ReadsAt o p f bits a := fun r rest hr _ hu => h r rest hr hu

theorem ReadsAt.bind {p : Nat} {f : M Reader α} {g : α → M Reader β} {x y : List Bool} {a : α} {b : β}
    (hf : ReadsAt o p f x a) (hg : ReadsAt o (p + x.length) (g a) y b) :
    ReadsAt o p (f >>= g) (x ++ y) b := by
  intro r rest h hp hu
  obtain ⟨r1, e1, s1⟩ := hf r (y ++ rest) h hp (by rw [hu, List.append_assoc])
  obtain ⟨r2, e2, s2⟩ := hg r1 rest (h.step s1) (by rw [s1.bitsRead, hp]) (by
    rw [s1.unread, hu, List.append_assoc, List.drop_left])
  exact ⟨r2, by rw [M.bind_ok e1, e2], by rw [List.length_append]; exact s1.trans s2⟩

theorem ReadsAt.run {p : Nat} {f : M Reader α} {n : Nat} {a b : α} {r r' : Reader} (hr : r.At p)
    (hp : r.bitsRead = p) (hn : n ≤ (r.unread o).length) (h : ReadsAt o p f ((r.unread o).take n) a)
    (he : f r = (.ok b, r')) : a = b ∧ Step o n r r' := by
  obtain ⟨r1, e1, s1⟩ := h r ((r.unread o).drop n) hr hp (List.take_append_drop ..).symm
  rw [he] at e1
  simp at e1
  rw [List.length_take, Nat.min_eq_left hn] at s1
  obtain ⟨rfl, rfl⟩ := e1
  exact ⟨rfl, s1⟩

theorem LocalOn.mono {P' : Nat → Prop} {Q Q' : α → Nat → Prop} {f : M Reader α} (h : LocalOn o P f Q)
    (hP : ∀ p, P' p → P p) (hQ : ∀ a q, Q a q → Q' a q) : LocalOn o P' f Q' where
  here p r a r' hp hr hb he := by
    rcases h.here p r a r' (hP p hp) hr hb he with ⟨n, hn, hR, hq⟩ | h
    · exact .inl ⟨n, hn, hR, hQ _ _ hq⟩
    · exact .inr h
  past := h.past

theorem LocalOn.pure (a : α) {Q : α → Nat → Prop} (h : ∀ p, P p → Q a p) :
    LocalOn o P (Pure.pure a : M Reader α) Q where
  here p r b r' hp hr hb he := by
    simp at he
    obtain ⟨rfl, rfl⟩ := he
    exact .inl ⟨0, Nat.zero_le _, (Reads.pure o p _).at, h p hp⟩
  past r b r' hr he := by
    simp at he
    obtain ⟨rfl, rfl⟩ := he
    exact ⟨hr, rfl⟩

theorem LocalOn.throw (e : DekuError) {Q : α → Nat → Prop} : LocalOn o P (M.throw e : M Reader α) Q where
  here p r b r' hp hr hb he := by simp at he
  past r b r' hr he := by simp at he

theorem LocalOn.panic {Q : α → Nat → Prop} : LocalOn o P (M.panic : M Reader α) Q where
  here p r b r' hp hr hb he := by simp at he
  past r b r' hr he := by simp at he

theorem LocalOn.bind {f : M Reader α} {g : α → M Reader β} {R : α → Nat → Prop} {Q : β → Nat → Prop}
    (hf : LocalOn o P f R) (hg : ∀ a, LocalOn o (R a) (g a) Q) : LocalOn o P (f >>= g) Q where
  here p r b r2 hp hr hb he := by
    obtain ⟨a, r1, e1, e2⟩ := M.bind_eq_ok he
    rcases hf.here p r a r1 hp hr hb e1 with ⟨n, hn, hR, hq⟩ | ⟨hpast, hd⟩
    · obtain ⟨_, s1⟩ := hR.run hr hb hn e1
      rcases (hg a).here (p + n) r1 b r2 hq (hr.step s1) (by rw [s1.bitsRead, hb]) e2 with
        ⟨m, hm, hR2, hq2⟩ | ⟨hp2, hd2⟩
      · left
        rw [s1.unread, List.length_drop] at hm
        refine ⟨n + m, by omega, ?_, by rw [← Nat.add_assoc]; exact hq2⟩
        rw [List.take_add]
        refine hR.bind ?_
        rw [List.length_take, Nat.min_eq_left hn, ← s1.unread]
        exact hR2
      · exact .inr ⟨hp2, hd2.trans s1.data⟩
    · obtain ⟨hp2, hd2⟩ := (hg a).past r1 b r2 hpast e2
      exact .inr ⟨hp2, hd2.trans hd⟩
  past r b r2 hr he := by
    obtain ⟨a, r1, e1, e2⟩ := M.bind_eq_ok he
    obtain ⟨hp1, hd1⟩ := hf.past r a r1 hr e1
    obtain ⟨hp2, hd2⟩ := (hg a).past r1 b r2 hp1 e2
    exact ⟨hp2, hd2.trans hd1⟩

theorem LocalOn.map {f : M Reader α} (k : α → β) {Q : β → Nat → Prop}
    (hf : LocalOn o P f (fun a => Q (k a))) : LocalOn o P (f >>= fun a => Pure.pure (k a)) Q :=
  hf.bind fun _ => LocalOn.pure _ fun _ h => h

/-- Numbers computed on the way. -/
theorem LocalOn.calc {f : M Reader α} {g : α → M Reader β} {Q : β → Nat → Prop}
    (hf : ∀ r a r', f r = (.ok a, r') → r' = r ∧ ∀ r, f r = (.ok a, r))
    (hg : ∀ a, (∃ r : Reader, f r = (.ok a, r)) → LocalOn o P (g a) Q) : LocalOn o P (f >>= g) Q where
  here p r b r2 hp hr hb he := by
    obtain ⟨a, r1, e1, e2⟩ := M.bind_eq_ok he
    obtain ⟨rfl, hall⟩ := hf _ _ _ e1
    rcases (hg a ⟨r1, e1⟩).here p r1 b r2 hp hr hb e2 with ⟨n, hn, hR, hq⟩ | h
    · refine .inl ⟨n, hn, ?_, hq⟩
      intro s tl hs hb hu
      rw [M.bind_ok (hall s)]
      exact hR s tl hs hb hu
    · exact .inr h
  past r b r2 hr he := by
    obtain ⟨a, r1, e1, e2⟩ := M.bind_eq_ok he
    obtain ⟨rfl, hall⟩ := hf _ _ _ e1
    exact (hg a ⟨r1, e1⟩).past _ _ _ hr e2

theorem Prim.Delivers.localOn {n : Nat} {f : M Reader α} {val : List Bool → α}
    (h : Prim.Delivers o n f val) (h1 : 1 ≤ n) {Q : α → Nat → Prop}
    (hQ : ∀ p bits, P p → bits.length = n → Q (val bits) (p + n)) : LocalOn o P f Q where
  here p r a r' hp hr hb he := by
    left
    by_cases hn : n ≤ (r.unread o).length
    · obtain ⟨r1, e1, s1⟩ := (h r hr.healthy hr.wf).1 hn
      rw [he] at e1
      simp at e1
      refine ⟨n, hn, ?_, ?_⟩
      · rw [e1.1]
        exact (h.reads (by simp; omega) p).at
      · rw [e1.1]; exact hQ p _ hp (by simp; omega)
    · obtain ⟨k, r1, e1, _⟩ := (h r hr.healthy hr.wf).2 hn
      rw [he] at e1
      simp at e1
  past r a r' hr he := by
    obtain ⟨k, r1, e1, _⟩ := (h r hr.healthy hr.wf).2 (by rw [hr.unread]; simp; omega)
    rw [he] at e1
    simp at e1

/-- Whole bytes at a byte boundary, taken in either order. -/
theorem Reader.At.take_bytes {p k : Nat} {r : Reader} (hr : r.At p) (hp : p % 8 = 0) (o : Order) :
    (r.unread o).take (8 * k) = orderBits o ((avail r).take k) := by
  have h0 : r.At 0 := hr.congr hp
  rw [h0.unread_aligned, orderBits_take]
  rfl

theorem LocalOn.bytes {o' : Order} {n : Nat} {f : M Reader α} {val : List Bool → α}
    (hf : ∀ p r, r.At p → 8 * n ≤ (r.unread o').length →
      ∃ r', f r = (.ok (val ((r.unread o').take (8 * n))), r') ∧ Step o' (8 * n) r r')
    (hs : ∀ p r a r', r.At p → f r = (.ok a, r') → 8 * n ≤ (r.unread o').length)
    (hpast : ∀ r a r', r.Past → f r ≠ (.ok a, r')) (ho : o' = o ∨ ∀ p, P p → p % 8 = 0)
    {Q : α → Nat → Prop} (hQ : ∀ p bits, P p → bits.length = 8 * n → Q (val bits) (p + 8 * n)) :
    LocalOn o P f Q where
  here p r a r' hp hr hb he := by
    left
    have hn := hs p r a r' hr he
    obtain ⟨r1, e1, s1⟩ := hf p r hr hn
    rw [he] at e1
    simp at e1
    have hR : Reads o' p f ((r.unread o').take (8 * n)) a := by
      intro s tl hss hu
      have hl : ((r.unread o').take (8 * n)).length = 8 * n := by simp; omega
      obtain ⟨s', e, st⟩ := hf p s hss (by rw [hu]; simp; omega)
      rw [hu, List.take_append_of_le_length (by omega), List.take_take, Nat.min_self, ← e1.1] at e
      exact ⟨s', e, by rw [hl]; exact st⟩
    have hn' : 8 * n ≤ (r.unread o).length := by rw [length_unread] at hn ⊢; exact hn
    refine ⟨8 * n, hn', ?_, ?_⟩
    · rcases ho with rfl | hP
      · exact hR.at
      · have h8 := hP p hp
        rw [hr.take_bytes h8] at hR ⊢
        exact (hR.switch h8).at
    · rw [e1.1]; exact hQ p _ hp (by simp; omega)
  past r a r' hr he := absurd he (hpast r a r' hr)

theorem Prim.Delivers.localBytes {o' : Order} {n : Nat} {f : M Reader α} {val : List Bool → α}
    (h : Prim.Delivers o' (8 * n) f val) (h1 : 1 ≤ n) (ho : o' = o ∨ ∀ p, P p → p % 8 = 0)
    {Q : α → Nat → Prop} (hQ : ∀ p bits, P p → bits.length = 8 * n → Q (val bits) (p + 8 * n)) :
    LocalOn o P f Q := by
  refine LocalOn.bytes (n := n) (fun p r hr => (h r hr.healthy hr.wf).1) ?_ ?_ ho hQ
  · intro p r a r' hr he
    by_cases hn : 8 * n ≤ (r.unread o').length
    · exact hn
    · obtain ⟨k, r1, e1, _⟩ := (h r hr.healthy hr.wf).2 hn
      rw [he] at e1; simp at e1
  · intro r a r' hr he
    obtain ⟨k, r1, e1, _⟩ := (h r hr.healthy hr.wf).2 (by rw [hr.unread]; simp; omega)
    rw [he] at e1; simp at e1

/-! ### pieces -/

theorem byteSafe_shift {n : Nat} (h : ByteSafe o P) : ByteSafe o (shift P (8 * n)) := by
  rcases h with h | h
  · exact .inl h
  · refine .inr ?_
    rintro _ ⟨p, hp, rfl⟩
    have := h p hp; omega

theorem magicRead_local (native : Endian) {magic : List Byte} (h : magic = [] ∨ ByteSafe o P) :
    LocalOn o P (magicRead native magic) (fun _ => shift P (8 * magic.length)) := by
  rcases h with rfl | h
  · exact LocalOn.pure _ fun p hp => ⟨p, hp, rfl⟩
  · induction magic generalizing P with
    | nil => exact LocalOn.pure _ fun p hp => ⟨p, hp, rfl⟩
    | cons b bs ih =>
      simp only [magicRead]
      refine LocalOn.bind (R := fun _ => shift P (8 * 1))
        (Prim.Delivers.localBytes (n := 1) (u8Read_delivers native) (by omega) (h.imp Eq.symm id)
          fun p _ hp _ => ⟨p, hp, rfl⟩) fun v => ?_
      split
      · exact LocalOn.throw _
      · refine (ih (byteSafe_shift h)).mono (fun _ h => h) fun _ q hq => ?_
        have := shift_shift hq
        rwa [show 8 * 1 + 8 * bs.length = 8 * (b :: bs).length by simp; omega] at this

theorem Reader.Good.empty {r : Reader} (h : r.Good) (hb : r.inner.data.length < r.inner.pos) :
    r.leftover = none := by
  have hr : r.rest = [] := Classical.not_not.1 fun h' => by have := h.inside h'; omega
  rcases hl : r.leftover with _ | (b | l)
  · rfl
  · exact absurd hl (h.noPeek b)
  · have := h.wf l hl
    simp [Reader.rest, hl, leftoverBits] at hr
    rw [hr] at this
    simp at this

theorem Reader.Good.past {r : Reader} (h : r.Good) (hb : r.inner.data.length < r.inner.pos) : r.Past where
  healthy := h.healthy
  empty := h.empty hb
  beyond := hb
  counted := by
    have := h.sync
    simp only [Synced, Reader.rest, h.empty hb, leftoverBits, List.length_nil] at this
    omega

theorem Reader.Good.at {r : Reader} (h : r.Good) (hb : r.inner.pos ≤ r.inner.data.length) :
    r.At r.bitsRead := ⟨h.healthy, h.wf, h.noPeek, h.sync, hb, rfl⟩

theorem Follows.past {f : M Reader α} (hf : Follows fixed f) {r r' : Reader} {a : α} (hr : r.Past)
    (he : f r = (.ok a, r')) : r'.Past ∧ r'.inner.data = r.inner.data := by
  obtain ⟨h1, h2, h3, _⟩ := hf r a r' hr.good he
  have := hr.beyond
  exact ⟨h1.past (by rw [h2]; omega), h2⟩

/-- A skip that succeeds although there is not enough left. -/
theorem skipBits_beyond {n : Nat} {r r' : Reader} {u : Unit} (hr : r.Good)
    (hn : ¬ n ≤ (r.unread o).length) (he : skipBits n o r = (.ok u, r')) :
    r.inner.data.length < r'.inner.pos := by
  have tail : ∀ (s : Reader) (m : Nat), s.Good → s.leftover = none → ¬ m ≤ (s.unread o).length →
      skipTail m o s = (.ok u, r') → s.inner.data.length < r'.inner.pos := by
    intro s m hs hl hm he
    obtain ⟨_, h2, h3⟩ := skipTail_none (n := m) (o := o) hs.healthy hl hs.sync
    by_cases h8 : m % 8 = 0
    · obtain ⟨s', e, _, _, _, hp, _⟩ := h3 hm h8
      rw [he] at e
      simp at e
      subst e
      rw [unread_none _ _ hl, length_orderBits] at hm
      simp only [avail, List.length_drop] at hm
      omega
    · obtain ⟨s', e⟩ := h2 hm h8
      rw [he] at e
      simp at e
  rcases hl : r.leftover with _ | (b | l)
  · rw [skipBits_other (by simp [hl])] at he
    exact tail r n hr hl hn he
  · exact absurd hl (hr.noPeek b)
  · rw [skipBits_bits hl] at he
    have hrl : r.rest.length = l.length := by simp [Reader.rest, hl, leftoverBits]
    have hlen := length_unread o r
    obtain ⟨r1, e1, s1⟩ := readBitsInto_ok o (n := min n l.length) hr.healthy hr.wf (by omega)
    rw [M.bind_ok e1] at he
    rw [Nat.min_eq_right (by omega)] at he s1
    have h1 := hr.step s1
    have hrest : r1.rest = [] := by
      have e := step_pos s1
      have := h1.rest_lt
      exact List.eq_nil_of_length_eq_zero (by omega)
    have hl1 : r1.leftover = none := by
      rcases hl : r1.leftover with _ | (b | l)
      · rfl
      · exact absurd hl (h1.noPeek b)
      · have := h1.wf l hl
        simp [Reader.rest, hl, leftoverBits] at hrest
        rw [hrest] at this
        simp at this
    have := tail r1 _ h1 hl1 (by rw [s1.unread, List.length_drop]; omega) he
    rwa [s1.data] at this

theorem skipBits_local (n : Nat) : LocalOn o P (skipBits n o) (fun _ => shift P n) where
  here p r a r' hp hr hb he := by
    by_cases hn : n ≤ (r.unread o).length
    · refine .inl ⟨n, hn, ?_, p, hp, rfl⟩
      have := (skipBits_reads (o := o) p ((r.unread o).take n)).at
      rwa [List.length_take, Nat.min_eq_left hn] at this
    · obtain ⟨h1, h2, _⟩ := skipBits_follows (fixed := true) n o r a r' hr.good he
      exact .inr ⟨h1.past (by rw [h2]; exact skipBits_beyond hr.good hn he), h2⟩
  past r a r' hr he := (skipBits_follows (fixed := true) n o).past hr he

theorem padRead_local {order : Option Order} {pad : Option (Env → Int)} (env : Env)
    (h : PadSafe o order pad) :
    LocalOn o P (padRead order pad env) (fun _ => shift P (padBits pad env)) := by
  cases pad with
  | none => exact LocalOn.pure _ fun p hp => ⟨p, hp, rfl⟩
  | some f =>
    rcases h with h | h
    · simp at h
    · simp only [padRead, padSize, padBits, h]
      split
      · rw [M.pure_bind]; exact skipBits_local _
      · exact LocalOn.bind (R := fun _ _ => False) (LocalOn.throw _) fun _ =>
          (skipBits_local _).mono (fun _ h => h) fun _ _ ⟨_, h, _⟩ => h.elim

theorem check_local (a : Attrs) (env : Env) (v : Val) :
    LocalOn o P (a.check env v : M Reader Unit) (fun _ => P) := by
  unfold Attrs.check
  split
  · exact LocalOn.throw _
  · split
    · exact LocalOn.pure _ fun _ h => h
    · split
      · exact LocalOn.throw _
      · exact LocalOn.pure _ fun _ h => h

theorem Attrs.value_local {a : Attrs} {rd : Env → M Reader Val} {env : Env} {Q : Val → Nat → Prop}
    (h1 : a.isRead env = true → ∃ R : Val → Nat → Prop, LocalOn o P (rd env) R ∧
      ∀ raw v q', R raw q' → a.map env raw = .ok v → Q v q')
    (h2 : a.isRead env = false → ∀ p, P p → Q (a.default env) p) : LocalOn o P (a.value rd env) Q := by
  unfold Attrs.value
  split
  · rename_i h
    obtain ⟨R, hR, hQ⟩ := h1 h
    refine hR.bind fun raw => ?_
    unfold Attrs.applyMap
    split
    · rename_i v hv
      exact LocalOn.pure _ fun q hq => hQ raw v q hq hv
    · exact LocalOn.throw _
  · rename_i h
    exact LocalOn.pure _ fun q hq => h2 (by simpa using h) q hq

/-- The position may be looked at. -/
theorem LocalOn.offset {f : M Reader α} (g : Nat → M Reader α) (uses : Bool) {Q : α → Nat → Prop}
    (hf : ∀ r, f r = g (if uses then r.bitsRead else 0) r) (hfol : Follows fixed f)
    (hg : ∀ q, P q → LocalOn o (· = q) (g (if uses then q else 0)) Q) : LocalOn o P f Q where
  here p r a r' hp hr hb he := by
    rw [hf, hb] at he
    rcases (hg p hp).here p r a r' rfl hr hb he with ⟨n, hn, hR, hq⟩ | h
    · refine .inl ⟨n, hn, ?_, hq⟩
      intro s tl hs hsb hu
      rw [hf, hsb]
      exact hR s tl hs hsb hu
    · exact .inr h
  past r a r' hr he := hfol.past hr he

theorem Attrs.read_local {a : Attrs} {T : (Nat → Prop) → (Val → Nat → Prop) → Env → Prop} (native : Endian)
    {rd : Env → M Reader Val} {env : Env} {Q : Val → Nat → Prop} (h : a.InOrder o T P Q env)
    (ha : a.Streams true) (hfol : ∀ env, Follows true (rd env))
    (hT : ∀ P R env, T P R env → LocalOn o P (rd env) R) : LocalOn o P (a.read native rd env) Q := by
  obtain ⟨hs, hm, hpb, hpa, hq⟩ := h
  simp only [Attrs.read, hs, seekRead, M.pure_bind]
  refine (magicRead_local native hm).bind fun _ => (padRead_local env hpb).bind fun _ => ?_
  have hfol' : ∀ n, Follows true (do
    let v ← a.value rd (env.at n)
    a.check (env.at n) v
    padRead a.padOrder a.padAfter ((env.at n).push v)
    Pure.pure v : M Reader Val) := fun n =>
    (Attrs.value_follows hfol _).bind fun v => (check_follows _ _ _).bind fun _ =>
      (padRead_follows _ _ _).bind fun _ => Follows.pure _
  refine LocalOn.offset (fun n => do
    let v ← a.value rd (env.at n)
    a.check (env.at n) v
    padRead a.padOrder a.padAfter ((env.at n).push v)
    Pure.pure v) a.usesOffset (fun r => ?_) (Follows.offset _ a.usesOffset (fun r => ?_) hfol' ha.2)
    (fun q hq' => ?_)
  · rw [M.get_bind_run]
  · rw [M.get_bind_run]
  · obtain ⟨q1, q2⟩ := hq q (shift_shift hq')
    have key : LocalOn o (· = q) (a.value rd (env.at (if a.usesOffset then q else 0)))
        (fun v q' => Q v (q' + padBits a.padAfter ((env.at (if a.usesOffset then q else 0)).push v))) := by
      refine Attrs.value_local (fun hr => ?_) (fun hr => ?_)
      · obtain ⟨R, hR, hQ⟩ := q1 hr
        exact ⟨R, hT _ _ _ hR, hQ⟩
      · rintro _ rfl
        exact q2 hr
    refine key.bind fun v => (check_local a _ v).bind fun _ => (padRead_local _ hpa).bind fun _ => ?_
    refine LocalOn.pure _ ?_
    rintro _ ⟨p, hp, rfl⟩
    exact hp

/-! ### lists -/

theorem arrayRead_local {f : M Reader α} {I : Nat → Nat → Prop}
    (hf : ∀ j, LocalOn o (I j) f (fun _ => I (j + 1))) (n : Nat) : ∀ j,
    LocalOn o (I j) (arrayRead f n) (fun vs q => vs.length = n ∧ I (j + n) q) := by
  induction n with
  | zero => exact fun j => LocalOn.pure _ fun q hq => ⟨rfl, hq⟩
  | succ n ih =>
    intro j
    refine (hf j).bind fun v => (ih (j + 1)).bind fun vs => ?_
    refine LocalOn.pure _ ?_
    rintro q ⟨h1, h2⟩
    exact ⟨by simp [h1], by rw [show j + (n + 1) = j + 1 + n by omega]; exact h2⟩

theorem Trace.past {f : M Reader α} (hf : Follows fixed f) {r r' : Reader} {t : List (α × Nat)}
    (h : Trace f r t r') (hr : r.Past) : r'.Past ∧ r'.inner.data = r.inner.data := by
  obtain ⟨h1, h2, h3, _⟩ := h.follows hf hr.good
  have := hr.beyond
  exact ⟨h1.past (by rw [h2]; omega), h2⟩

theorem Trace.local {f : M Reader α} (hfol : Follows fixed f) {I : Nat → Nat → Prop}
    (hf : ∀ j, LocalOn o (I j) f (fun _ => I (j + 1)))
    {r r' : Reader} {t : List (α × Nat)} (h : Trace f r t r') : ∀ j p, I j p → r.At p → r.bitsRead = p →
    (∃ n, n ≤ (r.unread o).length ∧ I (j + t.length) (p + n) ∧
      ∀ s tl, s.At p → s.bitsRead = p → s.unread o = (r.unread o).take n ++ tl →
        ∃ s', Trace f s t s' ∧ Step o n s s') ∨
    (r'.Past ∧ r'.inner.data = r.inner.data) := by
  induction h with
  | nil r => exact fun j p hp hr hb => .inl ⟨0, Nat.zero_le _, hp, fun s tl hs _ _ => ⟨s, .nil s, Step.refl o hs.healthy hs.wf⟩⟩
  | @cons r r1 r2 a t h ht ih =>
    intro j p hp hr hb
    rcases (hf j).here p r a r1 hp hr hb h with ⟨n, hn, hR, hq⟩ | ⟨hpast, hd⟩
    · obtain ⟨_, s1⟩ := hR.run hr hb hn h
      rcases ih (j + 1) (p + n) hq (hr.step s1) (by rw [s1.bitsRead, hb]) with ⟨k, hk, hI, hall⟩ | ⟨h1, h2⟩
      · left
        rw [s1.unread, List.length_drop] at hk
        refine ⟨n + k, by omega, ?_, ?_⟩
        · rw [List.length_cons, show j + (t.length + 1) = j + 1 + t.length by omega, ← Nat.add_assoc]
          exact hI
        · intro s tl hs hsb hu
          rw [List.take_add, ← s1.unread, List.append_assoc] at hu
          obtain ⟨x1, e1, st1⟩ := hR s _ hs hsb hu
          have hl : ((r.unread o).take n).length = n := by simp; omega
          have hdrop : x1.unread o = (r1.unread o).take k ++ tl := by
            rw [st1.unread, hu, List.drop_left]
          rw [hl] at st1
          obtain ⟨x2, t2, st2⟩ := hall x1 tl (hs.step st1) (by rw [st1.bitsRead, hsb]) hdrop
          have hbit : r1.bitsRead = x1.bitsRead := by rw [st1.bitsRead, s1.bitsRead, hb, hsb]
          rw [hbit]
          exact ⟨x2, .cons e1 t2, st1.trans st2⟩
      · exact .inr ⟨h1, h2.trans s1.data⟩
    · obtain ⟨h1, h2⟩ := ht.past hfol hpast
      exact .inr ⟨h1, h2.trans hd⟩

theorem vecLoop_local {f : M Reader α} (hfol : Follows fixed f) {I : Nat → Nat → Prop}
    (hf : ∀ j, LocalOn o (I j) f (fun _ => I (j + 1))) (pred : Nat → α → σ → Bool × σ) (mem : Nat) (s : σ) :
    LocalOn o (I 0) (do let r ← M.get; vecLoop f pred r.bitsRead mem s : M Reader (List α))
      (fun vs => I vs.length) where
  here p r a r' hp hr hb he := by
    rw [M.get_bind_run] at he
    obtain ⟨t, ht, hm, hst, hl⟩ := vecLoop_ok_iff.1 he
    rcases ht.local hfol hf 0 p hp hr hb with ⟨n, hn, hI, hall⟩ | h
    · refine .inl ⟨n, hn, ?_, by rw [Nat.zero_add] at hI; rw [← hm, List.length_map]; exact hI⟩
      intro x tl hx hxb hu
      obtain ⟨x', tx, st⟩ := hall x tl hx hxb hu
      refine ⟨x', ?_, by rw [List.length_take, Nat.min_eq_left hn]; exact st⟩
      rw [M.get_bind_run]
      exact vecLoop_ok_iff.2 ⟨t, tx, hm, by rw [hxb, ← hb]; exact hst, hl⟩
    · exact .inr h
  past r a r' hr he := (vecLoop_follows hfol pred mem s).past hr he

theorem vecWithPredicate_local {f : M Reader α} (hfol : Follows fixed f) {I : Nat → Nat → Prop}
    (hf : ∀ j, LocalOn o (I j) f (fun _ => I (j + 1))) (pred : Nat → α → σ → Bool × σ)
    (mem size : Nat) (cap : Option Nat) (s : σ) :
    LocalOn o (I 0) (vecWithPredicate mem size cap f pred s) (fun vs => I vs.length) := by
  unfold vecWithPredicate
  split
  · exact LocalOn.pure _ fun _ h => h
  · refine LocalOn.bind (R := fun _ => I 0) ?_ fun _ => vecLoop_local hfol hf pred mem s
    cases cap
    · exact LocalOn.pure _ fun _ h => h
    · simp only [withCapacity, M.assert]
      split
      · exact LocalOn.pure _ fun _ h => h
      · exact LocalOn.panic

theorem vecRead_local {f : M Reader α} (hfol : Follows fixed f) {I : Nat → Nat → Prop}
    (hf : ∀ j, LocalOn o (I j) f (fun _ => I (j + 1))) (mem size : Nat) (l : Limit α σ) (hl : l ≠ .end) :
    LocalOn o (I 0) (vecRead mem size f l) (fun vs => I vs.length) := by
  have hp : LocalOn o (I 0) (Pure.pure [] : M Reader (List α)) (fun vs => I vs.length) :=
    LocalOn.pure _ fun _ h => h
  cases l with
  | count n =>
    simp only [vecRead]
    split
    · exact hp
    · exact vecWithPredicate_local hfol hf _ _ _ _ _
  | «until» p s => exact vecWithPredicate_local hfol hf _ _ _ _ _
  | bits n =>
    simp only [vecRead]
    split
    · exact hp
    · exact vecWithPredicate_local hfol hf _ _ _ _ _
  | bytes n =>
    simp only [vecRead, usize]
    refine LocalOn.bind (R := fun _ => I 0) ?_ fun n => ?_
    · split
      · exact LocalOn.pure _ fun _ h => h
      · exact LocalOn.panic
    · split
      · exact hp
      · exact vecWithPredicate_local hfol hf _ _ _ _ _
  | «end» => exact absurd rfl hl

theorem readExact_local (n : Nat) (ho : o = .lsb0 ∨ ∀ p, P p → p % 8 = 0) {Q : List Byte → Nat → Prop}
    (hQ : ∀ p (bs : List Byte), P p → bs.length = n → Q bs (p + 8 * n)) : LocalOn o P (readExact n) Q := by
  have hadv : ∀ {r : Reader} {p : Nat}, r.At p → (adv 3 0 r).At p := fun h =>
    ⟨h.healthy, h.wf, h.noPeek, h.sync, h.bound, h.phase⟩
  refine LocalOn.bytes (o' := .lsb0) (n := n) (val := Prim.bytesOf .lsb0) (fun p r hr hn => ?_)
    (fun p r a r' hr he => ?_) (fun r a r' hr he => ?_) (ho.imp Eq.symm id) (fun p bits hp hb => ?_)
  · rw [length_unread] at hn
    have := hr.good.rest_lt
    rw [readExact_run hr.healthy hr.bound, if_neg (by omega)]
    obtain ⟨bs, r', e, hb, hs⟩ := readBytes_ok .lsb0 (n := n) (hadv hr).healthy (hadv hr).wf
      (.inl (hadv hr).noPeek) (by rw [length_unread]; exact hn)
    refine ⟨r', ?_, Step.adv hs⟩
    rw [e, ← Prim.bytesOf_orderBits .lsb0 bs, hb]
    rfl
  · rw [readExact_run hr.healthy hr.bound] at he
    split at he
    · obtain ⟨k, r1, e1, e2⟩ := M.bind_eq_ok he
      simp at e2
    · rw [length_unread]; omega
  · rw [readExact_beyond hr.healthy (by have := hr.beyond; omega)] at he
    simp at he
  · refine hQ p _ hp ?_
    have : (Prim.bytesOf .lsb0 bits).length = n := by
      have := congrArg List.length (Prim.orderBits_bytesOf .lsb0 bits (by omega))
      rw [length_orderBits, hb] at this
      omega
    exact this

/-! ### definitions -/

theorem toUsize_bind_local {f : Nat → M Reader α} {n : Int} {Q : α → Nat → Prop}
    (h : LocalOn o P (f n.toNat) Q) : LocalOn o P (toUsize n >>= f) Q := by
  unfold toUsize
  split
  · rw [M.pure_bind]; exact h
  · exact LocalOn.calc (fun r a r' he => by simp at he) fun a ⟨r, he⟩ => by simp at he

mutual

theorem Ty.local (m : Machine) : ∀ (t : Ty) (P : Nat → Prop) (Q : Val → Nat → Prop) (env : Env),
    t.InOrder m o P Q env → t.Streams true → LocalOn o P (t.read m env) Q
  | .prim _ c, P, Q, env, h, _ => by
    simp only [Ty.InOrder] at h
    simp only [Ty.read]
    exact h
  | .option t, P, Q, env, h, hs => by
    simp only [Ty.InOrder] at h
    simp only [Ty.Streams] at hs
    simp only [Ty.read]
    exact LocalOn.map _ (Ty.local m t _ _ env h hs)
  | .array n t, P, Q, env, h, hs => by
    simp only [Ty.InOrder] at h
    simp only [Ty.Streams] at hs
    simp only [Ty.read]
    obtain ⟨I, h0, hI, hQ⟩ := h
    refine LocalOn.map _ ((arrayRead_local (fun j => Ty.local m t _ _ env (hI j) hs) n 0).mono h0 ?_)
    rintro vs q ⟨h1, h2⟩
    rw [Nat.zero_add] at h2
    exact hQ vs q h1 h2
  | .pair a b, P, Q, env, h, hs => by
    simp only [Ty.InOrder] at h
    simp only [Ty.Streams] at hs
    simp only [Ty.read]
    obtain ⟨R, ha, hb⟩ := h
    exact (Ty.local m a _ _ env ha hs.1).bind fun x => LocalOn.map _ (Ty.local m b _ _ env (hb x) hs.2)
  | .vec size l t, P, Q, env, h, hs => by
    simp only [Ty.InOrder] at h
    simp only [Ty.Streams] at hs
    simp only [Ty.read]
    obtain ⟨hl, I, h0, hI, hQ⟩ := h
    have hv := fun lim hl => LocalOn.map (Q := Q) Val.ofList ((vecRead_local (σ := List Val) (Ty.follows m t env hs.2)
      (fun j => Ty.local m t _ _ env (hI j) hs.2) m.mem size lim hl).mono h0 fun vs q hq => hQ vs q hq)
    cases l with
    | count n =>
      simp only [LimitE.eval, M.bind_assoc, M.pure_bind]
      exact toUsize_bind_local (hv _ (by simp))
    | «until» p =>
      simp only [LimitE.eval, M.pure_bind]
      exact hv _ (by simp)
    | bits n =>
      simp only [LimitE.eval, M.bind_assoc, M.pure_bind]
      exact toUsize_bind_local (hv _ (by simp))
    | bytes n =>
      simp only [LimitE.eval, M.bind_assoc, M.pure_bind]
      exact toUsize_bind_local (hv _ (by simp))
    | «end» => exact hl.elim
  | .bytes n ctx, P, Q, env, h, _ => by
    simp only [Ty.InOrder] at h
    simp only [Ty.read]
    refine toUsize_bind_local (LocalOn.map (fun bs : List Byte => Val.ofList (bs.map Val.ofByte)) ?_)
    refine readExact_local _ h.1 fun p bs hp hb => ?_
    rw [← hb]
    exact h.2 p bs hp hb
  | .struct args sk magic fs, P, Q, env, h, hs => by
    simp only [Ty.InOrder] at h
    simp only [Ty.Streams] at hs
    obtain ⟨rfl, hm, hf⟩ := h
    simp only [Ty.read, seekRead, M.pure_bind]
    exact (magicRead_local _ hm).bind fun _ => Fields.local m fs _ _ _ hf hs.2
  | .enum args magic id store vs, P, Q, env, h, hs => by
    simp only [Ty.InOrder] at h
    simp only [Ty.Streams] at hs
    rw [Ty.read_enum]
    obtain ⟨hm, h⟩ := h
    refine (magicRead_local _ hm).bind fun _ => ?_
    cases id with
    | ctx e =>
      simp only [IdSrc.get, M.pure_bind]
      cases hsel : vs.select { ctx := args env } (e { ctx := args env }) with
      | none => exact LocalOn.throw _
      | some i => exact LocalOn.map _ (Variants.local m vs _ _ _ _ _ i (h i hsel) hs.2)
    | typed n c =>
      obtain ⟨R, hc, h⟩ := h
      refine LocalOn.bind hc fun x => ?_
      cases hsel : vs.select { ctx := args env } x with
      | none => exact LocalOn.throw _
      | some i => exact LocalOn.map _ (Variants.local m vs _ _ _ _ _ i (h x i hsel) hs.2)

theorem Fields.local (m : Machine) : ∀ (fs : Fields) (P : Nat → Prop) (Q : Val → Nat → Prop) (env : Env),
    fs.InOrder m o P Q env → fs.Streams true → LocalOn o P (fs.read m env) Q
  | .nil, P, Q, env, h, _ => by
    simp only [Fields.InOrder] at h
    simp only [Fields.read]
    exact LocalOn.pure _ h
  | .cons a t tl, P, Q, env, h, hs => by
    simp only [Fields.InOrder] at h
    simp only [Fields.Streams] at hs
    simp only [Fields.read]
    obtain ⟨R, ha, hr⟩ := h
    exact (Attrs.read_local _ ha hs.1 (fun env => Ty.follows m t env hs.2.1)
      (fun P R env h => Ty.local m t P R env h hs.2.1)).bind fun x =>
        LocalOn.map _ (Fields.local m tl _ _ _ (hr x) hs.2.2)
  | .temp a t _ tl, P, Q, env, h, hs => by
    simp only [Fields.InOrder] at h
    simp only [Fields.Streams] at hs
    simp only [Fields.read]
    obtain ⟨R, ha, hr⟩ := h
    exact (Attrs.read_local _ ha hs.1 (fun env => Ty.follows m t env hs.2.1)
      (fun P R env h => Ty.local m t P R env h hs.2.1)).bind fun x =>
        Fields.local m tl _ _ _ (hr x) hs.2.2

theorem Fields.storedLocal (m : Machine) : ∀ (fs : Fields) (P : Nat → Prop) (Q : Val → Nat → Prop) (env : Env)
    (x : Val), fs.InOrderStored m o P Q env x → fs.Streams true → LocalOn o P (fs.readStored m env x) Q
  | .nil, P, Q, env, x, h, _ => by
    simp only [Fields.InOrderStored] at h
    simp only [Fields.readStored]
    exact LocalOn.pure _ h
  | .cons a t tl, P, Q, env, x, h, hs => by
    simp only [Fields.InOrderStored] at h
    simp only [Fields.Streams] at hs
    simp only [Fields.readStored]
    exact LocalOn.map _ (Fields.local m tl _ _ _ h hs.2.2)
  | .temp a t _ tl, P, Q, env, x, h, hs => by
    simp only [Fields.InOrderStored] at h
    simp only [Fields.Streams] at hs
    simp only [Fields.readStored]
    exact Fields.local m tl _ _ _ h hs.2.2

theorem Variants.local (m : Machine) : ∀ (vs : Variants) (P : Nat → Prop) (Q : Val → Nat → Prop) (env : Env)
    (x : Val) (typed : Bool) (i : Nat), vs.InOrderAt m o i P Q env x typed → vs.Streams true →
    LocalOn o P (vs.readAt m env x typed i) Q
  | .nil, P, Q, env, x, typed, i, _, _ => by
    simp only [Variants.readAt]
    exact LocalOn.panic
  | .cons a fs tl, P, Q, env, x, typed, 0, h, hs => by
    simp only [Variants.InOrderAt] at h
    simp only [Variants.Streams] at hs
    simp only [Variants.readAt]
    split
    · rename_i hc
      rw [if_pos hc] at h
      exact Fields.storedLocal m fs _ _ _ _ h hs.1
    · rename_i hc
      rw [if_neg hc] at h
      exact Fields.local m fs _ _ _ h hs.1
  | .cons a fs tl, P, Q, env, x, typed, i + 1, h, hs => by
    simp only [Variants.InOrderAt] at h
    simp only [Variants.Streams] at hs
    simp only [Variants.readAt]
    exact Variants.local m tl _ _ _ _ _ i h hs.2

end

/-! ### `from_bytes` -/

theorem LocalOn.keepsTail {f : M Reader α} {Q : α → Nat → Prop} (h : LocalOn .msb0 (fun _ => True) f Q) :
    KeepsTail f := by
  intro r a r' hr ht he
  have beyond : ∀ s : Reader, s.Past → s.MsbTail := by
    intro s hs
    exact hs.good.tail (by rw [hs.counted]; omega)
  by_cases hb : r.inner.pos ≤ r.inner.data.length
  · rcases h.here _ r a r' trivial (hr.at hb) rfl he with ⟨n, hn, hR, _⟩ | ⟨h1, _⟩
    · exact MsbTail.step ht (hR.run (hr.at hb) rfl hn he).2
    · exact beyond r' h1
  · exact beyond r' (h.past r a r' (hr.past (by omega)) he).1

theorem LocalOn.wholeBytes {f : M Reader α}
    (h : LocalOn o (fun p => p % 8 = 0) f (fun _ q => q % 8 = 0)) : WholeBytes f := by
  intro r a r' hr h8 he
  have beyond : ∀ s : Reader, s.Past → s.bitsRead % 8 = 0 := by
    intro s hs; rw [hs.counted]; omega
  by_cases hb : r.inner.pos ≤ r.inner.data.length
  · rcases h.here _ r a r' h8 (hr.at hb) rfl he with ⟨n, hn, hR, hq⟩ | ⟨h1, _⟩
    · rw [(hR.run (hr.at hb) rfl hn he).2.bitsRead]; exact hq
    · exact beyond r' h1
  · exact beyond r' (h.past r a r' (hr.past (by omega)) he).1

theorem streamFrom_unread {r : Reader} (hr : r.Good) (ht : r.MsbTail)
    (hb : r.inner.pos ≤ r.inner.data.length) : r.unread o = streamFrom o r.inner.data r.bitsRead := by
  have hpos := hr.pos_eq
  have hsync := hr.sync
  have hlt := hr.rest_lt
  simp only [Synced] at hsync
  unfold streamFrom
  rw [unread_eq]
  by_cases h8 : r.bitsRead % 8 = 0
  · rw [if_pos h8, List.eq_nil_of_length_eq_zero (l := r.rest) (by omega)]
    simp only [avail]
    rw [show r.inner.pos = r.bitsRead / 8 by omega]
    cases o <;> simp [present]
  · rw [if_neg h8]
    have hp : r.inner.pos = r.bitsRead / 8 + 1 := by omega
    unfold MsbTail at ht
    cases hd : r.inner.data.drop (r.bitsRead / 8) with
    | nil =>
      have := congrArg List.length hd
      simp at this
      omega
    | cons x xs =>
      have hav : avail r = xs := by
        simp only [avail, hp]
        rw [← List.drop_drop, hd]
        rfl
      have hsplit : (bytesBits r.inner.data).drop r.bitsRead = (byteBits x).drop (r.bitsRead % 8) ++ bytesBits xs := by
        have h1 : (bytesBits r.inner.data).drop (8 * (r.bitsRead / 8)) = bytesBits (x :: xs) := by
          have := drop_orderBits .msb0 (r.bitsRead / 8) r.inner.data
          rw [hd] at this
          exact this
        have h2 : r.bitsRead = 8 * (r.bitsRead / 8) + r.bitsRead % 8 := by omega
        rw [show List.drop r.bitsRead (bytesBits r.inner.data) =
          List.drop (8 * (r.bitsRead / 8) + r.bitsRead % 8) (bytesBits r.inner.data) by rw [← h2],
          ← List.drop_drop, h1, bytesBits_cons, List.drop_append_of_le_length]
        rw [length_byteBits]; omega
      rw [unread_eq, hsplit, hav] at ht
      have hrest : r.rest = (byteBits x).drop (r.bitsRead % 8) := (List.append_inj ht (by
        rw [length_present, List.length_drop, length_byteBits]; omega)).1
      rw [hrest, hav]

theorem readFrom_start {f : M Reader α} {data : List Byte} {off : Nat} (ho : off ≤ 8 * data.length) :
    ∃ r : Reader, readFrom f off (Reader.new { data := data }) = f r ∧ r.Good ∧ r.bitsRead = off ∧
      r.inner.data = data ∧ r.inner.pos ≤ data.length ∧ r.unread o = streamFrom o data off := by
  have h0 := new_good data
  obtain ⟨r, e, st⟩ := skipBits_step (o := .msb0) (n := off) h0 (by simp [Reader.new]) (by
    rw [Reader.new_unread, length_orderBits]; omega)
  have hb : r.bitsRead = off := by rw [st.bitsRead]; simp [Reader.new]
  have hd : r.inner.data = data := st.data
  have hg := h0.step st
  have hin : r.inner.pos ≤ r.inner.data.length := by
    rw [hd]; exact st.bound (by simp [Reader.new])
  by_cases h : off = 0
  · subst h
    refine ⟨_, by rw [readFrom_zero], h0, rfl, rfl, by simp [Reader.new], ?_⟩
    exact streamFrom_unread h0 (h0.tail rfl) (by simp [Reader.new])
  · refine ⟨r, by unfold readFrom; rw [if_pos h, M.bind_ok e], hg, hb, hd, by rw [← hd]; exact hin, ?_⟩
    have := streamFrom_unread (o := o) hg (MsbTail.step (h0.tail rfl) st) hin
    rw [hb, hd] at this
    exact this

theorem LocalOn.fromBytes {f : M Reader α} {Q : α → Nat → Prop} {off : Nat} (h : LocalOn o (· = off) f Q)
    {data rest : List Byte} {b : Nat} {v : α} (he : fromBytes f data off = .ok ((rest, b), v)) :
    ∃ n, 8 * data.length + b = 8 * rest.length + off + n ∧ n ≤ (streamFrom o data off).length ∧
      ∀ data' tl, off ≤ 8 * data'.length → streamFrom o data' off = (streamFrom o data off).take n ++ tl →
        Deku.fromBytes f data' off = .ok ((data'.drop (data.length - rest.length), b), v) := by
  obtain ⟨r', e, hb, rfl, rfl⟩ := fromBytes_ok_iff.1 he
  have hoff : off ≤ 8 * data.length := by
    by_cases ho : off ≤ 8 * data.length
    · exact ho
    · exfalso
      unfold readFrom at e
      rw [if_pos (by omega)] at e
      obtain ⟨u, r1, e1, e2⟩ := M.bind_eq_ok e
      obtain ⟨g1, d1, _⟩ := skipBits_follows (fixed := true) off .msb0 _ _ _ (new_good data) e1
      have hpast : r1.Past := g1.past (by
        rw [d1]
        exact skipBits_beyond (new_good data) (by rw [Reader.new_unread, length_orderBits]; omega) e1)
      obtain ⟨h1, h2⟩ := h.past _ _ _ hpast e2
      have hbey := h1.beyond
      have := h1.counted
      rw [show r'.inner.data = data from h2.trans d1] at hbey
      omega
  obtain ⟨r, er, hg, hrb, hrd, hin, hu⟩ := readFrom_start (o := o) (f := f) hoff
  rw [er] at e
  have hat := hg.at (by rw [hrd]; exact hin)
  rw [hrb] at hat
  rcases h.here off r v r' rfl hat hrb e with ⟨n, hn, hR, _⟩ | ⟨h1, h2⟩
  · obtain ⟨_, st⟩ := hR.run hat hrb hn e
    have hbit := st.bitsRead
    rw [hu] at hn hR
    refine ⟨n, by rw [List.length_drop]; omega, hn, fun data' tl hoff' hs => ?_⟩
    obtain ⟨x, ex, xg, xb, xd, xin, xu⟩ := readFrom_start (o := o) (f := f) hoff'
    have xat := xg.at (by rw [xd]; exact xin)
    rw [xb] at xat
    obtain ⟨x', e', st'⟩ := hR x tl xat xb (by rw [xu, hs])
    rw [List.length_take, Nat.min_eq_left hn] at st'
    have hbit' := st'.bitsRead
    have hsame : x'.bitsRead = r'.bitsRead := by omega
    have hk : data.length - (data.drop (r'.bitsRead / 8)).length = r'.bitsRead / 8 := by simp; omega
    rw [hk]
    refine fromBytes_ok_iff.2 ⟨x', by rw [ex, e'], ?_, by rw [hsame], by rw [hsame]⟩
    have xb' := (xg.step st').pos_eq
    have := st'.bound (by rw [xd]; exact xin)
    rw [xd] at this
    omega
  · exfalso
    have hbey := h1.beyond
    have := h1.counted
    rw [show r'.inner.data = data from h2.trans hrd] at hbey
    omega

/-! ### leaves -/

theorem uint_follows {native e : Endian} {W n : Nat} {ctx : IntCtx} {o' : Order} (hW : 1 ≤ W)
    (hs : ctx.shape native W = (e, n, o')) (h1 : 1 ≤ n) (hn : n ≤ 8 * W) :
    Follows fixed (uintCodec native W ctx).read := by
  have hr := Prim.readUnsigned_delivers native ctx hW
  rw [hs] at hr
  exact (hr h1 hn).follows.map _

theorem uint_local {native e : Endian} {W n : Nat} {ctx : IntCtx} (hW : 1 ≤ W)
    (hs : ctx.shape native W = (e, n, o)) (h1 : 1 ≤ n) (hn : n ≤ 8 * W) {Q : Val → Nat → Prop}
    (hQ : ∀ p v, P p → Q v (p + n)) : LocalOn o P (uintCodec native W ctx).read Q := by
  have hr := Prim.readUnsigned_delivers native ctx hW
  rw [hs] at hr
  exact LocalOn.map _ ((hr h1 hn).localOn h1 fun p _ hp _ => hQ p _ hp)

/-! ### sequences of messages -/

theorem fromBytes_start {f : M Reader α} (hf : Follows fixed f) {data rest : List Byte} {off b : Nat}
    {v : α} (he : fromBytes f data off = .ok ((rest, b), v)) : off ≤ 8 * data.length := by
  obtain ⟨r', e, hb, rfl, rfl⟩ := fromBytes_ok_iff.1 he
  by_cases ho : off ≤ 8 * data.length
  · exact ho
  · exfalso
    unfold readFrom at e
    rw [if_pos (by omega)] at e
    obtain ⟨u, r1, e1, e2⟩ := M.bind_eq_ok e
    obtain ⟨g1, d1, _⟩ := skipBits_follows (fixed := true) off .msb0 _ _ _ (new_good data) e1
    have hpast : r1.Past := g1.past (by
      rw [d1]
      exact skipBits_beyond (new_good data) (by rw [Reader.new_unread, length_orderBits]; omega) e1)
    obtain ⟨h1, h2⟩ := hf.past hpast e2
    have hbey := h1.beyond
    have := h1.counted
    rw [show r'.inner.data = data from h2.trans d1] at hbey
    omega

theorem onePass_follows {fs : List (M Reader α)} (h : ∀ f ∈ fs, Follows fixed f) :
    Follows fixed (onePass fs) := by
  induction fs with
  | nil => exact Follows.pure _
  | cons f fs ih =>
    exact (h f (by simp)).bind fun v => (ih fun g hg => h g (by simp [hg])).map _

theorem readFrom_tail {f : M Reader α} (hf : KeepsTail f) {data : List Byte} {off : Nat} {v : α}
    {r : Reader} (he : readFrom f off (Reader.new { data := data }) = (.ok v, r)) : r.MsbTail := by
  have h0 := new_good data
  have t0 : (Reader.new { data := data }).MsbTail := h0.tail rfl
  unfold readFrom at he
  split at he
  · obtain ⟨u, r1, e1, e2⟩ := M.bind_eq_ok he
    have hg := (skipBits_follows (fixed := true) off .msb0 _ _ _ h0 e1).1
    exact hf _ _ _ hg ((skipBits_local (P := fun _ => True) off).keepsTail _ _ _ h0 t0 e1) e2
  · exact hf _ _ _ h0 t0 he

theorem readFrom_whole {f : M Reader α} (hf : WholeBytes f) {data : List Byte} {v : α}
    {r : Reader} (he : readFrom f 0 (Reader.new { data := data }) = (.ok v, r)) : r.bitsRead % 8 = 0 := by
  rw [readFrom_zero] at he
  exact hf _ _ _ (new_good data) rfl he

theorem fromBytes_map {β : Type} {f : M Reader α} (k : α → β) {data : List Byte} {off : Nat}
    {x : List Byte × Nat} {w : β} :
    fromBytes (f >>= fun v => Pure.pure (k v)) data off = .ok (x, w) ↔
      ∃ v, fromBytes f data off = .ok (x, v) ∧ k v = w := by
  obtain ⟨rest, b⟩ := x
  constructor
  · intro h
    obtain ⟨r, e, h1, h2, h3⟩ := fromBytes_ok_iff.1 h
    rw [readFrom_bind] at e
    obtain ⟨v, r1, e1, e2⟩ := M.bind_eq_ok e
    simp at e2
    obtain ⟨rfl, rfl⟩ := e2
    exact ⟨v, fromBytes_ok_iff.2 ⟨r1, e1, h1, h2, h3⟩, rfl⟩
  · rintro ⟨v, h, rfl⟩
    obtain ⟨r, e, h1, h2, h3⟩ := fromBytes_ok_iff.1 h
    exact fromBytes_ok_iff.2 ⟨r, by rw [readFrom_bind, M.bind_ok e]; rfl, h1, h2, h3⟩

/-- If every message leaves off so that the next call can find the place, a sequence of calls is one
pass. `P` describes the offsets that occur. -/
theorem chain_onePass {P : Nat → Prop} (fs : List (M Reader α)) :
    ∀ (f : M Reader α), (∀ g ∈ f :: fs, Follows false g ∧ ∀ data off v r, P off →
      readFrom g off (Reader.new { data := data }) = (.ok v, r) → r.MsbTail ∧ P (r.bitsRead % 8)) →
    ∀ (data : List Byte) (off : Nat), P off → ∀ x,
      chain (f :: fs) data off = .ok x ↔ fromBytes (onePass (f :: fs)) data off = .ok x := by
  induction fs with
  | nil =>
    rintro f h data off hp ⟨x, vs⟩
    have e : onePass [f] = (f >>= fun v => Pure.pure [v]) := by
      simp only [onePass, M.pure_bind]
    rw [e, fromBytes_map]
    simp only [chain]
    rcases hfb : fromBytes f data off with ⟨⟨rest, b⟩, v⟩ | e | _ <;> simp
    constructor
    · rintro ⟨h1, h2⟩; exact ⟨v, ⟨h1, rfl⟩, h2⟩
    · rintro ⟨_, ⟨h1, rfl⟩, h2⟩; exact ⟨h1, h2⟩
  | cons g gs ih =>
    rintro f h data off hp ⟨x, vs⟩
    have hf := h f (by simp)
    have hgs : ∀ k ∈ g :: gs, _ := fun k hk => h k (List.mem_cons_of_mem _ hk)
    have hfol : Follows false (onePass (g :: gs)) := onePass_follows fun k hk => (hgs k hk).1
    have e : onePass (f :: g :: gs) =
        ((do let v ← f; let w ← onePass (g :: gs); Pure.pure (v, w)) >>= fun p => Pure.pure (p.1 :: p.2)) := by
      rw [onePass]
      simp only [M.bind_assoc, M.pure_bind]
    rw [e, fromBytes_map]
    have two := fun (w : α × List α) => chain_two (x := x) (v := w.1) (w := w.2) hf.1 hfol
      (data := data) (off := off) (fun v r he => (hf.2 data off v r hp he).1)
    have hl : chain (f :: g :: gs) data off = .ok (x, vs) ↔ ∃ w : α × List α,
        (∃ rest b, fromBytes f data off = .ok ((rest, b), w.1) ∧ chain (g :: gs) rest b = .ok (x, w.2)) ∧
          w.1 :: w.2 = vs := by
      rw [chain]
      constructor
      · intro hc
        split at hc
        · rename_i rest b v hfb
          split at hc
          · rename_i y ws hch
            simp at hc
            obtain ⟨rfl, rfl⟩ := hc
            exact ⟨(v, ws), ⟨rest, b, hfb, hch⟩, rfl⟩
          · simp at hc
          · simp at hc
        · simp at hc
        · simp at hc
      · rintro ⟨w, ⟨rest, b, h1, h2⟩, rfl⟩
        simp only [h1, h2]
    rw [hl]
    refine exists_congr fun w => and_congr ?_ Iff.rfl
    rw [← two w]
    refine exists_congr fun rest => exists_congr fun b => and_congr_right fun hfb => ?_
    obtain ⟨r, er, _, _, rfl⟩ := fromBytes_ok_iff.1 hfb
    exact ih g hgs rest _ (hf.2 data off _ r hp er).2 (x, w.2)

end Deku
