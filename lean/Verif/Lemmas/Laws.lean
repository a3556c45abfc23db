import Verif.Spec.Laws
import Verif.Lemmas.IntCodec

/-! # The laws are closed under sequencing -/

namespace Deku

open Reader Writer

variable {α β : Type} {o : Order} {p : Nat}

theorem Reader.At.live {r : Reader} (h : r.At p) : r.Live p :=
  ⟨h.healthy, h.wf, h.sync, h.bound, h.phase⟩

theorem Reader.Live.at {r : Reader} (h : r.Live p) (hp : r.NoPeek) : r.At p :=
  ⟨h.healthy, h.wf, hp, h.sync, h.bound, h.phase⟩

theorem Reader.Live.step {n : Nat} {r r' : Reader} (h : r.Live p) (hs : Step o n r r')
    (hn : r.NoPeek ∨ 0 < n) : r'.At (p + n) where
  healthy := hs.healthy
  wf := hs.wf
  noPeek := hs.noPeek hn
  sync := hs.synced h.sync
  bound := by rw [hs.data]; exact hs.bound h.bound
  phase := by have := h.phase; rw [hs.bitsRead]; omega

theorem PeekReads.reads {f : M Reader α} {bits : List Bool} {a : α} (h : PeekReads o p f bits a) :
    Reads o p f bits a := fun r rest hr hu => h r rest hr.live hu

theorem PeekReads.bind {f : M Reader α} {g : α → M Reader β} {x y : List Bool} {a : α} {b : β}
    (hf : PeekReads o p f x a) (hx : x ≠ []) (hg : Reads o (p + x.length) (g a) y b) :
    PeekReads o p (f >>= g) (x ++ y) b := by
  intro r rest h hu
  obtain ⟨r1, e1, s1⟩ := hf r (y ++ rest) h (by rw [hu, List.append_assoc])
  obtain ⟨r2, e2, s2⟩ := hg r1 rest (h.step s1 (.inr (List.length_pos_iff.2 hx))) (by
    rw [s1.unread, hu, List.append_assoc, List.drop_left])
  exact ⟨r2, by rw [M.bind_ok e1, e2], by rw [List.length_append]; exact s1.trans s2⟩

/-- Running a `Reads` on the reader it was obtained from. -/
theorem Reads.run {f : M Reader α} {n : Nat} {a b : α} {r r' : Reader} (hr : r.At p)
    (hn : n ≤ (r.unread o).length) (h : Reads o p f ((r.unread o).take n) a)
    (he : f r = (.ok b, r')) : a = b ∧ Step o n r r' := by
  obtain ⟨r1, e1, s1⟩ := h r ((r.unread o).drop n) hr (List.take_append_drop ..).symm
  rw [he] at e1
  simp at e1
  rw [List.length_take, Nat.min_eq_left hn] at s1
  obtain ⟨rfl, rfl⟩ := e1
  exact ⟨rfl, s1⟩

theorem Local.congr {f : M Reader α} {q : Nat} (h : Local o p f) (hq : q % 8 = p % 8) :
    Local o q f where
  here r a r' hr he := by
    rcases h.here r a r' (hr.congr hq) he with ⟨n, hn, hR⟩ | h
    · exact .inl ⟨n, hn, hR.congr hq⟩
    · exact .inr h
  past := h.past

theorem Local.pure (a : α) : Local o p (Pure.pure a : M Reader α) where
  here r b r' hr he := by
    simp at he
    obtain ⟨rfl, rfl⟩ := he
    exact .inl ⟨0, Nat.zero_le _, Reads.pure o p _⟩
  past r b r' hr he := by
    simp at he
    obtain ⟨rfl, rfl⟩ := he
    exact ⟨hr, rfl, Nat.le_refl _⟩

theorem Local.throw (e : DekuError) : Local o p (M.throw e : M Reader α) where
  here r b r' hr he := by simp at he
  past r b r' hr he := by simp at he

theorem Local.panic : Local o p (M.panic : M Reader α) where
  here r b r' hr he := by simp at he
  past r b r' hr he := by simp at he

theorem Local.bind {f : M Reader α} {g : α → M Reader β} (hf : Local o p f)
    (hg : ∀ a n, Local o (p + n) (g a)) : Local o p (f >>= g) where
  here r b r2 hr he := by
    obtain ⟨a, r1, e1, e2⟩ := M.bind_eq_ok he
    rcases hf.here r a r1 hr e1 with ⟨n, hn, hR⟩ | ⟨hpast, hd⟩
    · obtain ⟨_, s1⟩ := hR.run hr hn e1
      rcases (hg a n).here r1 b r2 (hr.step s1) e2 with ⟨m, hm, hR2⟩ | ⟨hp2, hd2⟩
      · left
        rw [s1.unread, List.length_drop] at hm
        refine ⟨n + m, by omega, ?_⟩
        rw [List.take_add]
        refine hR.bind ?_
        rw [List.length_take, Nat.min_eq_left hn, ← s1.unread]
        exact hR2
      · exact .inr ⟨hp2, hd2.trans s1.data⟩
    · obtain ⟨hp2, hd2, _⟩ := (hg a 0).past r1 b r2 hpast e2
      exact .inr ⟨hp2, hd2.trans hd⟩
  past r b r2 hr he := by
    obtain ⟨a, r1, e1, e2⟩ := M.bind_eq_ok he
    obtain ⟨hp1, hd1, hb1⟩ := hf.past r a r1 hr e1
    obtain ⟨hp2, hd2, hb2⟩ := (hg a 0).past r1 b r2 hp1 e2
    exact ⟨hp2, hd2.trans hd1, Nat.le_trans hb1 hb2⟩

theorem Local.map {f : M Reader α} (hf : Local o p f) (k : α → β) :
    Local o p (f >>= fun a => Pure.pure (k a)) := hf.bind fun _ _ => Local.pure _

theorem Local.ite {c : Prop} [Decidable c] {f g : M Reader α} (hf : c → Local o p f)
    (hg : ¬ c → Local o p g) : Local o p (if c then f else g) := by
  split
  · exact hf ‹_›
  · exact hg ‹_›

theorem Reader.Past.wf {r : Reader} (h : r.Past) : r.WF := by
  intro l hl; rw [h.empty] at hl; simp at hl

theorem Reader.Past.unread {r : Reader} (h : r.Past) (o : Order) : r.unread o = [] := by
  rw [unread_none _ _ h.empty, avail, List.drop_eq_nil_of_le (Nat.le_of_lt h.beyond)]
  cases o <;> rfl

/-! ### strict parsers -/

theorem Strict.congr {f : M Reader α} {q : Nat} (h : Strict o p f) (hq : q % 8 = p % 8) :
    Strict o q f := by
  intro r a r' hr he
  obtain ⟨n, hn, hR⟩ := h r a r' (hr.congr hq) he
  exact ⟨n, hn, hR.congr hq⟩

theorem Strict.pure (a : α) : Strict o p (Pure.pure a : M Reader α) := by
  intro r b r' hr he
  simp at he
  obtain ⟨rfl, rfl⟩ := he
  exact ⟨0, Nat.zero_le _, Reads.pure o p _⟩

theorem Strict.throw (e : DekuError) : Strict o p (M.throw e : M Reader α) := by
  intro r b r' hr he; simp at he

theorem Strict.bind {f : M Reader α} {g : α → M Reader β} (hf : Strict o p f)
    (hg : ∀ a n, Strict o (p + n) (g a)) : Strict o p (f >>= g) := by
  intro r b r2 hr he
  obtain ⟨a, r1, e1, e2⟩ := M.bind_eq_ok he
  obtain ⟨n, hn, hR⟩ := hf r a r1 hr e1
  obtain ⟨_, s1⟩ := hR.run hr hn e1
  obtain ⟨m, hm, hR2⟩ := hg a n r1 b r2 (hr.step s1) e2
  rw [s1.unread, List.length_drop] at hm
  refine ⟨n + m, by omega, ?_⟩
  rw [List.take_add]
  refine hR.bind ?_
  rw [List.length_take, Nat.min_eq_left hn, ← s1.unread]
  exact hR2

theorem Strict.map {f : M Reader α} (hf : Strict o p f) (k : α → β) :
    Strict o p (f >>= fun a => Pure.pure (k a)) := hf.bind fun _ _ => Strict.pure _

theorem Strict.ite {c : Prop} [Decidable c] {f g : M Reader α} (hf : c → Strict o p f)
    (hg : ¬ c → Strict o p g) : Strict o p (if c then f else g) := by
  split
  · exact hf ‹_›
  · exact hg ‹_›

theorem PeekStrict.strict {f : M Reader α} (h : PeekStrict o p f) : Strict o p f := by
  intro r a r' hr he
  obtain ⟨n, _, hn, hR⟩ := h r a r' hr.live he
  exact ⟨n, hn, hR.reads⟩

theorem PeekReads.run {f : M Reader α} {n : Nat} {a b : α} {r r' : Reader} (hr : r.Live p)
    (hn : n ≤ (r.unread o).length) (h : PeekReads o p f ((r.unread o).take n) a)
    (he : f r = (.ok b, r')) : a = b ∧ Step o n r r' := by
  obtain ⟨r1, e1, s1⟩ := h r ((r.unread o).drop n) hr (List.take_append_drop ..).symm
  rw [he] at e1
  simp at e1
  rw [List.length_take, Nat.min_eq_left hn] at s1
  obtain ⟨rfl, rfl⟩ := e1
  exact ⟨rfl, s1⟩

theorem PeekStrict.bind {f : M Reader α} {g : α → M Reader β} (hf : PeekStrict o p f)
    (hg : ∀ a n, Strict o (p + n) (g a)) : PeekStrict o p (f >>= g) := by
  intro r b r2 hr he
  obtain ⟨a, r1, e1, e2⟩ := M.bind_eq_ok he
  obtain ⟨n, h1, hn, hR⟩ := hf r a r1 hr e1
  obtain ⟨_, s1⟩ := hR.run hr hn e1
  obtain ⟨m, hm, hR2⟩ := hg a n r1 b r2 (hr.step s1 (.inr h1)) e2
  rw [s1.unread, List.length_drop] at hm
  refine ⟨n + m, by omega, by omega, ?_⟩
  rw [List.take_add]
  refine hR.bind ?_ ?_
  · intro h
    have := congrArg List.length h
    rw [List.length_take, Nat.min_eq_left hn] at this
    simp at this; omega
  · rw [List.length_take, Nat.min_eq_left hn, ← s1.unread]
    exact hR2

theorem Prim.Delivers.peekStrict {n : Nat} {f : M Reader α} {val : List Bool → α}
    (h : Prim.Delivers o n f val) (h1 : 1 ≤ n) (p : Nat) : PeekStrict o p f := by
  intro r a r' hr he
  by_cases hn : n ≤ (r.unread o).length
  · obtain ⟨r1, e1, s1⟩ := (h r hr.healthy hr.wf).1 hn
    rw [he] at e1
    simp at e1
    refine ⟨n, h1, hn, ?_⟩
    rw [e1.1]
    intro r2 rest hr2 hu
    obtain ⟨r', e, s⟩ := (h r2 hr2.healthy hr2.wf).1 (by rw [hu]; simp; omega)
    rw [hu, List.take_append_of_le_length (by simp; omega), List.take_take, Nat.min_self] at e
    exact ⟨r', e, by rw [List.length_take, Nat.min_eq_left hn]; exact s⟩
  · obtain ⟨k, r1, e1, _⟩ := (h r hr.healthy hr.wf).2 hn
    rw [he] at e1
    simp at e1

/-- Everything that delivers a number of bits is local. -/
theorem Prim.Delivers.local {n : Nat} {f : M Reader α} {val : List Bool → α}
    (h : Prim.Delivers o n f val) (h1 : 1 ≤ n) (p : Nat) : Local o p f where
  here r a r' hr he := by
    by_cases hn : n ≤ (r.unread o).length
    · left
      obtain ⟨r1, e1, s1⟩ := (h r hr.healthy hr.wf).1 hn
      rw [he] at e1
      simp at e1
      refine ⟨n, hn, ?_⟩
      rw [e1.1]
      exact h.reads (by simp; omega) p
    · obtain ⟨k, r1, e1, _⟩ := (h r hr.healthy hr.wf).2 hn
      rw [he] at e1
      simp at e1
  past r a r' hr he := by
    obtain ⟨k, r1, e1, _⟩ := (h r hr.healthy hr.wf).2 (by rw [hr.unread]; simp; omega)
    rw [he] at e1
    simp at e1

theorem Prim.Delivers.peekReads {n : Nat} {f : M Reader α} {val : List Bool → α}
    (h : Prim.Delivers o n f val) {bits : List Bool} (hb : bits.length = n)
    (p : Nat) : PeekReads o p f bits (val bits) := by
  intro r rest hr hu
  obtain ⟨r', e, s⟩ := (h r hr.healthy hr.wf).1 (by rw [hu]; simp; omega)
  subst hb
  rw [hu, List.take_left] at e
  exact ⟨r', e, s⟩

theorem Prim.Delivers.noPanic {n : Nat} {f : M Reader α} {val : List Bool → α}
    (h : Prim.Delivers o n f val) {r : Reader} (hf : r.Healthy) (hw : r.WF) : (f r).1 ≠ .panic := by
  by_cases hn : n ≤ (r.unread o).length
  · obtain ⟨r1, e1, _⟩ := (h r hf hw).1 hn; rw [e1]; simp
  · obtain ⟨k, r1, e1, _⟩ := (h r hf hw).2 hn; rw [e1]; simp

theorem Prim.Delivers.calm {n : Nat} {f : M Reader α} {val : List Bool → α}
    (h : Prim.Delivers o n f val) (mem p : Nat) : Calm mem p f :=
  fun _ hr _ => h.noPanic hr.healthy hr.wf

theorem Prim.Delivers.calmPast {n : Nat} {f : M Reader α} {val : List Bool → α}
    (h : Prim.Delivers o n f val) : CalmPast f := fun _ hr => h.noPanic hr.healthy hr.wf

/-! ### no panics -/

theorem M.bind_no_panic {σ : Type} {f : M σ α} {g : α → M σ β} {s : σ} (hf : (f s).1 ≠ .panic)
    (hg : ∀ a s', f s = (.ok a, s') → (g a s').1 ≠ .panic) : ((f >>= g) s).1 ≠ .panic := by
  rw [M.bind_def]
  cases h : f s with
  | mk r s' =>
    rw [h] at hf
    cases r with
    | ok a => exact hg a s' h
    | err e => simp
    | panic => simp at hf

theorem Calm.congr {mem q : Nat} {f : M Reader α} (h : Calm mem p f) (hq : q % 8 = p % 8) :
    Calm mem q f := fun r hr => h r (hr.congr hq)

theorem Calm.pure (mem : Nat) (a : α) : Calm mem p (Pure.pure a : M Reader α) :=
  fun _ _ _ => by simp

theorem Calm.throw (mem : Nat) (e : DekuError) : Calm mem p (M.throw e : M Reader α) :=
  fun _ _ _ => by simp

/-- Without skips beyond the end. -/
theorem Calm.bind {mem : Nat} {f : M Reader α} {g : α → M Reader β} (hl : Local o p f)
    (hf : Calm mem p f) (hg : ∀ a n, Calm mem (p + n) (g a)) (hp : ∀ a, CalmPast (g a)) :
    Calm mem p (f >>= g) := by
  intro r hr hm
  refine M.bind_no_panic (hf r hr hm) fun a r1 e1 => ?_
  rcases hl.here r a r1 hr e1 with ⟨n, hn, hR⟩ | ⟨hpast, _⟩
  · obtain ⟨_, s1⟩ := hR.run hr hn e1
    exact hg a n r1 (hr.step s1) (by rw [s1.data]; exact hm)
  · exact hp a r1 hpast

theorem CalmPast.bind {f : M Reader α} {g : α → M Reader β} (hl : Local o p f)
    (hf : CalmPast f) (hp : ∀ a, CalmPast (g a)) : CalmPast (f >>= g) := by
  intro r hr
  exact M.bind_no_panic (hf r hr) fun a r1 e1 => hp a r1 (hl.past r a r1 hr e1).1

theorem CalmPast.pure (a : α) : CalmPast (Pure.pure a : M Reader α) := fun _ _ => by simp

theorem CalmPast.throw (e : DekuError) : CalmPast (M.throw e : M Reader α) := fun _ _ => by simp

/-! ### canonical formats -/

theorem Canonical.here {f : M Reader α} {g : α → M Writer Unit} (h : Canonical o p f g) {r r' : Reader}
    {a : α} (hr : r.At p) (he : f r = (.ok a, r')) :
    ∃ n, n ≤ (r.unread o).length ∧ Reads o p f ((r.unread o).take n) a ∧
      Writes o p (g a) ((r.unread o).take n) ∧ Step o n r r' := by
  obtain ⟨n, hn, hR, hW⟩ := h r a r' hr he
  exact ⟨n, hn, hR, hW, (hR.run hr hn he).2⟩

/-! ### writers -/

theorem Writes.run {g : M Writer Unit} {bits : List Bool} (h : Writes o p g bits) {w w' : Writer}
    (hw : w.At o p) (he : g w = (.ok (), w')) : Wrote o bits w w' ∧ w'.At o (p + bits.length) := by
  obtain ⟨w1, e1, s1, r1⟩ := h w hw
  rw [he] at e1
  simp at e1
  subst e1
  exact ⟨s1, hw.wrote s1 r1⟩

theorem Sound.congr {q : Nat} {f : M Reader α} {g : M Writer Unit} {v : α} (h : Sound o p f g v)
    (hq : q % 8 = p % 8) : Sound o q f g v := by
  intro w w' hw he
  obtain ⟨bits, h1, h2⟩ := h w w' (hw.congr hq) he
  exact ⟨bits, h1.congr hq, h2.congr hq⟩

theorem Sound.pure (v : α) : Sound o p (Pure.pure v : M Reader α) (Pure.pure ()) v :=
  fun _ _ _ _ => ⟨[], Writes.pure o p, Reads.pure o p v⟩

/-- Two values in sequence. -/
theorem Sound.bind {f : M Reader α} {g : M Writer Unit} {v : α} {f' : α → M Reader β}
    {g' : M Writer Unit} {v' : β} (h : Sound o p f g v)
    (h' : ∀ bits, Writes o p g bits → Reads o p f bits v →
      Sound o (p + bits.length) (f' v) g' v') :
    Sound o p (f >>= f') (g >>= fun _ => g') v' := by
  intro w w2 hw he
  obtain ⟨u, w1, e1, e2⟩ := M.bind_eq_ok he
  obtain ⟨x, hW, hR⟩ := h w w1 hw e1
  obtain ⟨_, hw1⟩ := hW.run hw e1
  obtain ⟨y, hW', hR'⟩ := h' x hW hR w1 w2 hw1 e2
  exact ⟨x ++ y, hW.bind hW', hR.bind hR'⟩

theorem Sound.mapRead {f : M Reader α} {g : M Writer Unit} {v : α} (h : Sound o p f g v)
    (k : α → β) : Sound o p (f >>= fun a => Pure.pure (k a)) g (k v) := by
  intro w w' hw he
  obtain ⟨x, hW, hR⟩ := h w w' hw he
  exact ⟨x, hW, hR.map k⟩

end Deku
