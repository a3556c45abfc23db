import Verif.Spec.Parse
import Verif.Lemmas.ConsistentTypes
import Verif.Lemmas.Locality
import Verif.Lemmas.Canon
import Verif.Lemmas.Safe

/-! # The code parses what the parser of the specification parses -/

namespace Deku

open Reader Coll Parser

variable {α β : Type} {o : Order}

/-! ### the parser -/

theorem Parser.pure_run (a : α) (k : Bool) (l : List Bool) : (pure a : Parser α) k l = .ok a k l := rfl

theorem Parser.bind_run (q : Parser α) (f : α → Parser β) (k : Bool) (l : List Bool) : (q >>= f) k l =
    match q k l with
    | .ok a k' l' => f a k' l'
    | .no w => .no w
    | .unclear => .unclear := rfl

theorem Parser.bind_assoc {γ : Type} (q : Parser α) (f : α → Parser β) (g : β → Parser γ) :
    (q >>= f) >>= g = q >>= fun a => f a >>= g := by
  funext k l
  simp only [Parser.bind_run]
  cases q k l <;> rfl

theorem Parser.pure_bind (a : α) (f : α → Parser β) : (pure a : Parser α) >>= f = f a := rfl

/-! ### readers -/

/-- A reader in use, with a peeked byte only if `k` says so. -/
structure Stands (k : Bool) (r : Reader) : Prop where
  live : r.Live r.bitsRead
  peek : k = false → r.NoPeek

/-- The reader has `l` left. -/
structure Got (o : Order) (k : Bool) (l : List Bool) (r r' : Reader) : Prop where
  stands : Stands k r'
  unread : r'.unread o = l
  data : r'.inner.data = r.inner.data
  mono : r.bitsRead ≤ r'.bitsRead

theorem Why.Reported.bind {w : Why} {f : M Reader α} {g : α → M Reader β} {r : Reader} (h : w.Reported (f r).1) :
    w.Reported ((f >>= g) r).1 := by
  rcases hf : f r with ⟨x, r'⟩
  rw [hf] at h
  cases x with
  | ok a => cases w <;> simp [Why.Reported] at h
  | err e => rw [M.bind_err hf]; cases w <;> simp_all [Why.Reported]
  | panic => rw [M.bind_panic hf]; cases w <;> simp_all [Why.Reported]

theorem Why.Reported.not_ok {w : Why} {x : Res α} (h : w.Reported x) (a : α) : x ≠ .ok a := by
  rintro rfl
  cases w <;> simp [Why.Reported] at h

/-- The computation gives what the parser says; where the parser says that there is no value, it fails or is beyond the
end of the input. -/
def Agrees (o : Order) (f : M Reader α) (r : Reader) : Verdict α → Prop
  | .ok a k' l => ∃ r', f r = (.ok a, r') ∧ Got o k' l r r'
  | .no w => (w = .beyond ∧ ∀ a r', f r = (.ok a, r') → r'.Past ∧ r'.inner.data = r.inner.data) ∨ w.Reported (f r).1
  | .unclear => True

structure Decodes (o : Order) (f : M Reader α) (q : Parser α) : Prop where
  here : ∀ k r, Stands k r → Agrees o f r (q k (r.unread o))
  past : ∀ r a r', r.Past → f r = (.ok a, r') → r'.Past ∧ r'.inner.data = r.inner.data

theorem Reader.Live.count {p : Nat} {r : Reader} (h : r.Live p) (o : Order) :
    r.bitsRead + (r.unread o).length = 8 * r.inner.data.length := by
  have h1 := h.sync
  have h2 := h.bound
  simp only [Synced] at h1
  rw [length_unread, avail, List.length_drop]
  omega

theorem Stands.aligned {k : Bool} {r : Reader} (h : Stands k r) (o : Order) (ha : (r.unread o).length % 8 = 0) :
    r.bitsRead % 8 = 0 := by
  have := h.live.count o
  omega

theorem Stands.step {k : Bool} {r r' : Reader} {n : Nat} (h : Stands k r) (s : Step o n r r') :
    Got o (k && decide (n = 0)) ((r.unread o).drop n) r r' where
  stands := ⟨by
      have := h.live.move s
      exact ⟨this.healthy, this.wf, this.sync, this.bound, rfl⟩, fun hk => by
      refine s.noPeek ?_
      by_cases hn : n = 0
      · subst hn
        simp only [decide_true, Bool.and_true] at hk
        exact .inl (h.peek hk)
      · exact .inr (by omega)⟩
  unread := s.unread
  data := s.data
  mono := by rw [s.bitsRead]; omega

theorem Stands.good {r : Reader} (h : Stands false r) : r.Good where
  healthy := h.live.healthy
  wf := h.live.wf
  noPeek := h.peek rfl
  sync := h.live.sync
  inside _ := h.live.bound

/-! ### combinators -/

theorem Decodes.pure (a : α) : Decodes o (Pure.pure a) (Pure.pure a) where
  here k r h := ⟨r, rfl, h, rfl, rfl, Nat.le_refl _⟩
  past r b r' h e := by cases e; exact ⟨h, rfl⟩

theorem Agrees.bind {f : M Reader α} {q : Parser α} {g : α → M Reader β} {p : α → Parser β} {k : Bool} {r : Reader}
    (hf : Agrees o f r (q k (r.unread o)))
    (hg : ∀ a k' l r1, f r = (.ok a, r1) → Got o k' l r r1 → Agrees o (g a) r1 (p a k' (r1.unread o)))
    (hp : ∀ a r b r', r.Past → g a r = (.ok b, r') → r'.Past ∧ r'.inner.data = r.inner.data) :
    Agrees o (f >>= g) r ((q >>= p) k (r.unread o)) := by
  rw [Parser.bind_run]
  cases hq : q k (r.unread o) with
  | ok a k' l =>
    rw [hq] at hf
    obtain ⟨r1, e1, s1⟩ := hf
    have h2 := hg a k' l r1 e1 s1
    rw [s1.unread] at h2
    dsimp only
    cases hp : p a k' l with
    | ok b k'' l' =>
      rw [hp] at h2
      obtain ⟨r2, e2, s2⟩ := h2
      exact ⟨r2, by rw [M.bind_ok e1, e2], s2.stands, s2.unread, s2.data.trans s1.data, Nat.le_trans s1.mono s2.mono⟩
    | no w =>
      rw [hp] at h2
      rcases h2 with ⟨hw, h2⟩ | h2
      · refine .inl ⟨hw, fun b r' e => ?_⟩
        rw [M.bind_ok e1] at e
        obtain ⟨h3, h4⟩ := h2 b r' e
        exact ⟨h3, h4.trans s1.data⟩
      · refine .inr ?_
        rw [M.bind_ok e1]
        exact h2
    | unclear => trivial
  | no w =>
    rw [hq] at hf
    rcases hf with ⟨hw, hf⟩ | hf
    · refine .inl ⟨hw, fun b r' e => ?_⟩
      obtain ⟨a, r1, e1, e2⟩ := M.bind_eq_ok e
      obtain ⟨h2, h3⟩ := hf a r1 e1
      obtain ⟨h4, h5⟩ := hp a r1 b r' h2 e2
      exact ⟨h4, h5.trans h3⟩
    · exact .inr hf.bind
  | unclear => trivial

theorem Decodes.bind {f : M Reader α} {q : Parser α} {g : α → M Reader β} {p : α → Parser β} (hf : Decodes o f q)
    (hg : ∀ a, Decodes o (g a) (p a)) : Decodes o (f >>= g) (q >>= p) where
  here k r h := (hf.here k r h).bind (fun a k' l r1 _ s => (hg a).here k' r1 s.stands) fun a => (hg a).past
  past r b r' h e := by
    obtain ⟨a, r1, e1, e2⟩ := M.bind_eq_ok e
    obtain ⟨h2, h3⟩ := hf.past r a r1 h e1
    obtain ⟨h4, h5⟩ := (hg a).past r1 b r' h2 e2
    exact ⟨h4, h5.trans h3⟩

theorem Decodes.map {f : M Reader α} {q : Parser α} (hf : Decodes o f q) (g : α → β) :
    Decodes o (f >>= fun a => Pure.pure (g a)) (q >>= fun a => Pure.pure (g a)) :=
  hf.bind fun _ => Decodes.pure _

theorem Decodes.unclear {f : M Reader α} (hp : ∀ r a r', r.Past → f r = (.ok a, r') → r'.Past ∧ r'.inner.data = r.inner.data) :
    Decodes o f (Parser.unclear : Parser α) where
  here _ _ _ := trivial
  past := hp

/-- A computation that fails in this way. -/
theorem Decodes.fail {f : M Reader α} {w : Why} (h : ∀ r, w.Reported (f r).1) : Decodes o f (Parser.fail w : Parser α) where
  here _ r _ := .inr (h r)
  past r a _ _ e := absurd (congrArg Prod.fst e) ((h r).not_ok a)

theorem Decodes.panic : Decodes o (M.panic : M Reader α) (Parser.fail .panic : Parser α) :=
  Decodes.fail fun _ => rfl

theorem Decodes.guard {f : M Reader α} {q : Parser α} {w : Why} {b : Bool} (h : b = true → Decodes o f q)
    (hn : b = false → ∀ r, w.Reported (f r).1) : Decodes o f (Parser.guard w b >>= fun _ => q) := by
  cases b with
  | true => exact h rfl
  | false => exact Decodes.fail (hn rfl)

theorem Decodes.provided {f : M Reader α} {q : Parser α} {b : Bool → List Bool → Bool} 
    (hh : ∀ k r, Stands k r → b k (r.unread o) = true → 
      Agrees o f r (q k (r.unread o)))
    (hp : ∀ r a r', r.Past → f r = (.ok a, r') → r'.Past ∧ r'.inner.data = r.inner.data) :
    Decodes o f (Parser.provided b >>= fun _ => q) where
  here k r h := by
    have h1 := hh k r h
    rw [Parser.bind_run]
    unfold Parser.provided
    by_cases hb : b k (r.unread o) = true
    · rw [if_pos hb]
      exact h1 hb
    · rw [if_neg hb]
      trivial
  past := hp

theorem Decodes.left {f : M Reader α} {q : Nat → Parser α}
    (h : ∀ n, Decodes o f (q n)) : Decodes o f (Parser.left >>= q) where
  here k r hs := (h _).here k r hs
  past := (h 0).past

/-! ### bits -/

theorem Decodes.delivers {n : Nat} {f : M Reader α} {val : List Bool → α} (h : Prim.Delivers o n f val)
    : Decodes o f (Parser.take n >>= fun l => Pure.pure (val l)) where
  here k r hs := by
    obtain ⟨h1, h2⟩ := h r hs.live.healthy hs.live.wf
    rw [Parser.bind_run]
    unfold Parser.take
    by_cases hn : n ≤ (r.unread o).length
    · rw [if_pos hn]
      obtain ⟨r', e, s⟩ := h1 hn
      exact ⟨r', e, hs.step s⟩
    · rw [if_neg hn]
      obtain ⟨j, r1, e1, _⟩ := h2 hn
      exact .inr ⟨j, by rw [e1]⟩
  past r a r' hr e := h.follows (fixed := true) |>.past hr e

theorem Stands.bytes {k : Bool} {r : Reader} (h : Stands k r) (o : Order) (ha : (r.unread o).length % 8 = 0) :
    ∃ bs : List Byte, ∀ o, r.unread o = orderBits o bs := h.live.bytes (h.aligned o ha)

/-- A number of bits in one of the orders, if it is the order of the input, or if it is a number of bytes that begins
where a byte begins. -/
theorem Decodes.inOrder {o' : Order} {n : Nat} {whole : Bool} {f : M Reader α} {val : List Bool → α} {val' : List Bool → α}
    (h : Prim.Delivers o' n f val) (hw : whole = true → n % 8 = 0) (hv : o' = o → ∀ l, l.length = n → val l = val' l)
    (hv' : whole = true → ∀ bs : List Byte, 8 * bs.length = n → val (orderBits o' bs) = val' (orderBits o bs)) :
    Decodes o f (Parser.inOrder o o' whole >>= fun _ => Parser.take n >>= fun l => Pure.pure (val' l)) := by
  refine Decodes.provided (fun k r hs hb => ?_) fun r a r' hr e => h.follows (fixed := true) |>.past hr e
  by_cases ho : o' = o
  · subst ho
    exact (Decodes.delivers (h.congr (hv rfl))).here k r hs
  · simp only [decide_eq_false ho, Bool.false_or, Bool.and_eq_true, decide_eq_true_eq] at hb
    obtain ⟨hb, ha⟩ := hb
    obtain ⟨bs, hbs⟩ := hs.bytes o ha
    have hn := hw hb
    obtain ⟨m, rfl⟩ : ∃ m, n = 8 * m := ⟨n / 8, by omega⟩
    obtain ⟨h1, h2⟩ := h r hs.live.healthy hs.live.wf
    have hlen : (r.unread o').length = (r.unread o).length := by rw [length_unread, length_unread]
    rw [Parser.bind_run]
    unfold Parser.take
    by_cases hn : 8 * m ≤ (r.unread o).length
    · rw [if_pos hn]
      obtain ⟨r', e, s⟩ := h1 (by omega)
      refine ⟨r', ?_, hs.step (Step.switchLive hs.live (hs.aligned o ha) s)⟩
      rw [e]
      have hb := hbs o
      rw [hb, length_orderBits] at hn
      rw [hbs o', hb, orderBits_take, orderBits_take, hv' ‹_› _ (by rw [List.length_take]; omega)]
    · rw [if_neg hn]
      obtain ⟨j, r1, e1, _⟩ := h2 (by omega)
      exact .inr ⟨j, by rw [e1]⟩

/-! ### bytes and paddings -/

theorem byte_decodes (native : Endian) : Decodes o (u8Read native) (byte o) := by
  unfold byte octet
  refine Decodes.inOrder (u8Read_delivers native) (fun _ => rfl) (fun h _ _ => by rw [h]) fun _ bs hb => ?_
  match bs, hb with
  | [b], _ => cases o <;> simp [orderBits, bytesBits, bytesBitsLsb, present]

theorem magic_decodes (native : Endian) : ∀ magic, Decodes o (magicRead native magic) (magicParse o magic)
  | [] => Decodes.pure ()
  | b :: bs => by
    refine (byte_decodes native).bind fun v => Decodes.guard (fun h => ?_) fun h r => ?_
    · rw [if_neg (by rw [of_decide_eq_true h]; simp)]
      exact magic_decodes native bs
    · rw [if_pos (Ne.symm (of_decide_eq_false h))]
      rfl

theorem skipTail_small {n : Nat} (h : n < 8) (o : Order) :
    skipTail n o = readBitsInto n o >>= fun _ => Pure.pure () := by
  rw [skipTail_eq, if_neg (by omega), M.pure_bind, Nat.mod_eq_of_lt h]

/-- Too few bits to skip, and the last ones are not a whole byte. -/
theorem skipBits_short {n : Nat} {r : Reader} (hr : r.Good) (hn : ¬ n ≤ (r.unread o).length)
    (h8 : n % 8 ≠ (r.unread o).length % 8) :
    ∃ j, (skipBits n o r).1 = .err (.incomplete j) := by
  have tail : ∀ (s : Reader) (m : Nat), s.Good → s.leftover = none → ¬ m ≤ (s.unread o).length →
      m % 8 ≠ 0 → ∃ j, (skipTail m o s).1 = .err (.incomplete j) := by
    intro s m hs hl hm h8
    obtain ⟨_, h2, _⟩ := skipTail_none (n := m) (o := o) hs.healthy hl hs.sync
    obtain ⟨s', e⟩ := h2 hm h8
    exact ⟨_, by rw [e]⟩
  have hlen := length_unread o r
  rcases hl : r.leftover with _ | (b | l)
  · rw [skipBits_other (by simp [hl])]
    refine tail r n hr hl hn ?_
    have : r.rest.length = 0 := by simp [Reader.rest, hl, leftoverBits]
    omega
  · exact absurd hl (hr.noPeek b)
  · rw [skipBits_bits hl]
    have hrl : r.rest.length = l.length := by simp [Reader.rest, hl, leftoverBits]
    obtain ⟨r1, e1, s1⟩ := readBitsInto_ok o (n := min n l.length) hr.healthy hr.wf (by omega)
    rw [M.bind_ok e1]
    rw [Nat.min_eq_right (by omega)] at s1 ⊢
    have h1 := hr.step s1
    have hrest : r1.rest = [] := by
      have e := step_pos s1
      have := h1.rest_lt
      exact List.eq_nil_of_length_eq_zero (by omega)
    have hl1 : r1.leftover = none := by
      rcases hl : r1.leftover with _ | (b | l)
      · rfl
      · exact absurd hl (h1.noPeek b)
      · have := h1.wf l hl
        simp [Reader.rest, hl, leftoverBits] at hrest
        rw [hrest] at this
        simp at this
    exact tail r1 _ h1 hl1 (by rw [s1.unread, List.length_drop]; omega) (by omega)

/-- Skipping in the order of the input. -/
theorem skip_here {k : Bool} {n : Nat} {r : Reader} (hs : Stands k r) (hk : k = false ∨ n < 8) :
    Agrees o (skipBits n o) r (Parser.drop n k (r.unread o)) := by
  unfold Parser.drop
  by_cases hp : r.NoPeek
  · have hs' : Stands false r := ⟨hs.live, fun _ => hp⟩
    by_cases hn : n ≤ (r.unread o).length
    · rw [if_pos hn]
      obtain ⟨r', e, s⟩ := skipBits_step hs'.good hs.live.bound hn
      exact ⟨r', e, hs.step s⟩
    · rw [if_neg hn]
      by_cases h8 : n % 8 = (r.unread o).length % 8
      · rw [if_pos h8]
        refine .inl ⟨rfl, fun a r' e => ?_⟩
        obtain ⟨h1, h2, _⟩ := skipBits_follows (fixed := true) n o r a r' hs'.good e
        exact ⟨h1.past (by rw [h2]; exact skipBits_beyond hs'.good hn e), h2⟩
      · rw [if_neg h8]
        exact .inr (skipBits_short hs'.good hn h8)
  · have hn : n < 8 := hk.resolve_left fun h => hp (hs.peek h)
    have hl : ∀ l, r.leftover ≠ some (.bits l) := fun l h => hp fun b hb => by rw [h] at hb; cases hb
    have h1 := (Decodes.delivers (Prim.readBitsInto_delivers n o)).map (fun _ => ())
    rw [Parser.bind_assoc] at h1
    have h2 := h1.here k r hs
    have hlen : n ≤ (r.unread o).length := by
      have := length_unread o r
      have : r.rest.length = 8 := by
        rcases hlo : r.leftover with _ | (b | l)
        · exact absurd (fun b hb => by rw [hlo] at hb; cases hb) hp
        · simp [Reader.rest, hlo, leftoverBits]
        · exact absurd hlo (hl l)
      omega
    rw [Parser.bind_run] at h2
    unfold Parser.take at h2
    rw [if_pos hlen] at h2 ⊢
    unfold Agrees at h2 ⊢
    rwa [skipBits_other hl, skipTail_small hn]

theorem skip_decodes (o' : Order) (n : Nat) : Decodes o (skipBits n o') (Parser.skip o o' n) := by
  have hp := fun r a r' (hr : r.Past) (e : skipBits n o' r = (.ok a, r')) =>
    (skipBits_follows (fixed := true) n o').past hr e
  refine Decodes.provided (fun k r hs hb => ?_) hp
  by_cases hk : (!k || decide (n < 8)) = true
  · have e : (Parser.provided (fun k _ => !k || decide (n < 8)) >>= fun _ => Parser.drop n) k (r.unread o) =
        Parser.drop n k (r.unread o) := by
      rw [Parser.bind_run, Parser.provided, if_pos hk]
    rw [e]
    have hk' : k = false ∨ n < 8 := by simpa using hk
    by_cases ho : o' = o
    · subst ho
      exact skip_here hs hk'
    · simp only [decide_eq_false ho, Bool.false_or, Bool.and_eq_true, decide_eq_true_eq] at hb
      obtain ⟨hb, ha⟩ := hb
      obtain ⟨j, rfl⟩ : ∃ j, n = 8 * j := ⟨n / 8, by omega⟩
      have h1 := skip_here (o := o') hs hk'
      have hlen : (r.unread o').length = (r.unread o).length := by rw [length_unread, length_unread]
      have hal := hs.aligned o ha
      unfold Parser.drop at h1 ⊢
      by_cases hn : 8 * j ≤ (r.unread o).length
      · rw [if_pos hn]
        rw [if_pos (by omega)] at h1
        obtain ⟨r', e, s⟩ := h1
        refine ⟨r', e, s.stands, ?_, s.data, s.mono⟩
        have h2 := s.stands.live.count o
        have h3 := hs.live.count o
        have h4 := congrArg List.length s.unread
        rw [List.length_drop, hlen] at h4
        have hlen' : (r'.unread o').length = (r'.unread o).length := by rw [length_unread, length_unread]
        rw [s.data] at h2
        obtain ⟨bs', hb'⟩ := s.stands.bytes o (by omega)
        obtain ⟨bs, hbs⟩ := hs.bytes o ha
        have h5 := s.unread
        rw [hb', hbs, drop_orderBits] at h5
        rw [hb', hbs, drop_orderBits, orderBits_inj _ h5]
      · rw [if_neg hn]
        rw [if_neg (by omega), hlen] at h1
        exact h1
  · have e : (Parser.provided (fun k _ => !k || decide (n < 8)) >>= fun _ => Parser.drop n) k (r.unread o) = .unclear := by
      rw [Parser.bind_run, Parser.provided, if_neg hk]
    rw [e]
    trivial

theorem padParse_none (o : Order) (order : Option Order) : padParse o order none none = pure () := rfl

theorem pad_decodes (order : Option Order) (bits bytes : Option Nat) (env : Env) :
    Decodes o (padRead order ((padOf bits bytes).map fun (n : Nat) (_ : Env) => (n : Int)) env)
      (padParse o order bits bytes) := by
  have key : ∀ n : Nat, padOf bits bytes = some n → (bits.isNone && bytes.isNone) = false →
      Decodes o (padRead order ((padOf bits bytes).map fun (n : Nat) (_ : Env) => (n : Int)) env)
        (padParse o order bits bytes) := by
    intro n hn hb
    unfold padParse
    rw [hb, hn]
    have e : bits.getD 0 + 8 * bytes.getD 0 = n := by rw [← padOf_getD, hn]; rfl
    simp only [Bool.false_eq_true, if_false, padSmall, Option.map_some, padRead, e]
    refine Decodes.guard (fun h => ?_) fun h r => ?_
    · have h := of_decide_eq_true h
      rw [show (padSize (n : Int) : M Reader Nat) = pure n by
        unfold padSize
        rw [if_pos ⟨by omega, by exact_mod_cast h⟩]
        simp, M.pure_bind]
      exact skip_decodes _ n
    · have h := of_decide_eq_false h
      rw [show (padSize (n : Int) : M Reader Nat) = M.throw .invalidParam by
        unfold padSize
        rw [if_neg fun h' => h (by exact_mod_cast h'.2)]]
      rfl
  cases bits with
  | none => cases bytes with
    | none => exact Decodes.pure ()
    | some k => exact key _ rfl rfl
  | some n => cases bytes with
    | none => exact key _ rfl rfl
    | some k => exact key _ rfl rfl

/-! ### integers -/

theorem fieldValue_orderBits (e : Endian) (o : Order) (bs : List Byte) :
    fieldValue e o (orderBits o bs) = endianNat e bs := by
  rw [← Prim.endianNat_bytesOf _ _ _ (by rw [length_orderBits]; omega), Prim.bytesOf_orderBits]

/-- An integer made from the value of its bits. -/
theorem int_decodes {args : List Arg} {ctx : IntCtx} {W : Nat} {f : M Reader α} {F : Nat → α} {native : Endian}
    (hi : intArgs args = some ctx)
    (h : Prim.Delivers (orderOf args) ((sizeOf? args).getD (8 * W)) f
      fun l => F (fieldValue (endianOf native args) (orderOf args) l)) {val : List Bool → α}
    (hv : ∀ l, l.length = (sizeOf? args).getD (8 * W) → F (fieldValue (endianOf native args) o l) = val l) :
    Decodes o f (intParse o args W >>= fun l => Pure.pure (val l)) := by
  unfold intParse
  rw [Parser.bind_assoc]
  refine Decodes.inOrder h (fun hw => intArgs_whole hi (by simpa using hw) W) (fun ho l hl => ?_) fun _ bs hb => ?_
  · rw [ho, hv l hl]
  · rw [fieldValue_orderBits, ← hv _ (by rw [length_orderBits]; exact hb), fieldValue_orderBits]

theorem uint_decodes {args : List Arg} {ctx : IntCtx} {W : Nat} {native : Endian} (hi : intArgs args = some ctx)
    (hs : intSized args W = true) : Decodes o (Prim.readUnsigned native W ctx)
      (intParse o args W >>= fun l => Pure.pure (fieldValue (endianOf native args) o l)) := by
  have hz := of_decide_eq_true hs
  have h := Prim.readUnsigned_delivers native ctx hz.1
  rw [(intArgs_shape native args ctx W hi hs).1] at h
  exact int_decodes (F := id) hi (h hz.2.1 hz.2.2) fun _ _ => rfl

theorem sint_decodes {args : List Arg} {ctx : IntCtx} {W : Nat} {native : Endian} (hi : intArgs args = some ctx)
    (hs : intSized args W = true) : Decodes o (Prim.readSigned native W ctx)
      (intParse o args W >>= fun l => Pure.pure (signedOf o native args W l)) := by
  have hz := of_decide_eq_true hs
  have h := Prim.readSigned_delivers hz.1 (intArgs_shape native args ctx W hi hs).2 hz.2.1 hz.2.2
  refine int_decodes (F := fun v => if ctx.extends then
    twosComplement ((sizeOf? args).getD (8 * W)) (v % 2 ^ (sizeOf? args).getD (8 * W)) else twosComplement (8 * W) v)
    hi h fun l hl => ?_
  simp only [intArgs_extends hi W, signedOf, hl]

/-! ### loops -/

theorem vecLoop_past {σ : Type} {f : M Reader α} {pred : Nat → α → σ → Bool × σ} {start : Nat}
    (hf : ∀ r a r', r.Past → f r = (.ok a, r') → r'.Past ∧ r'.inner.data = r.inner.data) :
    ∀ (mem : Nat) (st : σ) (r : Reader) (vs : List α) (r' : Reader), r.Past →
      vecLoop f pred start mem st r = (.ok vs, r') → r'.Past ∧ r'.inner.data = r.inner.data
  | 0, st, r, vs, r', hr, e => by
    obtain ⟨v, r1, e1, e2⟩ := M.bind_eq_ok e
    cases e2
  | mem + 1, st, r, vs, r', hr, e => by
    obtain ⟨v, r1, e1, e2⟩ := M.bind_eq_ok e
    obtain ⟨h1, h2⟩ := hf r v r1 hr e1
    rw [M.get_bind_run] at e2
    obtain ⟨u, r2, e3, e4⟩ := M.bind_eq_ok e2
    obtain rfl : r1 = r2 := by
      unfold M.assert at e3
      split at e3
      · cases e3; rfl
      · cases e3
    split at e4
    · cases e4; exact ⟨h1, h2⟩
    · obtain ⟨vs', r3, e5, e6⟩ := M.bind_eq_ok e4
      obtain ⟨h3, h4⟩ := vecLoop_past hf mem _ _ _ _ h1 e5
      cases e6
      exact ⟨h3, h4.trans h2⟩

theorem times_decodes {f : M Reader α} {q : Parser α} (h : Decodes o f q) : ∀ n, Decodes o (arrayRead f n) (q.times n)
  | 0 => Decodes.pure []
  | n + 1 => h.bind fun v => (times_decodes h n).map fun vs => v :: vs

/-- What a step of the loop does after an element. -/
theorem vecLoop_step {σ : Type} {f : M Reader α} {pred : Nat → α → σ → Bool × σ} {start mem : Nat} {st : σ} {v : α}
    {r : Reader} (h : start ≤ r.bitsRead) :
    (do
      let r ← M.get
      M.assert (decide (start ≤ r.bitsRead))
      if (pred (r.bitsRead - start) v st).1 then
        pure [v]
      else do
        let vs ← vecLoop f pred start mem (pred (r.bitsRead - start) v st).2
        pure (v :: vs) : M Reader (List α)) r =
    (if (pred (r.bitsRead - start) v st).1 then pure [v]
      else vecLoop f pred start mem (pred (r.bitsRead - start) v st).2 >>= fun vs => pure (v :: vs)) r := by
  rw [M.get_bind_run, decide_eq_true h, M.assert_true_bind_run]

theorem Agrees.congr {f g : M Reader α} {r : Reader} {x : Verdict α} (h : Agrees o f r x) (e : g r = f r) :
    Agrees o g r x := by
  unfold Agrees at *
  rwa [e]

theorem Past.after {σ : Type} {f : M Reader α} {pred : Nat → α → σ → Bool × σ} {start mem : Nat} {st : σ}
    (hf : ∀ r a r', r.Past → f r = (.ok a, r') → r'.Past ∧ r'.inner.data = r.inner.data) (v : α) (r : Reader)
    (b : List α) (r' : Reader) (hr : r.Past) (e : (do
      let r ← M.get
      M.assert (decide (start ≤ r.bitsRead))
      if (pred (r.bitsRead - start) v st).1 then
        pure [v]
      else do
        let vs ← vecLoop f pred start mem (pred (r.bitsRead - start) v st).2
        pure (v :: vs) : M Reader (List α)) r = (.ok b, r')) : r'.Past ∧ r'.inner.data = r.inner.data := by
  rw [M.get_bind_run] at e
  obtain ⟨u, r2, e3, e4⟩ := M.bind_eq_ok e
  obtain rfl : r = r2 := by
    unfold M.assert at e3
    split at e3
    · cases e3; rfl
    · cases e3
  split at e4
  · cases e4; exact ⟨hr, rfl⟩
  · obtain ⟨vs', r3, e5, e6⟩ := M.bind_eq_ok e4
    cases e6
    exact vecLoop_past hf mem _ _ _ _ hr e5

theorem vecLoop_times {f : M Reader α} {q : Parser α} (h : Decodes o f q) (start : Nat) :
    ∀ (n mem : Nat) (k : Bool) (r : Reader), Stands k r → start ≤ r.bitsRead → n + 1 ≤ mem →
      Agrees o (vecLoop f countPred start mem (n + 1)) r (q.times (n + 1) k (r.unread o))
  | n, mem + 1, k, r, hs, hb, hm => by
    refine Agrees.bind (h.here k r hs) (fun v k' l r1 e s => ?_) (Past.after h.past)
    refine Agrees.congr ?_ (vecLoop_step (Nat.le_trans hb s.mono))
    cases n with
    | zero => exact ⟨r1, rfl, s.stands, rfl, rfl, Nat.le_refl _⟩
    | succ n =>
      exact Agrees.bind (vecLoop_times h start n mem k' r1 s.stands (Nat.le_trans hb s.mono) (by omega))
        (fun vs k'' l' r2 _ s2 => ⟨r2, rfl, s2.stands, rfl, rfl, Nat.le_refl _⟩) fun a r b r' hr e => by
          cases e; exact ⟨hr, rfl⟩

theorem vecLoop_upTo {σ : Type} {f : M Reader α} {q : Parser α} (h : Decodes o f q)
    {pred : Nat → α → σ → Bool × σ} {last : α → Nat → Bool} {B : Prop} {start first len : Nat}
    (hp : ∀ v d d' st, (B → d = d') → (pred d v st).1 = last v d') (hB : B → start + first = 8 * len) :
    ∀ (mem : Nat) (st : σ) (k : Bool) (r : Reader), Stands k r → r.inner.data.length = len → start ≤ r.bitsRead →
      Agrees o (vecLoop f pred start mem st) r (q.upTo last first mem k (r.unread o))
  | 0, st, k, r, hs, hd, hb => (h.bind fun _ => Decodes.panic).here k r hs
  | mem + 1, st, k, r, hs, hd, hb => by
    refine Agrees.bind (h.here k r hs) (fun v k' l r1 e s => ?_) (Past.after h.past)
    refine Agrees.congr ?_ (vecLoop_step (Nat.le_trans hb s.mono))
    have hl := hp v (r1.bitsRead - start) (first - (r1.unread o).length) st fun b => by
      have h1 := hB b
      have h2 := s.stands.live.count o
      have h3 := s.mono
      rw [s.data, hd] at h2
      omega
    show Agrees o _ r1 ((if last v (first - (r1.unread o).length) then pure [v]
      else q.upTo last first mem >>= fun vs => pure (v :: vs) : Parser (List α)) k' (r1.unread o))
    rw [hl]
    by_cases hv : last v (first - (r1.unread o).length) = true
    · rw [if_pos hv, if_pos hv]
      exact ⟨r1, rfl, s.stands, rfl, rfl, Nat.le_refl _⟩
    · rw [if_neg hv, if_neg hv]
      exact Agrees.bind (vecLoop_upTo h hp hB mem _ k' r1 s.stands (by rw [s.data, hd]) (Nat.le_trans hb s.mono))
        (fun vs k'' l' r2 _ s2 => ⟨r2, rfl, s2.stands, rfl, rfl, Nat.le_refl _⟩) fun a r b r' hr e => by
          cases e; exact ⟨hr, rfl⟩

/-! ### to the end -/

theorem end_decodes : Decodes o «end» Parser.atEnd where
  here k r hs := by
    have h0 : r.inner.faults = noFaults := hs.live.healthy
    have hsync := hs.live.sync
    have hbound := hs.live.bound
    simp only [Synced] at hsync
    rcases hl : r.leftover with _ | lo
    · have hrest : r.rest = [] := by simp [Reader.rest, hl, leftoverBits]
      rw [hrest, List.length_nil] at hsync
      have hu : ∀ o, r.unread o = orderBits o (avail r) := fun o => unread_none _ _ hl
      rcases ha : avail r with _ | ⟨b, bs⟩
      · have hlen : r.inner.data.length ≤ r.inner.pos := by
          have := congrArg List.length ha; simp [avail] at this; omega
        have he : «end» r = (.ok true, adv 1 0 r) := by
          unfold «end»
          rw [M.get_bind_run]
          have h1 : ¬ 1 ≤ r.inner.data.length - r.inner.pos := by omega
          have : ioRead 1 r = (.ok (.error .unexpectedEof), adv 1 0 r) := by
            simp only [ioRead, Src.readExact, h0, noFaults, h1, if_false, adv]
            rw [Nat.max_eq_left hlen]
            rfl
          simp only [hl, Option.isSome_none, Bool.false_eq_true, if_false]
          rw [M.bind_ok this]
          rfl
        have hn : r.unread o = [] := by rw [hu, ha]; cases o <;> rfl
        rw [hn]
        refine ⟨adv 1 0 r, he, ⟨⟨hs.live.healthy, hs.live.wf, hs.live.sync, hs.live.bound, rfl⟩, fun h => ?_⟩, ?_, rfl,
          Nat.le_refl _⟩
        · simp only [List.isEmpty_nil, Bool.not_true, Bool.or_false] at h
          exact hs.peek h
        · rw [← hn]; cases o <;> rfl
      · have h1 := ioRead_ok (r := r) (n := 1) hs.live.healthy (by simp [ha])
        rw [ha] at h1
        have he : «end» r = (.ok false, { adv 1 1 r with leftover := some (.byte b) }) := by
          unfold «end»
          rw [M.get_bind_run]
          simp only [hl, Option.isSome_none, Bool.false_eq_true, if_false]
          rw [M.bind_ok h1]
          rfl
        have hlen : r.inner.pos + 1 ≤ r.inner.data.length := by
          have := congrArg List.length ha; simp [avail] at this; omega
        have hne : (r.unread o).isEmpty = false := by
          rw [hu, ha]
          have : (orderBits o (b :: bs)).length = 8 * (bs.length + 1) := by rw [length_orderBits]; rfl
          cases he : orderBits o (b :: bs) with
          | nil => rw [he] at this; simp at this
          | cons => rfl
        unfold Parser.atEnd
        rw [hne]
        refine ⟨_, he, ⟨⟨hs.live.healthy, fun l h => by simp at h, ?_, hlen, rfl⟩, by simp⟩, ?_, rfl, Nat.le_refl _⟩
        · simp [Synced, Reader.rest, leftoverBits, adv]; omega
        · have hav : bs = r.inner.data.drop (r.inner.pos + 1) := by
            have := congrArg (List.drop 1) ha
            simp only [avail, List.drop_drop] at this
            exact this.symm
          rw [hu, ha]
          cases o <;> simp [Reader.unread, unreadMsb, unreadLsb, Reader.rest, leftoverBits, orderBits, bytesBits,
            bytesBitsLsb, adv, hav]
    · have he : «end» r = (.ok false, r) := by
        unfold «end»
        rw [M.get_bind_run, hl]
        rfl
      have hne : (r.unread o).isEmpty = false := by
        have hpos : 0 < r.rest.length := by
          rcases lo with b | l
          · simp [Reader.rest, hl, leftoverBits]
          · have := hs.live.wf l hl
            simp only [Reader.rest, hl, leftoverBits]
            omega
        have := length_unread o r
        cases he : r.unread o with
        | nil => rw [he] at this; simp at this; omega
        | cons => rfl
      unfold Parser.atEnd
      rw [hne]
      exact ⟨r, he, ⟨hs.live, by simp⟩, rfl, rfl, Nat.le_refl _⟩
  past r a r' hr e := by
    have h0 : r.inner.faults = noFaults := hr.healthy
    have hlen := hr.beyond
    have h1 : ¬ 1 ≤ r.inner.data.length - r.inner.pos := by omega
    have h2 : ioRead 1 r = (.ok (.error .unexpectedEof), adv 1 0 r) := by
      simp only [ioRead, Src.readExact, h0, noFaults, h1, if_false, adv]
      rw [Nat.max_eq_left (Nat.le_of_lt hlen)]
      rfl
    unfold «end» at e
    rw [M.get_bind_run] at e
    simp only [hr.empty, Option.isSome_none, Bool.false_eq_true, if_false] at e
    rw [M.bind_ok h2] at e
    cases e
    exact ⟨⟨hr.healthy, hr.empty, hr.beyond, hr.counted⟩, rfl⟩

theorem vecEndLoop_decodes {f : M Reader α} {q : Parser α} (h : Decodes o f q) :
    ∀ mem, Decodes o (vecEndLoop f mem) (q.toEnd mem)
  | 0 => end_decodes.bind fun b => by
    cases b with
    | true => exact Decodes.pure []
    | false => exact h.bind fun _ => Decodes.panic
  | mem + 1 => end_decodes.bind fun b => by
    cases b with
    | true => exact Decodes.pure []
    | false => exact h.bind fun v => (vecEndLoop_decodes h mem).map fun vs => v :: vs

/-! ### limits -/

theorem size_decodes (n : Int) : Decodes o (toUsize n) (Parser.size .parse n) := by
  unfold toUsize Parser.size
  by_cases h : 0 ≤ n ∧ n < 2 ^ 64
  · rw [if_pos h, decide_eq_true h]
    exact Decodes.pure _
  · rw [if_neg h, decide_eq_false h]
    exact Decodes.fail fun _ => rfl

/-- A loop that starts here. -/
theorem vecWithPredicate_upTo {σ : Type} {f : M Reader α} {q : Parser α} (h : Decodes o f q)
    {pred : Nat → α → σ → Bool × σ} {last : α → Nat → Bool} {B : Prop} {first : Option Nat}
    (hp : ∀ v d d' st, (B → d = d') → (pred d v st).1 = last v d') (hB : B → first = none) (mem : Nat) (st : σ) :
    Decodes o (vecWithPredicate mem 1 none f pred st)
      (Parser.left >>= fun n => q.upTo last (first.getD n) mem) where
  here k r hs := by
    have e : vecWithPredicate mem 1 none f pred st r = vecLoop f pred r.bitsRead mem st r := rfl
    exact (vecLoop_upTo h hp (start := r.bitsRead) (first := first.getD (r.unread o).length)
      (len := r.inner.data.length) (fun b => by rw [hB b]; exact hs.live.count o) mem st k r hs rfl
      (Nat.le_refl _)).congr e
  past r a r' hr e := by
    have e' : vecWithPredicate mem 1 none f pred st r = vecLoop f pred r.bitsRead mem st r := rfl
    rw [e'] at e
    exact vecLoop_past h.past mem _ _ _ _ hr e

theorem usize_decodes (n : Nat) : Decodes o (usize (n * 8)) (Parser.size .panic (8 * n : Int)) := by
  unfold usize Parser.size
  by_cases h : n * 8 < 2 ^ 64
  · rw [if_pos h, decide_eq_true (show (0 : Int) ≤ 8 * n ∧ (8 * n : Int) < 2 ^ 64 by omega)]
    rw [show n * 8 = (8 * n : Int).toNat by omega]
    exact Decodes.pure _
  · rw [if_neg h, decide_eq_false (show ¬ ((0 : Int) ≤ 8 * n ∧ (8 * n : Int) < 2 ^ 64) by omega)]
    exact Decodes.panic

theorem sizePred_decodes {f : M Reader α} {q : Parser α} (h : Decodes o f q) (mem n : Nat) (zst : Bool) :
    Decodes o (if n = 0 then pure [] else vecWithPredicate mem (if zst then 0 else 1) none f (sizePred n) ())
      (if zst || decide (n = 0) then pure [] else do
        let start ← Parser.left
        q.upTo (fun _ k => decide (k = n)) start mem) := by
  by_cases hn : n = 0
  · rw [if_pos hn, if_pos (by simp [hn])]
    exact Decodes.pure _
  · rw [if_neg hn]
    cases zst with
    | true => exact Decodes.pure _
    | false =>
      rw [if_neg (c := (false || decide (n = 0)) = true) (by simp [hn])]
      refine vecWithPredicate_upTo (B := True) (first := none) h (fun v d d' st hd => ?_) (fun _ => rfl) mem ()
      rw [hd trivial]
      simp [sizePred, BEq.beq]

theorem countPred_decodes {f : M Reader α} {q : Parser α} (h : Decodes o f q) (mem n : Nat) :
    Decodes o (if n = 0 then pure [] else vecWithPredicate mem 1 (some n) f countPred n)
      (Parser.guard .panic (decide (n ≤ mem)) >>= fun _ => q.times n) := by
  cases n with
  | zero => exact Decodes.pure _
  | succ n =>
    rw [if_neg (by omega)]
    refine Decodes.guard (fun hm => ?_) fun hm r => ?_
    · have hm := of_decide_eq_true hm
      have e : ∀ r, vecWithPredicate mem 1 (some (n + 1)) f countPred (n + 1) r =
          vecLoop f countPred r.bitsRead mem (n + 1) r := by
        intro r
        simp only [vecWithPredicate, withCapacity, decide_eq_true hm]
        rfl
      exact ⟨fun k r hs => (vecLoop_times h r.bitsRead n mem k r hs (Nat.le_refl _) hm).congr (e r),
        fun r a r' hr he => by rw [e] at he; exact vecLoop_past h.past mem _ _ _ _ hr he⟩
    · simp only [vecWithPredicate, withCapacity, hm]
      rfl

theorem vecRead_bytes {σ : Type} (mem sz n : Nat) (f : M Reader α) :
    vecRead (σ := σ) mem sz f (.bytes n) = (usize (n * 8) >>= fun bits =>
      if bits = 0 then pure [] else vecWithPredicate mem sz none f (sizePred bits) ()) := rfl

theorem parse_bytes (mem : Nat) (zst : Bool) (env : Env) (q : Parser Val) (e : Expr) :
    Lim.parse mem zst env q (.bytes e) = (Parser.size .parse (e.eval env) >>= fun n : Nat =>
      Parser.size .panic (8 * n : Int) >>= fun n => if zst || decide (n = 0) then pure [] else
        Parser.left >>= fun start => q.upTo (fun _ k => decide (k = n)) start mem) := rfl

theorem bytes_aux {α β γ δ : Type} {V : γ → M Reader β} {E : α → γ} {u : α → M Reader δ} {B : δ → M Reader β}
    {P : α → Parser δ} {C : δ → Parser β} {s : M Reader α} {S : Parser α} (hV : ∀ n, V (E n) = (u n >>= B))
    (hs : Decodes o s S) (hu : ∀ n, Decodes o (u n) (P n)) (hB : ∀ n, Decodes o (B n) (C n)) (g : β → Val) :
    Decodes o ((s >>= fun k => pure (E k)) >>= fun lim => V lim >>= fun vs => pure (g vs))
      ((S >>= fun n => P n >>= C) >>= fun vs => pure (g vs)) := by
  rw [M.bind_assoc, Parser.bind_assoc]
  refine hs.bind fun n => ?_
  rw [M.pure_bind, hV, M.bind_assoc, Parser.bind_assoc]
  exact (hu n).bind fun n => (hB n).map _

/-- The case of a size in bytes, apart from the functions that check the sizes. -/
theorem bytes_decodes {σ : Type} {mem : Nat} {zst : Bool} {f : M Reader Val} {q : Parser Val} (h : Decodes o f q) (x : Int)
    (V : Limit Val σ → M Reader (List Val)) (us : Nat → M Reader Nat) (sz sz' : Int → Parser Nat) (tu : M Reader Nat)
    (h1 : ∀ n, V (.bytes n) = (us (n * 8) >>= fun bits =>
      if bits = 0 then pure [] else vecWithPredicate mem (if zst then 0 else 1) none f (sizePred bits) ()))
    (h4 : Decodes o tu (sz x)) (h3 : ∀ n : Nat, Decodes o (us (n * 8)) (sz' (8 * n : Int))) :
    Decodes o ((tu >>= fun k => pure (Limit.bytes (σ := σ) k)) >>= fun lim => V lim >>= fun vs => pure (Val.ofList vs))
      ((sz x >>= fun n => sz' (8 * n : Int) >>= fun n => if zst || decide (n = 0) then pure [] else
        Parser.left >>= fun start => q.upTo (fun _ k => decide (k = n)) start mem) >>= fun vs => pure (Val.ofList vs)) :=
  bytes_aux (u := fun n => us (n * 8)) (P := fun n => sz' (8 * n : Int)) h1 h4 h3 (fun n => sizePred_decodes h mem n zst) _

theorem vec_decodes {mem : Nat} {zst : Bool} {env env' : Env} (hs : env.Same env') {f : M Reader Val} {q : Parser Val}
    (h : Decodes o f q) (l : Lim) : Decodes o (do
      let lim ← l.toLimit.eval env
      let vs ← vecRead mem (if zst then 0 else 1) f lim
      pure (Val.ofList vs)) (l.parse mem zst env' q >>= fun vs => pure (.ofList vs)) := by
  have nil : ∀ {m : M Reader (List Val)}, m = pure [] → Decodes o (m >>= fun vs => pure (Val.ofList vs))
      ((pure [] : Parser (List Val)) >>= fun vs => pure (.ofList vs)) := fun e => by rw [e]; exact Decodes.pure _
  cases l with
  | count e =>
    simp only [Lim.toLimit, LimitE.eval, Lim.parse, ← Expr.eval_same hs]
    rw [M.bind_assoc, Parser.bind_assoc]
    refine (size_decodes _).bind fun n => ?_
    rw [M.pure_bind]
    simp only [vecRead]
    cases zst with
    | true => exact nil (by split <;> rfl)
    | false => exact (countPred_decodes h mem n).map _
  | bytes e =>
    rw [parse_bytes, ← Expr.eval_same hs]
    have e' : (Lim.bytes e).toLimit.eval env = (toUsize (e.eval env) >>= fun k => pure (.bytes k)) := rfl
    rw [e']
    exact bytes_decodes h (e.eval env) (vecRead mem (if zst then 0 else 1) f) usize (Parser.size .parse) (Parser.size .panic) (toUsize (e.eval env))
      (fun n => vecRead_bytes mem (if zst then 0 else 1) n f) (size_decodes _) usize_decodes
  | bits e =>
    simp only [Lim.toLimit, LimitE.eval, Lim.parse, ← Expr.eval_same hs]
    rw [M.bind_assoc, Parser.bind_assoc]
    refine (size_decodes _).bind fun n => ?_
    rw [M.pure_bind]
    exact (sizePred_decodes h mem n zst).map _
  | «until» n =>
    simp only [Lim.toLimit, LimitE.eval, Lim.parse, M.pure_bind, vecRead]
    cases zst with
    | true => exact nil rfl
    | false =>
      refine Decodes.map (q := q.upTo (fun v _ => decide (v = .num n)) 0 mem) ?_ _
      exact vecWithPredicate_upTo (B := False) (first := some 0) h (fun v d d' st _ => by simp) nofun mem _
  | all =>
    simp only [Lim.toLimit, LimitE.eval, Lim.parse, M.pure_bind, vecRead]
    cases zst with
    | true => exact nil rfl
    | false => exact (vecEndLoop_decodes h mem).map _

/-! ### leaves -/

theorem Decodes.then {γ : Type} {f : M Reader α} {q : Parser γ} {w : γ → α} {g : α → M Reader β} {p : α → Parser β}
    (h : Decodes o f (q >>= fun l => Pure.pure (w l))) (hg : ∀ a, Decodes o (g a) (p a)) :
    Decodes o (f >>= g) (q >>= fun l => p (w l)) := by
  have := h.bind hg
  rwa [Parser.bind_assoc] at this

theorem string_decodes (bs : List Byte) :
    Decodes o (cstringOf bs >>= fun bs => Pure.pure (Val.ofList (bs.map .ofByte))) (stringParse bs) := by
  have e : ∀ s, fromVecWithNul bs = some s → bs.getLast? = some 0 ∧ 0 ∉ bs.dropLast ∧ bs.dropLast = s := by
    intro s hs
    obtain ⟨rfl, h⟩ := (fromVecWithNul_iff bs s).1 hs
    exact ⟨by simp, by simpa using h, by simp⟩
  refine Decodes.guard (fun h => ?_) fun h r => ?_
  · obtain ⟨h1, h2⟩ := of_decide_eq_true h
    have : fromVecWithNul bs = some bs.dropLast := by
      refine (fromVecWithNul_iff _ _).2 ⟨?_, h2⟩
      obtain ⟨ys, rfl⟩ := List.getLast?_eq_some_iff.1 h1
      simp
    unfold cstringOf
    rw [this]
    exact Decodes.pure _
  · unfold cstringOf
    cases hf : fromVecWithNul bs with
    | none => rfl
    | some s =>
      obtain ⟨h1, h2, _⟩ := e s hf
      exact absurd ⟨h1, h2⟩ (of_decide_eq_false h)

theorem leaf_decodes (m : Machine) (args : List Arg) (b : Base) (l : Leaf) (h : b.leaf args = some l)
    (hz : b.sized args = true) : Decodes o (l.codec m).read (b.parse o m args) := by
  cases b with
  | uint W =>
    simp only [Base.leaf, Option.map_eq_some_iff] at h
    obtain ⟨ctx, h, rfl⟩ := h
    exact (uint_decodes h hz).then fun n => Decodes.pure _
  | sint W =>
    simp only [Base.leaf, Option.map_eq_some_iff] at h
    obtain ⟨ctx, h, rfl⟩ := h
    exact (sint_decodes h hz).then fun n => Decodes.pure _
  | nonzero W =>
    simp only [Base.leaf, Option.map_eq_some_iff] at h
    obtain ⟨ctx, h, rfl⟩ := h
    simp only [Leaf.codec, nonzeroCodec, nonzeroRead]
    rw [M.bind_assoc]
    refine (uint_decodes (nonzeroArgs_int _ _ h) hz).then
      (p := fun n : Nat => Parser.guard .parse (decide ((n : Int) ≠ 0)) >>= fun _ => Pure.pure (Val.num n))
      fun n => Decodes.guard (fun h => ?_) fun h r => ?_
    · have h := of_decide_eq_true h
      rw [if_neg (by omega), M.pure_bind]
      exact Decodes.pure _
    · have h := of_decide_eq_false h
      rw [if_pos (by omega)]
      rfl
  | nonzeroSigned W =>
    simp only [Base.leaf, Option.map_eq_some_iff] at h
    obtain ⟨ctx, h, rfl⟩ := h
    simp only [Leaf.codec, nonzeroSignedCodec, nonzeroRead]
    rw [M.bind_assoc]
    refine (sint_decodes (nonzeroArgs_int _ _ h) hz).then
      (p := fun n => Parser.guard .parse (decide (n ≠ 0)) >>= fun _ => Pure.pure (Val.num n))
      fun n => Decodes.guard (fun h => ?_) fun h r => ?_
    · have h := of_decide_eq_true h
      rw [if_neg h, M.pure_bind]
      exact Decodes.pure _
    · have h := of_decide_eq_false h
      rw [if_pos (by omega)]
      rfl
  | bool =>
    simp only [Base.leaf, Option.map_eq_some_iff] at h
    obtain ⟨ctx, h, rfl⟩ := h
    simp only [Leaf.codec, boolCodec, boolRead]
    rw [M.bind_assoc]
    refine (uint_decodes h hz).then
      (p := fun n : Nat => Parser.guard .parse (decide ((n : Int) = 0 ∨ (n : Int) = 1)) >>= fun _ => Pure.pure (Val.num n))
      fun n => Decodes.guard (fun h => ?_) fun h r => ?_
    · rcases of_decide_eq_true h with h | h
      · obtain rfl : n = 0 := by omega
        exact Decodes.pure _
      · obtain rfl : n = 1 := by omega
        exact Decodes.pure _
    · have h := of_decide_eq_false h
      rw [if_neg (by omega), if_neg (by omega)]
      rfl
  | cstring =>
    simp only [Base.leaf] at h
    split at h
    · cases h
      simp only [Leaf.codec, cstringCodec, cstringRead, vecRead]
      rw [M.bind_assoc]
      refine Decodes.bind (q := (byte o).upTo (fun b _ => decide (b = 0)) 0 m.mem) ?_ string_decodes
      exact vecWithPredicate_upTo (B := False) (first := some 0) (byte_decodes m.native) (fun v d d' st _ => by simp [BEq.beq]) nofun
        m.mem ()
    · rename_i n
      cases h
      simp only [Leaf.codec, cstringSizedCodec, cstringReadSized, vecRead]
      rw [M.bind_assoc]
      have := (countPred_decodes (byte_decodes (o := o) m.native) m.mem n).bind string_decodes
      rw [Parser.bind_assoc] at this
      simp only [Base.parse, show sizeOf? [.bytes n] = some (8 * n) from rfl, Nat.mul_div_cancel_left n (show 0 < 8 by omega)]
      exact this
    · cases h
  | unit =>
    cases h
    exact Decodes.pure _

/-! ### lists of bytes -/

theorem octets_eq (o : Order) : ∀ n, (octet o).times n = (Parser.take (8 * n) >>= fun l => Pure.pure (Prim.bytesOf o l))
  | 0 => by
    funext k l
    rw [Parser.bind_run]
    simp only [Parser.times, Parser.take]
    rw [if_pos (Nat.zero_le _)]
    simp only [List.take_zero, bytesOf_nil, Parser.pure_run, List.drop_zero, Nat.mul_zero, decide_true, Bool.and_true]
  | n + 1 => by
    funext k l
    have e : (octet o).times (n + 1) = (Parser.take 8 >>= fun l => Pure.pure (byteOf (present o l))) >>= fun v =>
        (octet o).times n >>= fun vs => Pure.pure (v :: vs) := rfl
    rw [e, octets_eq o n]
    simp only [Parser.bind_run, Parser.take, Parser.pure_run]
    by_cases h1 : 8 ≤ l.length
    · by_cases h2 : 8 * n ≤ (l.drop 8).length
      · have h3 := h2
        rw [List.length_drop] at h3
        simp only [if_pos h1, if_pos h2, if_pos (show 8 * (n + 1) ≤ l.length by omega)]
        have e : l.take (8 * (n + 1)) = l.take 8 ++ (l.drop 8).take (8 * n) := by
          rw [Nat.mul_add, Nat.add_comm, List.take_add]
        rw [e, bytesOf_append o (by rw [List.length_take]; omega) (by rw [List.length_take]; omega),
          bytesOf_one o (x := l.take 8) (by rw [List.length_take]; omega), List.drop_drop, Nat.mul_add, Nat.add_comm]
        simp
      · have h3 := h2
        rw [List.length_drop] at h3
        simp only [if_pos h1, if_neg h2, if_neg (show ¬ 8 * (n + 1) ≤ l.length by omega)]
    · simp only [if_neg h1, if_neg (show ¬ 8 * (n + 1) ≤ l.length by omega)]

theorem readExact_here {n : Nat} {r : Reader} (hs : Stands false r) :
    Agrees o (readExact n) r ((Parser.inOrder o .lsb0 true >>= fun _ => Parser.left >>= fun k =>
      Parser.guard .panic (decide (8 * n ≤ k ∨ 8 * n < 2 ^ 64)) >>= fun _ => (octet o).times n) false (r.unread o)) := by
  have hat : r.At r.bitsRead := ⟨hs.live.healthy, hs.live.wf, hs.peek rfl, hs.live.sync, hs.live.bound, rfl⟩
  have hlen : (r.unread .lsb0).length = (r.unread o).length := by rw [length_unread, length_unread]
  rw [Parser.bind_run]
  unfold Parser.inOrder Parser.provided
  by_cases hb : (decide (Order.lsb0 = o) || (true && decide ((r.unread o).length % 8 = 0))) = true
  · rw [if_pos hb]
    dsimp only
    rw [octets_eq, Parser.bind_run]
    unfold Parser.left
    dsimp only
    rw [Parser.bind_run]
    unfold Parser.guard
    by_cases hn : 8 * n ≤ (r.unread o).length
    · rw [decide_eq_true (.inl hn), if_pos rfl, Parser.pure_run]
      dsimp only
      rw [Parser.bind_run]
      unfold Parser.take
      rw [if_pos hn]
      obtain ⟨r', e, s⟩ := readExact_ok hat (show 8 * n ≤ (r.unread .lsb0).length by omega)
      by_cases ho : Order.lsb0 = o
      · subst ho
        exact ⟨r', e, hs.step s⟩
      · have ha : (r.unread o).length % 8 = 0 := by simpa [ho] using hb
        obtain ⟨bs, hbs⟩ := hs.bytes o ha
        refine ⟨r', ?_, hs.step (Step.switchLive hs.live (hs.aligned o ha) s)⟩
        rw [e, hbs .lsb0, hbs o, orderBits_take, orderBits_take, Prim.bytesOf_orderBits, Prim.bytesOf_orderBits]
    · have e := readExact_run (n := n) hat.healthy hat.bound
      rw [if_pos (by rw [← Nat.not_le]; exact fun h' => hn ((avail_iff hat o).1 h'))] at e
      by_cases h64 : 8 * n < 2 ^ 64
      · rw [decide_eq_true (.inr h64), if_pos rfl, Parser.pure_run]
        dsimp only
        rw [Parser.bind_run]
        unfold Parser.take
        rw [if_neg hn]
        refine .inr ⟨n * 8, ?_⟩
        rw [e, usize, if_pos (by omega)]
        rfl
      · rw [decide_eq_false (fun h => h.elim hn h64), if_neg (by simp)]
        refine .inr ?_
        show (readExact n r).1 = .panic
        rw [e, usize, if_neg (by omega)]
        rfl
  · rw [if_neg hb]
    trivial

theorem byteVec_decodes (m : Machine) (args : List Arg) (ctx : IntCtx) {env env' : Env} (hs : env.Same env') (n : Expr) :
    Decodes o (((Def.bytes n ctx).toTy m).read m env) (bytesParse o args env' n) := by
  rw [Def.toTy, Ty.read]
  unfold bytesParse
  refine Decodes.provided (fun k r hr hb => ?_) fun r a r' hr e => ?_
  · simp only [Bool.and_eq_true, Bool.not_eq_true'] at hb
    obtain ⟨rfl, _⟩ := hb
    simp only [← Expr.eval_same hs]
    unfold toUsize Parser.size
    generalize n.eval env = x
    by_cases h : 0 ≤ x ∧ x < 2 ^ 64
    · rw [if_pos h, decide_eq_true h, M.pure_bind]
      have h1 := (readExact_here (o := o) (n := x.toNat) hr).bind
        (g := fun bs => Pure.pure (Val.ofList (bs.map .ofByte)))
        (p := fun bs => Pure.pure (Val.ofList (bs.map .ofByte)))
        (fun a k' l r1 _ s => (Decodes.pure _).here k' r1 s.stands) fun a => (Decodes.pure (o := o) _).past
      simp only [Parser.bind_assoc] at h1
      exact h1
    · rw [if_neg h, decide_eq_false h]
      exact .inr rfl
  · obtain ⟨k, r1, e1, e2⟩ := M.bind_eq_ok e
    obtain ⟨bs, r2, e3, e4⟩ := M.bind_eq_ok e2
    cases e4
    obtain ⟨h1, h2⟩ := (size_decodes (o := o) _).past r k r1 hr e1
    obtain ⟨h3, h4⟩ := (readExact_follows (fixed := true) k).past h1 e3
    exact ⟨h3, h4.trans h2⟩

/-! ### fields -/

theorem SAttrs.decodes (native : Endian) (a : SAttrs) (order : Option Order) (t : Option Val) (dflt : Val)
    (hd : a.defaultValue t = some dflt) {rd : Env → M Reader Val} {q : Parser Val} {env env' : Env} (hs : env.Same env')
    (h : ∀ e : Env, e.Same env' → Decodes o (rd e) q) :
    Decodes o ((a.rest order dflt).toAttrs.read native rd env) (a.parse o order t q env') := by
  rw [Attrs.read_eq rfl rfl, a.rest_before, a.rest_after]
  unfold SAttrs.parse
  refine (magic_decodes native a.magic).bind fun _ => (pad_decodes order _ _ env).bind fun _ => Decodes.bind ?_ fun v => ?_
  · unfold Attrs.value
    rw [a.isRead_rest order dflt (hs.at _)]
    by_cases hr : a.parsed env' = true
    · rw [if_pos hr, if_pos hr]
      have h1 := (h _ (hs.at 0)).map id
      have e : (q >>= fun v => Pure.pure (id v)) = q := by
        funext k l
        rw [Parser.bind_run]
        cases q k l <;> rfl
      rw [e] at h1
      exact h1
    · rw [if_neg hr, if_neg hr]
      have e : a.default.or t = some dflt := by
        rw [← hd]
        unfold SAttrs.defaultValue
        unfold SAttrs.parsed at hr
        cases a.default with
        | some d => rfl
        | none =>
          cases hsk : a.skip with
          | none => cases hc : a.cond with
            | none => rw [hsk, hc] at hr; exact absurd rfl hr
            | some c => rfl
          | some s => cases s with
            | write => rw [hsk] at hr; exact absurd rfl hr
            | all => rfl
            | read => rfl
      rw [e]
      exact Decodes.pure _
  · have hch : (a.rest order dflt).toAttrs.check (env.at 0) v = (if a.passed env' v = true then
        (Pure.pure () : M Reader Unit) else M.throw .assertion) := by
      unfold Attrs.check SAttrs.passed
      rw [if_neg (by simp [DAttrs.toAttrs])]
      simp only [DAttrs.toAttrs, SAttrs.rest]
      cases he : a.assertEq with
      | none => rfl
      | some e =>
        simp only [Option.map_some, Expr.val]
        rw [Expr.eval_same (hs.at 0)]
        by_cases hv : v = .num (e.eval env')
        · rw [if_neg (by simpa using hv), if_pos (by simpa using hv)]
        · rw [if_pos hv, if_neg (by simpa using hv)]
    rw [hch]
    refine Decodes.guard (fun hb => ?_) fun hb r => ?_
    · rw [if_pos hb, M.pure_bind]
      exact (pad_decodes order _ _ _).map _
    · rw [if_neg (by rw [hb]; simp)]
      rfl

/-! ### ids -/

theorem SId.decodes (m : Machine) (c : Container) (sc : List Arg) (anyPat : Bool) (id : SId) (did : DId)
    (h : id.elab c sc anyPat = some did) (hv : id.validate = true) (hz : id.sized c sc = true) {env env' : Env}
    (hs : env.Same env') : ∃ f : M Reader Int, (did.toSrc m).get env = (f >>= fun n => Pure.pure (.num n)) ∧
      Decodes o f (id.parse o m c sc env') := by
  cases id with
  | ctx e =>
    cases h
    refine ⟨Pure.pure (e.eval env), rfl, ?_⟩
    rw [Expr.eval_same hs]
    exact Decodes.pure _
  | typed W e bits bytes =>
    simp only [SId.elab, Option.bind_eq_bind, Option.bind_eq_some_iff, Option.pure_def, Option.some.injEq] at h
    obtain ⟨endian, h1, order, h2, ctx, h3, stored, h4, store, h5, rfl⟩ := h
    have hb : (bits.isSome && bytes.isSome) = false := by
      simp only [SId.validate, Bool.not_eq_true'] at hv; exact hv
    have hi : intArgs ((SId.typed W e bits bytes).passes c sc) = some ctx := by
      rw [fieldArgs_sizeArg _ _ _ _ _ hb] at h3
      rw [SId.passes_def, evalOpt_bind _ _ _ h1, evalOpt_bind _ _ _ h2]
      simpa using h3
    refine ⟨Prim.readUnsigned m.native W ctx >>= fun n => Pure.pure (n : Int), ?_, ?_⟩
    · rw [M.bind_assoc]
      rfl
    · exact (uint_decodes hi hz).then fun n => Decodes.pure _

theorem dispatch_decodes {i : Option Nat} {arm : Nat → M Reader Val} {q : Nat → Parser Val}
    (h : ∀ i, Decodes o (arm i) (q i)) : Decodes o (dispatch i arm) (Parser.choose i q) := by
  cases i with
  | none => exact Decodes.fail fun _ => rfl
  | some i => exact (h i).map _

theorem SVariants.select_choose (c : Container) (sc : List Arg) (typed : Option Nat) (m : Machine) (vs : SVariants)
    (ds : DVariants) (h : vs.elab c sc typed = some ds) (env : Env) (n : Int) :
    (ds.toVariants m).select env (.num n) = vs.choose n := by
  rw [DVariants.select_eq, DVariants.select, SVariants.kinds_heads c sc typed vs ds h]
  simp only [VKind.hits_takes, SVariants.choose]
  cases vs.heads.findIdx? fun a => a.kind.takes n <;> rfl

/-! ### limits -/

theorem SAttrs.limits_one (a : SAttrs) (l : Lim) (h : a.limits = [l]) : a.limit = some l := by
  simp only [SAttrs.limits, SAttrs.limit] at *
  cases h1 : a.count <;> cases h2 : a.bytesRead <;> cases h3 : a.bitsRead <;> cases h4 : a.untilEq <;>
    cases h5 : a.readAll <;> simp_all

theorem SFields.elab_fast (c : Container) (env : List Arg) (a : SAttrs) (t : STy) (rest : SFields) (ds : DFields)
    (h : (SFields.cons a t rest).elab c env = some ds) :
    ∃ order dflt d rest', (a.order.or c.order).bind (·.means Arg.order? env) = order ∧
      a.defaultValue t.default = some dflt ∧
      a.fast t.isVecU8 (a.passes c env) (t.elab a.limit (a.passes c env)) = some d ∧ rest.elab c env = some rest' ∧
      (a.temp = none ∧ ds = .cons (a.rest order dflt) d rest' ∨
        ∃ v, a.temp = some v ∧ ds = .temp (a.rest order dflt) d v rest') := by
  simp only [SFields.elab, Option.bind_eq_bind, Option.bind_eq_some_iff] at h
  obtain ⟨endian, h1, order, h2, ctx, h3, dflt, h4, d, h5, rest', h6, h7⟩ := h
  have key : a.validate = true ∧ (a.temp = none ∧ ds = .cons (a.rest order dflt) d rest' ∨
        ∃ v, a.temp = some v ∧ ds = .temp (a.rest order dflt) d v rest') := by
    unfold SAttrs.emit at h7
    split at h7 <;> cases h7
    · rename_i e1 e2; exact ⟨e1, .inl ⟨e2, rfl⟩⟩
    · rename_i v e1 e2; exact ⟨e1, .inr ⟨v, e2, rfl⟩⟩
  rw [a.fieldArgs_passes c env endian order ctx h1 h2 h3 key.1] at h5
  refine ⟨order, dflt, d, rest', ?_, h4, h5, h6, key.2⟩
  rw [show (fun x : Given Order => x.means Arg.order? env) = fun x => x.order env from
    funext (Given.means_order env), evalOpt_bind _ _ _ h2]

/-! ### definitions -/

mutual

theorem STy.decodes (m : Machine) : ∀ (t : STy) (lim : Option Lim) (lims : List Lim) (args : List Arg) (d : Def),
    t.sized args = true → t.elab lim args = some d → (∀ l, lims = [l] → lim = some l) →
    ∀ (env env' : Env), env.Same env' → Decodes o ((d.toTy m).read m env) (t.parse o m lims args env')
  | .base b, lim, lims, args, d, hz, h, _, env, env', hs => by
    rw [STy.elab] at h
    split at h
    · cases h
    · simp only [Option.bind_eq_bind, Option.bind_eq_some_iff, Option.pure_def, Option.some.injEq] at h
      obtain ⟨l, h1, rfl⟩ := h
      rw [STy.sized] at hz
      rw [Def.toTy, Ty.read, STy.parse]
      exact leaf_decodes m args b l h1 hz
  | .option t, lim, lims, args, d, hz, h, hl, env, env', hs => by
    simp only [STy.elab, Option.bind_eq_bind, Option.bind_eq_some_iff, Option.pure_def, Option.some.injEq] at h
    obtain ⟨x, h1, rfl⟩ := h
    rw [STy.sized] at hz
    rw [Def.toTy, Ty.read, STy.parse]
    exact (STy.decodes m t _ lims _ _ hz h1 hl env env' hs).map _
  | .array n t, lim, lims, args, d, hz, h, hl, env, env', hs => by
    simp only [STy.elab, Option.bind_eq_bind, Option.bind_eq_some_iff, Option.pure_def, Option.some.injEq] at h
    obtain ⟨x, h1, rfl⟩ := h
    rw [STy.sized] at hz
    rw [Def.toTy, Ty.read, STy.parse]
    exact (times_decodes (STy.decodes m t _ lims _ _ hz h1 hl env env' hs) n).map _
  | .pair a b, lim, lims, args, d, hz, h, hl, env, env', hs => by
    simp only [STy.elab, Option.bind_eq_bind, Option.bind_eq_some_iff, Option.pure_def, Option.some.injEq] at h
    obtain ⟨x, h1, y, h2, rfl⟩ := h
    rw [STy.sized, Bool.and_eq_true] at hz
    rw [Def.toTy, Ty.read, STy.parse]
    exact (STy.decodes m a _ lims _ _ hz.1 h1 hl env env' hs).bind fun x =>
      (STy.decodes m b _ lims _ _ hz.2 h2 hl env env' hs).map _
  | .vec z t, none, lims, args, d, _, h, _, _, _, _ => by simp [STy.elab] at h
  | .vec z t, some l, lims, args, d, hz, h, hl, env, env', hs => by
    simp only [STy.elab, Option.bind_eq_bind, Option.bind_eq_some_iff, Option.pure_def, Option.some.injEq] at h
    obtain ⟨x, h1, rfl⟩ := h
    rw [STy.sized] at hz
    have key := vec_decodes (mem := m.mem) (zst := z) hs (STy.decodes m t none [] _ _ hz h1 nofun env env' hs) l
    rw [Def.toTy, Ty.read, STy.parse.eq_def]
    dsimp only
    match lims, hl with
    | [l'], hl =>
      obtain rfl := Option.some.inj (hl _ rfl)
      exact key
    | [], _ => exact Decodes.unclear key.past
    | _ :: _ :: _, _ => exact Decodes.unclear key.past
  | .struct c fs, lim, lims, args, d, hz, h, _, env, env', hs => by
    rw [STy.elab] at h
    split at h
    · cases h
    · simp only [Option.bind_eq_bind, Option.bind_eq_some_iff, Option.pure_def, Option.some.injEq] at h
      obtain ⟨sc, h1, ds, h2, rfl⟩ := h
      obtain rfl := Container.bind_scope c args sc h1
      rw [STy.sized] at hz
      rw [Def.toTy, Ty.read, STy.parse]
      simp only [seekRead, M.pure_bind]
      refine (magic_decodes m.native c.magic).bind fun _ => SFields.decodes m c (c.scope args) fs ds hz h2 _ _ ?_
      exact inside_same hs _ ▸ Env.Same.refl _
  | .enum c id vs, lim, lims, args, d, hz, h, _, env, env', hs => by
    rw [STy.elab] at h
    split at h
    · cases h
    · rename_i hcond
      simp only [not_or, Bool.not_eq_false] at hcond
      simp only [Option.bind_eq_bind, Option.bind_eq_some_iff, Option.pure_def, Option.some.injEq] at h
      obtain ⟨sc, h1, did, h2, ds, h3, rfl⟩ := h
      obtain rfl := Container.bind_scope c args sc h1
      rw [STy.sized, Bool.and_eq_true] at hz
      have hin : Env.Same { ctx := ((c.scope args).map Arg.expr).map fun e => e.val env }
        (inside ((c.scope args).map Arg.expr) env') := inside_same hs _ ▸ Env.Same.refl _
      rw [Def.toTy, Ty.read_enum, STy.parse]
      obtain ⟨f, e, hf⟩ := SId.decodes (o := o) m c _ _ id did h2 hcond.2.1 hz.1 hin
      refine (magic_decodes m.native c.magic).bind fun _ => ?_
      rw [e, M.bind_assoc]
      refine hf.bind fun n => ?_
      rw [M.pure_bind, SVariants.select_choose c _ _ m vs ds h3]
      have ht : (did.toSrc m).isTyped = id.size.isSome := by
        cases id with
        | ctx e => cases h2; rfl
        | typed W e bits bytes =>
          simp only [SId.elab, Option.bind_eq_bind, Option.bind_eq_some_iff, Option.pure_def, Option.some.injEq] at h2
          obtain ⟨_, _, _, _, _, _, _, _, _, _, rfl⟩ := h2
          rfl
      rw [ht]
      exact dispatch_decodes fun i => SVariants.decodesAt m c (c.scope args) id vs ds hz.2 h3 n i _ _ hin

theorem SFields.decodes (m : Machine) (c : Container) (sc : List Arg) : ∀ (fs : SFields) (ds : DFields),
    fs.sized c sc = true → fs.elab c sc = some ds → ∀ (env env' : Env), env.Same env' →
      Decodes o ((ds.toFields m).read m env) (fs.parse o m c sc env')
  | .nil, ds, _, h, env, env', hs => by
    simp only [SFields.elab, Option.some.injEq] at h
    subst h
    rw [DFields.toFields, Fields.read, SFields.parse]
    exact Decodes.pure _
  | .cons a t tl, ds, hz, h, env, env', hs => by
    rw [SFields.sized, Bool.and_eq_true] at hz
    obtain ⟨order, dflt, d, rest', h2, h4, h5, h6, h7⟩ := SFields.elab_fast c sc a t tl ds h
    have hval : ∀ e : Env, e.Same env' → Decodes o ((d.toTy m).read m e)
        (match a.limits, t.isVecU8 with
          | [.count n], true => bytesParse o (a.passes c sc) env' n
          | lims, _ => t.parse o m lims (a.passes c sc) env') := by
      intro e he
      by_cases hf : t.isVecU8 = true ∧ a.count.isSome = true
      · obtain ⟨hu, hc⟩ := hf
        obtain ⟨n, hc⟩ := Option.isSome_iff_exists.1 hc
        unfold SAttrs.fast at h5
        rw [hu, hc] at h5
        simp only [Option.map_eq_some_iff] at h5
        obtain ⟨ctx, _, rfl⟩ := h5
        have hmem : Lim.count n ∈ a.limits := a.limit_mem _ (by simp [SAttrs.limit, hc])
        split
        · rename_i k e1 e2
          rw [e1] at hmem
          simp only [List.mem_singleton, Lim.count.injEq] at hmem
          subst hmem
          exact byteVec_decodes m _ ctx he n
        · rename_i hne
          have hp := (byteVec_decodes (o := o) m (a.passes c sc) ctx he n).past
          cases t with
          | vec z t =>
            rw [STy.parse.eq_def]
            dsimp only
            split
            · rename_i l hl
              rw [hl, List.mem_singleton] at hmem
              subst hmem
              exact absurd hu (by intro hu; exact hne _ hl hu)
            · exact Decodes.unclear hp
          | _ => cases hu
      · have h5' : t.elab a.limit (a.passes c sc) = some d := by
          unfold SAttrs.fast at h5
          split at h5
          · rename_i e1 e2
            exact absurd ⟨e2, by rw [e1]; rfl⟩ hf
          · exact h5
        split
        · rename_i k e1 e2
          have := a.limits_one _ e1
          refine absurd ⟨e2, ?_⟩ hf
          cases hc : a.count with
          | some _ => rfl
          | none =>
            have hm : Lim.count k ∈ a.limits := by rw [e1]; exact List.mem_singleton.2 rfl
            simp [SAttrs.limits, hc] at hm
        · exact STy.decodes m t _ _ _ d hz.1 h5' (fun l hl => a.limits_one l hl) e env' he
    have hfield := a.decodes m.native order t.default dflt h4 hs hval
    rw [SFields.parse]
    rw [h2]
    rcases h7 with ⟨ht, rfl⟩ | ⟨f, ht, rfl⟩
    · rw [DFields.toFields, Fields.read]
      simp only [ht]
      exact hfield.bind fun v => (SFields.decodes m c sc tl rest' hz.2 h6 _ _ (hs.push v)).map _
    · rw [DFields.toFields, Fields.read]
      simp only [ht]
      refine hfield.bind fun v => ?_
      have h1 := (SFields.decodes m c sc tl rest' hz.2 h6 _ _ (hs.push v))
      have e : ∀ q : Parser Val, (q >>= fun vs => Pure.pure (if (some f).isSome = true then vs else Val.cons v vs)) = q := by
        intro q
        funext k l
        rw [Parser.bind_run]
        cases q k l <;> rfl
      rw [e]
      exact h1

theorem SVariants.decodesAt (m : Machine) (c : Container) (sc : List Arg) (id : SId) : ∀ (vs : SVariants) (ds : DVariants),
    vs.sized c id sc = true → vs.elab c sc id.size = some ds → ∀ (n : Int) (i : Nat) (env env' : Env), env.Same env' →
      Decodes o ((ds.toVariants m).readAt m env (.num n) id.size.isSome i)
        (vs.parseAt o m c sc id.size.isSome env' n i)
  | .nil, ds, _, h, n, i, env, env', hs => by
    simp only [SVariants.elab, Option.some.injEq] at h
    subst h
    rw [DVariants.toVariants, Variants.readAt, SVariants.parseAt]
    exact Decodes.panic
  | .cons a fs tl, ds, hz, h, n, i + 1, env, env', hs => by
    obtain ⟨fs', rest', _, h2, rfl⟩ := SVariants.elab_cons c sc _ a fs tl ds h
    rw [SVariants.sized, Bool.and_eq_true] at hz
    rw [DVariants.toVariants, Variants.readAt, SVariants.parseAt]
    exact SVariants.decodesAt m c sc id tl rest' hz.2 h2 n i env env' hs
  | .cons a fs tl, ds, hz, h, n, 0, env, env', hs => by
    obtain ⟨fs', rest', h1, h2, rfl⟩ := SVariants.elab_cons c sc _ a fs tl ds h
    simp only [SVariants.sized, Bool.and_eq_true] at hz
    rw [DVariants.toVariants, Variants.readAt, SVariants.parseAt]
    have e : a.toVAttrs.idPat = a.kind.isPat := rfl
    rw [e]
    by_cases hk : a.kind.isPat = true
    · rw [if_pos hk] at h1
      have h1' := h1
      obtain ⟨W, _, _, _, ht, _⟩ := SFields.elabStored_inv c sc _ fs fs' h1
      rw [hk, ht]
      exact SFields.decodesStored m c sc (some W) fs fs' hz.1.2 (ht ▸ h1') n env env' hs
    · rw [if_neg hk] at h1
      rw [if_neg (by simp [hk]), if_neg (by simp [hk])]
      exact SFields.decodes m c sc fs fs' hz.1.2 h1 env env' hs

theorem SFields.decodesStored (m : Machine) (c : Container) (sc : List Arg) (typed : Option Nat) :
    ∀ (fs : SFields) (ds : DFields), fs.sized c sc = true → fs.elabStored c sc typed = some ds →
    ∀ (n : Int) (env env' : Env), env.Same env' →
      Decodes o ((ds.toFields m).readStored m env (.num n)) (fs.parseStored o m c sc env' n)
  | .nil, ds, _, h, _, _, _, _ => by simp [SFields.elabStored] at h
  | .cons a t tl, ds, hz, h, n, env, env', hs => by
    obtain ⟨W, _, rest2, rest', _, e, h4, rfl⟩ := SFields.elabStored_inv c sc _ _ ds h
    obtain rfl : tl = rest2 := by cases e; rfl
    rw [SFields.sized, Bool.and_eq_true] at hz
    rw [DFields.toFields, Fields.readStored, SFields.parseStored]
    exact (SFields.decodes m c sc tl rest' hz.2 h4 _ _ (hs.push _)).map _

end

end Deku
