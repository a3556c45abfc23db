import Verif.Lemmas.ReadAllParse
import Verif.Lemmas.ParseClear

/-!
# A list to the end is a list with the size of what is left
-/

namespace Deku

/-! ### nothing changes where there is no `read_all` -/

theorem Lim.closing_of_ne (n : Nat) {l : Lim} (h : l ≠ .all) : l.closing n = l := by
  cases l <;> first | rfl | exact absurd rfl h

theorem Lim.closing_map (n : Nat) {lims : List Lim} (h : Lim.all ∉ lims) : lims.map (Lim.closing n) = lims := by
  induction lims with
  | nil => rfl
  | cons l lims ih =>
    rw [List.map_cons, ih fun hm => h (List.mem_cons_of_mem _ hm),
      Lim.closing_of_ne n fun hl => h (hl ▸ List.mem_cons_self)]

theorem SAttrs.closing_of_not (n : Nat) {a : SAttrs} (h : a.readAll = false) : a.closing n = a := by
  unfold SAttrs.closing
  rw [h]
  rfl

theorem SAttrs.all_not_mem {a : SAttrs} (h : a.readAll = false) : Lim.all ∉ a.limits := by
  unfold SAttrs.limits
  rw [h]
  simp

/-- `read_all` is the only limit. -/
theorem SAttrs.closing_limits (n : Nat) {a : SAttrs} (h : a.allAlone = true) :
    (a.closing n).limits = a.limits.map (Lim.closing n) := by
  cases hr : a.readAll with
  | false => rw [closing_of_not n hr, Lim.closing_map n (all_not_mem hr)]
  | true =>
    unfold SAttrs.allAlone at h
    rw [hr] at h
    simp only [Bool.not_true, Bool.false_or, Bool.and_eq_true, Option.isNone_iff_eq_none] at h
    unfold SAttrs.closing SAttrs.limits
    rw [hr]
    simp [h, Lim.closing]

mutual

theorem STy.closing_of_limited (n : Nat) : ∀ t : STy, t.limited = true → t.closing n = t
  | .base b, h => by rw [STy.closing]
  | .option t, h => by rw [STy.limited] at h; rw [STy.closing, t.closing_of_limited n h]
  | .array k t, h => by rw [STy.limited] at h; rw [STy.closing, t.closing_of_limited n h]
  | .pair a b, h => by
    rw [STy.limited, Bool.and_eq_true] at h
    rw [STy.closing, a.closing_of_limited n h.1, b.closing_of_limited n h.2]
  | .vec zst t, h => by rw [STy.limited] at h; rw [STy.closing, t.closing_of_limited n h]
  | .struct c fs, h => by rw [STy.limited] at h; rw [STy.closing, fs.closing_of_limited n h]
  | .enum c id vs, h => by rw [STy.limited] at h; rw [STy.closing, vs.closing_of_limited n h]

theorem SFields.closing_of_limited (n : Nat) : ∀ fs : SFields, fs.limited = true → fs.closing n = fs
  | .nil, h => by rw [SFields.closing]
  | .cons a t rest, h => by
    rw [SFields.limited, Bool.and_eq_true, Bool.and_eq_true, Bool.not_eq_true'] at h
    rw [SFields.closing, SAttrs.closing_of_not n h.1.1, t.closing_of_limited n h.1.2, rest.closing_of_limited n h.2]

theorem SVariants.closing_of_limited (n : Nat) : ∀ vs : SVariants, vs.limited = true → vs.closing n = vs
  | .nil, h => by rw [SVariants.closing]
  | .cons a fs rest, h => by
    rw [SVariants.limited, Bool.and_eq_true] at h
    rw [SVariants.closing, fs.closing_of_limited n h.1, rest.closing_of_limited n h.2]

end

theorem SFields.silent_limited : ∀ fs : SFields, fs.silent = true → fs.limited = true
  | .nil, _ => by rw [SFields.limited]
  | .cons a t rest, h => by
    rw [SFields.silent] at h
    simp only [Bool.and_eq_true] at h
    obtain ⟨⟨⟨_, h1⟩, h2⟩, h3⟩ := h
    rw [SFields.limited, h1, h2, silent_limited rest h3]
    rfl

/-! ### what the attributes have in common -/

namespace SAttrs

variable (n : Nat) (a : SAttrs)

theorem closing_order : (a.closing n).order = a.order := by unfold closing; split <;> rfl
theorem closing_passes (c : Container) (sc : List Arg) : (a.closing n).passes c sc = a.passes c sc := by
  unfold closing; split <;> rfl
theorem closing_temp : (a.closing n).temp = a.temp := by unfold closing; split <;> rfl
theorem closing_count : (a.closing n).count = a.count := by unfold closing; split <;> rfl
theorem closing_parse (o : Order) (order : Option Order) : (a.closing n).parse o order = a.parse o order := by
  unfold closing; split <;> rfl

end SAttrs

theorem STy.closing_isVecU8 (n : Nat) (t : STy) : (t.closing n).isVecU8 = t.isVecU8 := by
  cases t with
  | vec zst t => rw [STy.closing]; cases t <;> first | rw [STy.closing] | skip
                 all_goals rfl
  | _ => rw [STy.closing] <;> rfl

mutual

theorem STy.closing_default (n : Nat) : ∀ t : STy, (t.closing n).default = t.default
  | .base b => by rw [STy.closing]
  | .option t => by rw [STy.closing, STy.default, STy.default]
  | .array k t => by rw [STy.closing, STy.default, STy.default, t.closing_default n]
  | .pair a b => by rw [STy.closing, STy.default, STy.default, a.closing_default n, b.closing_default n]
  | .vec zst t => by rw [STy.closing, STy.default, STy.default]
  | .struct c fs => by rw [STy.closing, STy.default, STy.default, fs.closing_default n]
  | .enum c id vs => by rw [STy.closing, STy.default, STy.default]

theorem SFields.closing_default (n : Nat) : ∀ fs : SFields, (fs.closing n).default = fs.default
  | .nil => by rw [SFields.closing]
  | .cons a t rest => by
    rw [SFields.closing, SFields.default, SFields.default, a.closing_temp, t.closing_default n, rest.closing_default n]

end

theorem SVariants.closing_heads (n : Nat) : ∀ vs : SVariants, (vs.closing n).heads = vs.heads
  | .nil => by rw [SVariants.closing]
  | .cons a fs rest => by rw [SVariants.closing, SVariants.heads, SVariants.heads, closing_heads n rest]

theorem SVariants.closing_choose (n : Nat) (vs : SVariants) : (vs.closing n).choose = vs.choose := by
  funext i
  unfold SVariants.choose
  rw [closing_heads]

namespace Parser

variable {α β : Type}

/-- Inputs of which nothing is left are the same for `q`, and for `q'` with some number. -/
structure Ends (q : Parser α) (q' : Nat → Parser α) : Prop where
  closes : ∀ k k' l v j, l.length < 2 ^ 64 → (k' = true → k = true) → q k l = .ok v j [] →
    ∃ n j', (j' = true → j = true) ∧ q' n k' l = .ok v j' []
  opens : ∀ n k k' l v j', (k' = true → k = true) → q' n k' l = .ok v j' [] →
    q k l = .unclear ∨ ∃ j, (j' = true → j = true) ∧ q k l = .ok v j []

theorem Mono.ends {q : Parser α} (h : Mono q) : Ends q fun _ => q where
  closes k k' l v j _ hk hq := ⟨0, h.fewer k k' l v j [] hk hq⟩
  opens _ k k' l v j' hk hq := h.more k k' l v j' [] hk hq

theorem Ends.after {q : Parser α} {f : α → Parser β} {f' : α → Nat → Parser β} (hq : Mono q)
    (hf : ∀ a, Ends (f a) (f' a)) : Ends (q >>= f) fun n => q >>= fun a => f' a n where
  closes k k' l v j hl hk h := by
    obtain ⟨a, i, l1, h1, h2⟩ := bind_ok h
    obtain ⟨i', hi, h3⟩ := hq.fewer k k' l a i l1 hk h1
    have := hq.shrinks _ _ _ _ _ h1
    obtain ⟨n, j', hj, h4⟩ := (hf a).closes i i' l1 v j (by omega) hi h2
    exact ⟨n, j', hj, by rw [bind_app, h3]; exact h4⟩
  opens n k k' l v j' hk h := by
    obtain ⟨a, i', l1, h1, h2⟩ := bind_ok h
    rcases hq.more k k' l a i' l1 hk h1 with h3 | ⟨i, hi, h3⟩
    · left; rw [bind_app, h3]
    · rcases (hf a).opens n i i' l1 v j' hi h2 with h4 | ⟨j, hj, h4⟩
      · left; rw [bind_app, h3]; exact h4
      · right; exact ⟨j, hj, by rw [bind_app, h3]; exact h4⟩

/-- Nothing is read. -/
def Still (q : Parser α) : Prop := ∀ k l v j l', q k l = .ok v j l' → l' = l

theorem Still.pure (a : α) : Still (Pure.pure a : Parser α) := fun k l v j l' h => by rw [pure_app] at h; cases h; rfl

theorem Still.fail (w : Why) : Still (Parser.fail w : Parser α) := fun k l v j l' h => by cases h

theorem Still.unclear : Still (Parser.unclear : Parser α) := fun k l v j l' h => by cases h

theorem Still.bind {q : Parser α} {f : α → Parser β} (hq : Still q) (hf : ∀ a, Still (f a)) : Still (q >>= f) := by
  intro k l v j l' h
  obtain ⟨a, i, l1, h1, h2⟩ := bind_ok h
  rw [hf a _ _ _ _ _ h2, hq _ _ _ _ _ h1]

theorem Still.guard (w : Why) (b : Bool) : Still (guard w b) := by
  unfold Parser.guard
  split
  · exact .pure _
  · exact .fail _

theorem Ends.before {q : Parser α} {q' : Nat → Parser α} {f : α → Parser β} (hq : Ends q q') (hf : ∀ a, Mono (f a))
    (hs : ∀ a, Still (f a)) : Ends (q >>= f) fun n => q' n >>= f where
  closes k k' l v j hl hk h := by
    obtain ⟨a, i, l1, h1, h2⟩ := bind_ok h
    obtain rfl := hs a _ _ _ _ _ h2
    obtain ⟨n, i', hi, h3⟩ := hq.closes k k' l a i hl hk h1
    obtain ⟨j', hj, h4⟩ := (hf a).fewer i i' [] v j [] hi h2
    exact ⟨n, j', hj, by rw [bind_app, h3]; exact h4⟩
  opens n k k' l v j' hk h := by
    obtain ⟨a, i', l1, h1, h2⟩ := bind_ok h
    obtain rfl := hs a _ _ _ _ _ h2
    rcases hq.opens n k k' l a i' hk h1 with h3 | ⟨i, hi, h3⟩
    · left; rw [bind_app, h3]
    · rcases (hf a).more i i' [] v j' [] hi h2 with h4 | ⟨j, hj, h4⟩
      · left; rw [bind_app, h3]; exact h4
      · right; exact ⟨j, hj, by rw [bind_app, h3]; exact h4⟩

theorem Ends.map {q : Parser α} {q' : Nat → Parser α} (hq : Ends q q') (f : α → β) :
    Ends (q >>= fun a => Pure.pure (f a)) fun n => q' n >>= fun a => Pure.pure (f a) :=
  hq.before (fun _ => .pure _) fun _ => .pure _

theorem Ends.ite {p : Prop} [Decidable p] {q r : Parser α} {q' r' : Nat → Parser α} (h : Ends q q') (h' : Ends r r') :
    Ends (if p then q else r) fun n => if p then q' n else r' n := by
  split <;> assumption

/-! ### lists -/

theorem toEnd_nil (q : Parser α) (mem : Nat) (k : Bool) : q.toEnd mem k [] = .ok [] k [] := by
  cases mem <;> (rw [toEnd, bind_app, atEnd]; simp [pure_app])

theorem toEnd_cons (q : Parser α) (mem : Nat) (k : Bool) {l : List Bool} (hl : l ≠ []) :
    q.toEnd (mem + 1) k l = (do let v ← q; let vs ← q.toEnd mem; pure (v :: vs)) true l := by
  rw [toEnd, bind_app, atEnd]
  cases l with
  | nil => exact absurd rfl hl
  | cons b l => simp

theorem toEnd_zero (q : Parser α) (k : Bool) {l : List Bool} (hl : l ≠ []) :
    q.toEnd 0 k l = (do let _ ← q; (fail .panic : Parser (List α))) true l := by
  rw [toEnd, bind_app, atEnd]
  cases l with
  | nil => exact absurd rfl hl
  | cons b l => simp

theorem upTo_step {q : Parser α} {last : α → Nat → Bool} {s mem : Nat} {k : Bool} {l : List Bool} {vs : List α} {j : Bool}
    {l' : List Bool} (h : q.upTo last s (mem + 1) k l = .ok vs j l') : ∃ v i l1, q k l = .ok v i l1 ∧
      ((last v (s - l1.length) = true ∧ vs = [v] ∧ j = i ∧ l' = l1) ∨
        (last v (s - l1.length) = false ∧ ∃ ws, vs = v :: ws ∧ q.upTo last s mem i l1 = .ok ws j l')) := by
  rw [upTo] at h
  obtain ⟨v, i, l1, h1, h2⟩ := bind_ok h
  rw [bind_app, left] at h2
  dsimp only at h2
  refine ⟨v, i, l1, h1, ?_⟩
  cases hb : last v (s - l1.length) with
  | true =>
    rw [hb, if_pos rfl, pure_app] at h2
    cases h2
    exact .inl ⟨rfl, rfl, rfl, rfl⟩
  | false =>
    rw [hb, if_neg (by simp)] at h2
    obtain ⟨ws, i2, l2, h3, h4⟩ := bind_ok h2
    rw [pure_app] at h4
    cases h4
    exact .inr ⟨rfl, ws, rfl, h3⟩

theorem upTo_zero {q : Parser α} {last : α → Nat → Bool} {s : Nat} {k : Bool} {l : List Bool} {vs : List α} {j : Bool}
    {l' : List Bool} : q.upTo last s 0 k l ≠ .ok vs j l' := by
  intro h
  rw [upTo] at h
  obtain ⟨v, i, l1, h1, h2⟩ := bind_ok h
  cases h2

theorem upTo_all {q : Parser α} {n s : Nat} : ∀ {mem : Nat} {k : Bool} {l : List Bool} {vs : List α} {j : Bool},
    q.upTo (fun _ k => decide (k = n)) s mem k l = .ok vs j [] → n = s
  | 0, _, _, _, _, h => absurd h upTo_zero
  | mem + 1, _, _, _, _, h => by
    obtain ⟨v, i, l1, h1, ⟨h2, rfl, rfl, rfl⟩ | ⟨h2, ws, rfl, h3⟩⟩ := upTo_step h
    · have := of_decide_eq_true h2
      rw [List.length_nil] at this
      omega
    · exact upTo_all h3

theorem toEnd_upTo {q : Parser α} (hq : Mono q) {s : Nat} : ∀ (mem : Nat) (k k' : Bool) (l : List Bool) (vs : List α) (j : Bool),
    l ≠ [] → l.length ≤ s → (k' = true → k = true) → q.toEnd mem k l = .ok vs j [] →
    ∃ j', (j' = true → j = true) ∧ q.upTo (fun _ k => decide (k = s)) s mem k' l = .ok vs j' []
  | 0, k, k', l, vs, j, hl, hs, hk, h => by
    rw [toEnd_zero q k hl] at h
    obtain ⟨v, i, l1, h1, h2⟩ := bind_ok h
    cases h2
  | mem + 1, k, k', l, vs, j, hl, hs, hk, h => by
    rw [toEnd_cons q mem k hl] at h
    obtain ⟨v, i, l1, h1, h2⟩ := bind_ok h
    obtain ⟨ws, i2, l2, h3, h4⟩ := bind_ok h2
    rw [pure_app] at h4
    cases h4
    obtain ⟨i', hi, h5⟩ := hq.fewer true k' l v i l1 (fun _ => rfl) h1
    have h6 := hq.shrinks _ _ _ _ _ h1
    have hpos : l.length ≠ 0 := fun h => hl (List.length_eq_zero_iff.1 h)
    by_cases hn : l1 = []
    · subst hn
      rw [toEnd_nil] at h3
      cases h3
      refine ⟨i', hi, ?_⟩
      rw [upTo, bind_app, h5]
      dsimp only
      rw [bind_app, left]
      dsimp only
      rw [List.length_nil, Nat.sub_zero, decide_eq_true rfl, if_pos rfl]
      rfl
    · obtain ⟨j', hj, h7⟩ := toEnd_upTo hq (s := s) mem i i' l1 ws j hn (by omega) hi h3
      refine ⟨j', hj, ?_⟩
      rw [upTo, bind_app, h5]
      dsimp only
      rw [bind_app, left]
      dsimp only
      have : l1.length ≠ 0 := fun h => hn (List.length_eq_zero_iff.1 h)
      rw [decide_eq_false (by omega), if_neg (by simp), bind_app, h7]
      rfl

theorem upTo_toEnd {q : Parser α} (hq : Mono q) {s : Nat} (hs0 : s ≠ 0) : ∀ (mem : Nat) (k k' : Bool) (l : List Bool)
    (vs : List α) (j' : Bool), l ≠ [] → l.length ≤ s → (k' = true → k = true) →
    q.upTo (fun _ k => decide (k = s)) s mem k' l = .ok vs j' [] →
    q.toEnd mem k l = .unclear ∨ ∃ j, (j' = true → j = true) ∧ q.toEnd mem k l = .ok vs j []
  | 0, k, k', l, vs, j', hl, hs, hk, h => absurd h upTo_zero
  | mem + 1, k, k', l, vs, j', hl, hs, hk, h => by
    rw [toEnd_cons q mem k hl]
    obtain ⟨v, i', l1, h1, h2⟩ := upTo_step h
    have h6 := hq.shrinks _ _ _ _ _ h1
    rcases hq.more true k' l v i' l1 (fun _ => rfl) h1 with h3 | ⟨i, hi, h3⟩
    · left; rw [bind_app, h3]
    · rw [bind_app, h3]
      dsimp only
      rcases h2 with ⟨_, rfl, rfl, rfl⟩ | ⟨h2, ws, rfl, h4⟩
      · right
        refine ⟨i, hi, ?_⟩
        rw [bind_app, toEnd_nil]
        rfl
      · have hn : l1 ≠ [] := by
          rintro rfl
          have := of_decide_eq_false h2
          rw [List.length_nil] at this
          omega
        rcases upTo_toEnd hq hs0 mem i i' l1 ws j' hn (by omega) hi h4 with h5 | ⟨j, hj, h5⟩
        · left; rw [bind_app, h5]
        · right; exact ⟨j, hj, by rw [bind_app, h5]; rfl⟩

end Parser

open Parser

theorem size_ok (w : Why) {n : Int} (h : 0 ≤ n ∧ n < 2 ^ 64) : Parser.size w n = pure n.toNat := by
  unfold Parser.size
  rw [decide_eq_true h]
  rfl

theorem size_no (w : Why) {n : Int} (h : ¬ (0 ≤ n ∧ n < 2 ^ 64)) : Parser.size w n = fail w := by
  unfold Parser.size
  rw [decide_eq_false h]
  rfl

theorem bits_parse (mem : Nat) (zst : Bool) (env : Env) (q : Parser Val) (e : Expr) :
    (Lim.bits e).parse mem zst env q = (Parser.size .parse (e.eval env) >>= fun n =>
      if zst || decide (n = 0) then pure [] else left >>= fun start => q.upTo (fun _ k => decide (k = n)) start mem) := by
  rw [Lim.parse]

theorem bits_parse_size (mem : Nat) (zst : Bool) (env : Env) (q : Parser Val) (n : Nat) (k : Bool) (l : List Bool)
    (hn : n < 2 ^ 64) : (Lim.bits (.lit n)).parse mem zst env q k l =
      if (zst || decide (n = 0)) = true then .ok [] k l else q.upTo (fun _ k => decide (k = n)) l.length mem k l := by
  have he : (Expr.lit (n : Int)).eval env = n := rfl
  rw [bits_parse, he, size_ok _ ⟨Int.natCast_nonneg n, by omega⟩, bind_app, pure_app]
  dsimp only
  rw [Int.toNat_natCast]
  by_cases hz : (zst || decide (n = 0)) = true
  · rw [if_pos hz, if_pos hz, pure_app]
  · rw [if_neg hz, if_neg hz, bind_app, left]

theorem bits_parse_large (mem : Nat) (zst : Bool) (env : Env) (q : Parser Val) (n : Nat) (k : Bool) (l : List Bool)
    (hn : ¬ n < 2 ^ 64) : (Lim.bits (.lit n)).parse mem zst env q k l = .no .parse := by
  have he : (Expr.lit (n : Int)).eval env = n := rfl
  rw [bits_parse, he, size_no _ (by omega), bind_app, fail]

theorem Lim.ends (mem : Nat) (zst : Bool) (env : Env) {q : Parser Val} (hq : Mono q) :
    Ends (Lim.all.parse mem zst env q) fun n => (Lim.bits (.lit n)).parse mem zst env q where
  closes k k' l v j hl hk h := by
    unfold Lim.parse at h
    dsimp only at h
    by_cases hz : zst = true
    · subst hz
      rw [if_pos rfl, pure_app] at h
      cases h
      exact ⟨0, k', hk, by rw [bits_parse_size _ _ _ _ _ _ _ (by omega), if_pos (by simp)]⟩
    · rw [if_neg hz] at h
      by_cases hn : l = []
      · subst hn
        rw [toEnd_nil] at h
        cases h
        exact ⟨0, k', hk, by rw [bits_parse_size _ _ _ _ _ _ _ (by omega), if_pos (by simp)]⟩
      · obtain ⟨j', hj, h1⟩ := toEnd_upTo hq (s := l.length) mem k k' l v j hn (Nat.le_refl _) hk h
        refine ⟨l.length, j', hj, ?_⟩
        rw [bits_parse_size _ _ _ _ _ _ _ hl, if_neg (by simp [hz, hn])]
        exact h1
  opens n k k' l v j' hk h := by
    by_cases hn : n < 2 ^ 64
    · rw [bits_parse_size _ _ _ _ _ _ _ hn] at h
      unfold Lim.parse
      dsimp only
      by_cases hz : zst = true
      · subst hz
        rw [if_pos (by simp)] at h
        cases h
        right
        exact ⟨k, hk, by rw [if_pos rfl]; rfl⟩
      · rw [if_neg hz]
        by_cases hn0 : n = 0
        · rw [if_pos (by simp [hn0])] at h
          cases h
          right
          exact ⟨k, hk, toEnd_nil _ _ _⟩
        · rw [if_neg (by simp [hz, hn0])] at h
          obtain rfl := upTo_all h
          exact upTo_toEnd hq hn0 mem k k' l v j' (fun hl => hn0 (by rw [hl]; rfl)) (Nat.le_refl _) hk h
    · rw [bits_parse_large _ _ _ _ _ _ _ hn] at h
      cases h

/-! ### fields -/

theorem SAttrs.ends (o : Order) (order : Option Order) (a : SAttrs) (default : Option Val) {value : Parser Val}
    {value' : Nat → Parser Val} (env : Env) (h : Ends value value') (h1 : a.padBitsAfter = none) (h2 : a.padBytesAfter = none) :
    Ends (a.parse o order default value env) fun n => a.parse o order default (value' n) env := by
  unfold SAttrs.parse
  refine Ends.after (magicParse_mono _ _) fun _ => Ends.after (padParse_mono _ _ _ _) fun _ => ?_
  rw [h1, h2, padParse_none]
  refine Ends.before ?_ (fun _ => (Mono.guard _ _).bind fun _ => (Mono.pure _).bind fun _ => .pure _)
    fun _ => (Still.guard _ _).bind fun _ => (Still.pure _).bind fun _ => .pure _
  refine Ends.ite h (Mono.ends ?_)
  split
  · exact .pure _
  · exact .unclear

theorem SAttrs.parse_still (o : Order) (order : Option Order) (a : SAttrs) (default : Option Val) (value : Parser Val)
    (env : Env) (hs : a.skip = some .read ∨ a.skip = some .all) (hc : a.cond = none) (hm : a.magic = [])
    (hp : a.padless = true) : Still (a.parse o order default value env) := by
  unfold SAttrs.padless at hp
  simp only [Bool.and_eq_true, Option.isNone_iff_eq_none] at hp
  obtain ⟨⟨⟨h1, h2⟩, h3⟩, h4⟩ := hp
  have hpar : a.parsed env = false := by
    unfold SAttrs.parsed
    rcases hs with hs | hs <;> rw [hs, hc]
  unfold SAttrs.parse
  rw [hm, h1, h2, h3, h4, padParse_none, hpar]
  refine Still.bind (.pure _) fun _ => Still.bind (.pure _) fun _ => Still.bind ?_ fun _ => (Still.guard _ _).bind fun _ =>
    (Still.pure _).bind fun _ => .pure _
  rw [if_neg (by simp)]
  split
  · exact .pure _
  · exact .unclear

theorem SFields.parse_still (o : Order) (m : Machine) (c : Container) : ∀ (fs : SFields) (sc : List Arg) (env : Env),
    fs.silent = true → Still (fs.parse o m c sc env)
  | .nil, sc, env, _ => by rw [SFields.parse]; exact .pure _
  | .cons a t rest, sc, env, h => by
    rw [SFields.silent] at h
    simp only [Bool.and_eq_true, decide_eq_true_eq, Option.isNone_iff_eq_none, List.isEmpty_iff] at h
    obtain ⟨⟨⟨⟨⟨⟨h1, h2⟩, h3⟩, h4⟩, _⟩, _⟩, h5⟩ := h
    rw [SFields.parse]
    exact (a.parse_still o _ _ _ env h1 h2 h3 h4).bind fun _ => (parse_still o m c rest sc _ h5).bind fun _ => .pure _

theorem Parser.choose_ends (i : Option Nat) {fields : Nat → Parser Val} {fields' : Nat → Nat → Parser Val}
    (h : ∀ i, Ends (fields i) fun n => fields' n i) : Ends (choose i fields) fun n => choose i (fields' n) := by
  cases i with
  | none => exact (Mono.fail _).ends
  | some i => exact (h i).map _

theorem Lim.ends_closing (mem : Nat) (zst : Bool) (env : Env) {q : Parser Val} (hq : Mono q) (l : Lim) :
    Ends (l.parse mem zst env q) fun n => (l.closing n).parse mem zst env q := by
  by_cases hl : l = .all
  · subst hl
    have : (fun n => (Lim.all.closing n).parse mem zst env q) = fun (n : Nat) => (Lim.bits (.lit n)).parse mem zst env q := by
      funext n
      rw [Lim.closing]
    rw [this]
    exact Lim.ends mem zst env hq
  · simp only [Lim.closing_of_ne _ hl]
    exact (l.parse_mono mem zst env hq).ends

theorem STy.parse_vec_one (o : Order) (m : Machine) (zst : Bool) (t : STy) (l : Lim) (args : List Arg) (env : Env) :
    (STy.vec zst t).parse o m [l] args env =
      (l.parse m.mem zst env (t.parse o m [] args env) >>= fun vs => pure (.ofList vs)) := by
  rw [STy.parse]

theorem STy.vec_ends (o : Order) (m : Machine) (t : STy) (zst : Bool) (lims : List Lim) (args : List Arg) (env : Env)
    (h : t.limited = true) : Ends ((STy.vec zst t).parse o m lims args env) fun n =>
      ((STy.vec zst t).closing n).parse o m (lims.map (Lim.closing n)) args env := by
  have hc : ∀ n, (STy.vec zst t).closing n = .vec zst t := fun n => by rw [STy.closing, t.closing_of_limited _ h]
  simp only [hc]
  match lims with
  | [] =>
    simp only [List.map_nil]
    exact ((STy.vec zst t).parse_mono o m [] args env).ends
  | l :: l2 :: ls =>
    simp only [List.map_cons, STy.parse]
    exact Mono.unclear.ends
  | [l] =>
    simp only [List.map_cons, List.map_nil, STy.parse_vec_one]
    exact (Lim.ends_closing m.mem zst env (t.parse_mono o m [] args env) l).map _

mutual

theorem STy.ends (o : Order) (m : Machine) : ∀ (t : STy) (lims : List Lim) (args : List Arg) (env : Env),
    t.openEnded lims = true →
    Ends (t.parse o m lims args env) fun n => (t.closing n).parse o m (lims.map (Lim.closing n)) args env
  | .base b, lims, args, env, h => by
    simp only [STy.closing, STy.parse]
    exact (b.parse_mono o m args).ends
  | .option t, lims, args, env, h => by
    rw [STy.openEnded] at h
    simp only [STy.closing, STy.parse]
    exact (t.ends o m lims args env h).map _
  | .array k t, lims, args, env, h => by
    rw [STy.openEnded, Bool.and_eq_true, decide_eq_true_eq] at h
    simp only [STy.closing, STy.parse, t.closing_of_limited _ h.1, Lim.closing_map _ h.2]
    exact (((t.parse_mono o m lims args env).times k).bind fun _ => .pure _).ends
  | .pair a b, lims, args, env, h => by
    rw [STy.openEnded, Bool.and_eq_true, Bool.and_eq_true, decide_eq_true_eq] at h
    have hb := b.ends o m lims args env h.2
    simp only [Lim.closing_map _ h.1.2] at hb
    simp only [STy.closing, STy.parse, a.closing_of_limited _ h.1.1, Lim.closing_map _ h.1.2]
    exact Ends.after (a.parse_mono o m lims args env) fun _ => hb.map _
  | .vec zst t, lims, args, env, h => by
    rw [STy.openEnded] at h
    exact t.vec_ends o m zst lims args env h
  | .struct c fs, lims, args, env, h => by
    rw [STy.openEnded] at h
    simp only [STy.closing, STy.parse]
    exact Ends.after (magicParse_mono _ _) fun _ => fs.ends o m c _ _ h
  | .enum c id vs, lims, args, env, h => by
    rw [STy.openEnded] at h
    simp only [STy.closing, STy.parse, SVariants.closing_choose]
    exact Ends.after (magicParse_mono _ _) fun _ => Ends.after (id.parse_mono o m c _ _) fun _ =>
      Parser.choose_ends _ fun i => vs.endsAt o m c _ _ _ _ i h

theorem SFields.ends (o : Order) (m : Machine) (c : Container) : ∀ (fs : SFields) (sc : List Arg) (env : Env),
    fs.openEnded = true → Ends (fs.parse o m c sc env) fun n => (fs.closing n).parse o m c sc env
  | .nil, sc, env, _ => by
    simp only [SFields.closing, SFields.parse]
    exact (Mono.pure _).ends
  | .cons a t rest, sc, env, h => by
    rw [SFields.openEnded, Bool.or_eq_true] at h
    have hv : Mono (match a.limits, t.isVecU8 with
        | [.count n], true => bytesParse o (a.passes c sc) env n
        | lims, _ => t.parse o m lims (a.passes c sc) env) := by
      split
      · exact bytesParse_mono _ _ _ _
      · exact t.parse_mono o m _ _ env
    rcases h with h | h
    · simp only [Bool.and_eq_true, Bool.not_eq_true'] at h
      obtain ⟨⟨h1, h2⟩, h3⟩ := h
      simp only [SFields.closing, SFields.parse, SAttrs.closing_of_not _ h1, t.closing_of_limited _ h2]
      exact Ends.after (a.parse_mono o _ _ env hv) fun _ => (rest.ends o m c sc _ h3).map _
    · simp only [Bool.and_eq_true, Option.isNone_iff_eq_none] at h
      obtain ⟨⟨⟨⟨h1, h2⟩, h3⟩, h4⟩, h5⟩ := h
      simp only [SFields.closing, SFields.parse, SAttrs.closing_parse, SAttrs.closing_order, SAttrs.closing_passes,
        SAttrs.closing_temp, STy.closing_default, STy.closing_isVecU8, SAttrs.closing_limits _ h1,
        rest.closing_of_limited _ (rest.silent_limited h5)]
      refine Ends.before (a.ends o _ _ env ?_ h3 h4) (fun _ => (rest.parse_mono o m c sc _).bind fun _ => .pure _)
        fun _ => (rest.parse_still o m c sc _ h5).bind fun _ => .pure _
      have ht := t.ends o m a.limits (a.passes c sc) env h2
      by_cases hr : a.readAll = true
      · have hl : a.limits = [.all] := by
          unfold SAttrs.allAlone at h1
          rw [hr] at h1
          simp only [Bool.not_true, Bool.false_or, Bool.and_eq_true, Option.isNone_iff_eq_none] at h1
          unfold SAttrs.limits
          rw [hr]
          simp [h1]
        rw [hl] at ht ⊢
        exact ht
      · have hn := fun n => Lim.closing_map n (SAttrs.all_not_mem (a := a) (by simpa using hr))
        simp only [hn] at ht ⊢
        generalize a.limits = lims at ht ⊢
        split
        · exact (bytesParse_mono _ _ _ _).ends
        · exact ht

theorem SVariants.endsAt (o : Order) (m : Machine) (c : Container) : ∀ (vs : SVariants) (sc : List Arg)
    (typed : Bool) (env : Env) (i : Int) (j : Nat), vs.openEnded = true →
    Ends (vs.parseAt o m c sc typed env i j) fun n => (vs.closing n).parseAt o m c sc typed env i j
  | .nil, sc, typed, env, i, j, _ => by
    simp only [SVariants.closing, SVariants.parseAt]
    exact (Mono.fail _).ends
  | .cons a fs rest, sc, typed, env, i, 0, h => by
    rw [SVariants.openEnded, Bool.and_eq_true] at h
    simp only [SVariants.closing, SVariants.parseAt]
    exact .ite (fs.endsStored o m c sc env i h.1) (fs.ends o m c sc env h.1)
  | .cons a fs rest, sc, typed, env, i, j + 1, h => by
    rw [SVariants.openEnded, Bool.and_eq_true] at h
    simp only [SVariants.closing, SVariants.parseAt]
    exact rest.endsAt o m c sc typed env i j h.2

theorem SFields.endsStored (o : Order) (m : Machine) (c : Container) : ∀ (fs : SFields) (sc : List Arg)
    (env : Env) (i : Int), fs.openEnded = true →
    Ends (fs.parseStored o m c sc env i) fun n => (fs.closing n).parseStored o m c sc env i
  | .nil, sc, env, i, _ => by
    simp only [SFields.closing, SFields.parseStored]
    exact (Mono.fail _).ends
  | .cons a t rest, sc, env, i, h => by
    simp only [SFields.closing, SFields.parseStored]
    rw [SFields.openEnded, Bool.or_eq_true] at h
    rcases h with h | h
    · simp only [Bool.and_eq_true] at h
      exact (rest.ends o m c sc _ h.2).map _
    · simp only [Bool.and_eq_true] at h
      simp only [rest.closing_of_limited _ (rest.silent_limited h.2)]
      exact ((rest.parse_mono o m c sc _).bind fun _ => .pure _).ends

end

/-! ### nothing is left -/

namespace Parser

variable {α β : Type}

/-- Nothing is left. -/
def Full (q : Parser α) : Prop := ∀ k l v j l', q k l = .ok v j l' → l' = []

theorem Full.before {q : Parser α} {f : α → Parser β} (hq : Full q) (hf : ∀ a, Mono (f a)) : Full (q >>= f) := by
  intro k l v j l' h
  obtain ⟨a, i, l1, h1, h2⟩ := bind_ok h
  obtain rfl := hq _ _ _ _ _ h1
  have := (hf a).shrinks _ _ _ _ _ h2
  exact List.eq_nil_of_length_eq_zero (by simpa using this)

theorem Full.after (q : Parser α) {f : α → Parser β} (hf : ∀ a, Full (f a)) : Full (q >>= f) := by
  intro k l v j l' h
  obtain ⟨a, i, l1, h1, h2⟩ := bind_ok h
  exact hf a _ _ _ _ _ h2

theorem Full.fail (w : Why) : Full (Parser.fail w : Parser α) := fun _ _ _ _ _ h => nomatch h

theorem toEnd_full (q : Parser α) : ∀ mem, Full (q.toEnd mem)
  | 0 => by
    intro k l v j l' h
    by_cases hl : l = []
    · subst hl; rw [toEnd_nil] at h; cases h; rfl
    · rw [toEnd_zero q k hl] at h
      obtain ⟨_, _, _, _, h2⟩ := bind_ok h
      cases h2
  | mem + 1 => by
    intro k l v j l' h
    by_cases hl : l = []
    · subst hl; rw [toEnd_nil] at h; cases h; rfl
    · rw [toEnd_cons q mem k hl] at h
      obtain ⟨_, _, _, _, h2⟩ := bind_ok h
      obtain ⟨_, _, l2, h3, h4⟩ := bind_ok h2
      rw [pure_app] at h4
      cases h4
      exact toEnd_full q mem _ _ _ _ _ h3

end Parser

theorem SAttrs.parse_full (o : Order) (order : Option Order) (a : SAttrs) (default : Option Val) {value : Parser Val}
    (env : Env) (h : Full value) (ha : a.always = true) : Full (a.parse o order default value env) := by
  unfold SAttrs.parse
  rw [a.always_parsed ha, if_pos rfl]
  exact Full.after _ fun _ => Full.after _ fun _ => h.before fun _ => (Mono.guard _ _).bind fun _ =>
    (padParse_mono _ _ _ _).bind fun _ => .pure _

mutual

theorem STy.parse_full (o : Order) (m : Machine) : ∀ (t : STy) (lims : List Lim) (args : List Arg) (env : Env),
    t.takesAll lims = true → Full (t.parse o m lims args env)
  | .base b, lims, args, env, h => by rw [STy.takesAll] at h; cases h
  | .option t, lims, args, env, h => by
    rw [STy.takesAll] at h
    rw [STy.parse]
    exact (t.parse_full o m lims args env h).before fun _ => .pure _
  | .array k t, lims, args, env, h => by rw [STy.takesAll] at h; cases h
  | .pair a b, lims, args, env, h => by
    rw [STy.takesAll, Bool.or_eq_true] at h
    rw [STy.parse]
    rcases h with h | h
    · exact (a.parse_full o m lims args env h).before fun _ => (b.parse_mono o m lims args env).bind fun _ => .pure _
    · exact Full.after _ fun _ => (b.parse_full o m lims args env h).before fun _ => .pure _
  | .vec zst t, lims, args, env, h => by
    rw [STy.takesAll, Bool.and_eq_true, Bool.not_eq_true', decide_eq_true_eq] at h
    obtain ⟨rfl, rfl⟩ := h
    rw [STy.parse_vec_one]
    refine Full.before ?_ fun _ => .pure _
    rw [Lim.parse, if_neg (by simp)]
    exact toEnd_full _ _
  | .struct c fs, lims, args, env, h => by
    rw [STy.takesAll] at h
    rw [STy.parse]
    exact Full.after _ fun _ => fs.parse_full o m c _ _ h
  | .enum c id vs, lims, args, env, h => by
    rw [STy.takesAll] at h
    rw [STy.parse]
    refine Full.after _ fun _ => Full.after _ fun n => ?_
    cases vs.choose n with
    | none => exact .fail _
    | some i => exact (vs.parseAt_full o m c _ _ _ _ i h).before fun _ => .pure _

theorem SFields.parse_full (o : Order) (m : Machine) (c : Container) : ∀ (fs : SFields) (sc : List Arg) (env : Env),
    fs.takesAll = true → Full (fs.parse o m c sc env)
  | .nil, sc, env, h => by rw [SFields.takesAll] at h; cases h
  | .cons a t rest, sc, env, h => by
    rw [SFields.takesAll, Bool.or_eq_true, Bool.and_eq_true] at h
    rw [SFields.parse]
    rcases h with ⟨ha, ht⟩ | h
    · refine Full.before (a.parse_full o _ _ env ?_ ha) fun _ => (rest.parse_mono o m c sc _).bind fun _ => .pure _
      have hf := t.parse_full o m a.limits (a.passes c sc) env ht
      split
      · rename_i hl hv
        rw [hl] at ht
        cases t with
        | vec zst u =>
          rw [STy.takesAll, Bool.and_eq_true, decide_eq_true_eq] at ht
          cases ht.2
        | _ => cases hv
      · exact hf
    · exact Full.after _ fun _ => (rest.parse_full o m c sc _ h).before fun _ => .pure _

theorem SVariants.parseAt_full (o : Order) (m : Machine) (c : Container) : ∀ (vs : SVariants) (sc : List Arg)
    (typed : Bool) (env : Env) (i : Int) (j : Nat), vs.takesAll = true → Full (vs.parseAt o m c sc typed env i j)
  | .nil, sc, typed, env, i, j, _ => by rw [SVariants.parseAt]; exact .fail _
  | .cons a fs rest, sc, typed, env, i, 0, h => by
    rw [SVariants.takesAll, Bool.and_eq_true] at h
    rw [SVariants.parseAt]
    by_cases hp : a.kind.isPat = true
    · rw [if_pos hp] at h
      obtain ⟨h1, h2⟩ := fs.parseStored_full o m c sc env i h.1
      split
      · exact h1
      · exact h2
    · rw [if_neg hp] at h
      rw [if_neg (by simp [hp])]
      exact fs.parse_full o m c sc env h.1
  | .cons a fs rest, sc, typed, env, i, j + 1, h => by
    rw [SVariants.takesAll, Bool.and_eq_true] at h
    rw [SVariants.parseAt]
    exact rest.parseAt_full o m c sc typed env i j h.2

theorem SFields.parseStored_full (o : Order) (m : Machine) (c : Container) : ∀ (fs : SFields) (sc : List Arg)
    (env : Env) (i : Int), fs.tailTakesAll = true → Full (fs.parseStored o m c sc env i) ∧ Full (fs.parse o m c sc env)
  | .nil, sc, env, i, h => by rw [SFields.tailTakesAll] at h; cases h
  | .cons a t rest, sc, env, i, h => by
    rw [SFields.tailTakesAll] at h
    rw [SFields.parseStored, SFields.parse]
    exact ⟨(rest.parse_full o m c sc _ h).before fun _ => .pure _,
      Full.after _ fun _ => (rest.parse_full o m c sc _ h).before fun _ => .pure _⟩

end

theorem STy.parseBytes_full {o : Order} {m : Machine} {t : STy} (h : t.takesAll [] = true) {data : List Byte} {off : Nat}
    {v : Val} {k : Bool} {left : List Bool} (hv : t.parseBytes o m data off = .ok v k left) : left = [] := by
  unfold STy.parseBytes at hv
  split at hv
  · exact t.parse_full o m [] [] {} h _ _ _ _ _ hv
  · exact Full.after _ (fun _ => t.parse_full o m [] [] {} h) _ _ _ _ _ hv

/-- **The parser.** All of an input is a value, exactly if it is for some size of the list at the end. -/
theorem STy.parseBytes_closes {o : Order} {m : Machine} {t : STy} (h : t.openEnded [] = true) {data : List Byte}
    (hd : data.length < 2 ^ 61) {v : Val} {k : Bool} (hv : t.parseBytes o m data 0 = .ok v k []) :
    ∃ n k', (t.closing n).parseBytes o m data 0 = .ok v k' [] := by
  unfold STy.parseBytes at hv ⊢
  rw [if_pos rfl] at hv
  obtain ⟨n, k', _, h1⟩ := (t.ends o m [] [] {} h).closes false false _ v k
    (by rw [Reader.length_orderBits]; omega) id hv
  exact ⟨n, k', by rw [if_pos rfl]; exact h1⟩

theorem STy.parseBytes_opens {o : Order} {m : Machine} {t : STy} (h : t.openEnded [] = true) {data : List Byte}
    {v : Val} {k : Bool} {n : Nat} (hv : (t.closing n).parseBytes o m data 0 = .ok v k []) :
    t.parseBytes o m data 0 = .unclear ∨ ∃ k', t.parseBytes o m data 0 = .ok v k' [] := by
  unfold STy.parseBytes at hv ⊢
  rw [if_pos rfl] at hv
  rw [if_pos rfl]
  rcases (t.ends o m [] [] {} h).opens n false false _ v k id hv with h1 | ⟨k', _, h1⟩
  · exact .inl h1
  · exact .inr ⟨k', h1⟩

end Deku
