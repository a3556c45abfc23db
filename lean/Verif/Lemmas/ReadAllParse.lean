import Verif.Spec.ReadAll

/-!
# Lists to the end as lists with a size, for the parser of the specification
-/

namespace Deku
namespace Parser

variable {α β : Type}

theorem bind_app (q : Parser α) (f : α → Parser β) (k : Bool) (l : List Bool) :
    (q >>= f) k l = match q k l with
      | .ok a k' l' => f a k' l'
      | .no w => .no w
      | .unclear => .unclear := rfl

theorem pure_app (a : α) (k : Bool) (l : List Bool) : (pure a : Parser α) k l = .ok a k l := rfl

theorem bind_ok {q : Parser α} {f : α → Parser β} {k : Bool} {l : List Bool} {b : β} {j : Bool} {l' : List Bool}
    (h : (q >>= f) k l = .ok b j l') : ∃ a i l1, q k l = .ok a i l1 ∧ f a i l1 = .ok b j l' := by
  rw [bind_app] at h
  cases hq : q k l with
  | ok a i l1 => rw [hq] at h; exact ⟨a, i, l1, rfl, h⟩
  | no w => rw [hq] at h; cases h
  | unclear => rw [hq] at h; cases h

/-- To have peeked only makes less clear. -/
structure Mono (q : Parser α) : Prop where
  shrinks : ∀ k l v j l', q k l = .ok v j l' → l'.length ≤ l.length
  fewer : ∀ k k' l v j l', (k' = true → k = true) → q k l = .ok v j l' →
    ∃ j', (j' = true → j = true) ∧ q k' l = .ok v j' l'
  more : ∀ k k' l v j' l', (k' = true → k = true) → q k' l = .ok v j' l' →
    q k l = .unclear ∨ ∃ j, (j' = true → j = true) ∧ q k l = .ok v j l'

theorem Mono.pure (a : α) : Mono (Pure.pure a : Parser α) where
  shrinks k l v j l' h := by rw [pure_app] at h; cases h; exact Nat.le_refl _
  fewer k k' l v j l' hk h := by rw [pure_app] at h; cases h; exact ⟨k', hk, rfl⟩
  more k k' l v j' l' hk h := by rw [pure_app] at h; cases h; exact .inr ⟨k, hk, rfl⟩

theorem Mono.fail (w : Why) : Mono (fail w : Parser α) where
  shrinks k l v j l' h := by cases h
  fewer k k' l v j l' hk h := by cases h
  more k k' l v j' l' hk h := by cases h

theorem Mono.unclear : Mono (unclear : Parser α) where
  shrinks k l v j l' h := by cases h
  fewer k k' l v j l' hk h := by cases h
  more k k' l v j' l' hk h := by cases h

theorem Mono.bind {q : Parser α} {f : α → Parser β} (hq : Mono q) (hf : ∀ a, Mono (f a)) : Mono (q >>= f) where
  shrinks k l v j l' h := by
    obtain ⟨a, i, l1, h1, h2⟩ := bind_ok h
    exact Nat.le_trans ((hf a).shrinks _ _ _ _ _ h2) (hq.shrinks _ _ _ _ _ h1)
  fewer k k' l v j l' hk h := by
    obtain ⟨a, i, l1, h1, h2⟩ := bind_ok h
    obtain ⟨i', hi, h3⟩ := hq.fewer k k' l a i l1 hk h1
    obtain ⟨j', hj, h4⟩ := (hf a).fewer i i' l1 v j l' hi h2
    exact ⟨j', hj, by rw [bind_app, h3]; exact h4⟩
  more k k' l v j' l' hk h := by
    obtain ⟨a, i', l1, h1, h2⟩ := bind_ok h
    rcases hq.more k k' l a i' l1 hk h1 with h3 | ⟨i, hi, h3⟩
    · left; rw [bind_app, h3]
    · rcases (hf a).more i i' l1 v j' l' hi h2 with h4 | ⟨j, hj, h4⟩
      · left; rw [bind_app, h3]; exact h4
      · right; exact ⟨j, hj, by rw [bind_app, h3]; exact h4⟩

theorem Mono.ite {p : Prop} [Decidable p] {q q' : Parser α} (h : Mono q) (h' : Mono q') : Mono (if p then q else q') := by
  split <;> assumption

theorem Mono.guard (w : Why) (b : Bool) : Mono (guard w b) := by
  unfold Parser.guard
  exact (Mono.pure ()).ite (.fail w)

theorem Mono.provided {b : Bool → List Bool → Bool} (hb : ∀ l, b true l = true → b false l = true) :
    Mono (provided b) where
  shrinks k l v j l' h := by
    unfold Parser.provided at h
    split at h <;> cases h
    exact Nat.le_refl _
  fewer k k' l v j l' hk h := by
    unfold Parser.provided at h ⊢
    split at h <;> cases h
    rename_i hb1
    refine ⟨k', hk, ?_⟩
    rw [if_pos]
    cases k' with
    | true => rw [hk rfl] at hb1; exact hb1
    | false => cases k with
      | true => exact hb l hb1
      | false => exact hb1
  more k k' l v j' l' hk h := by
    unfold Parser.provided at h ⊢
    split at h <;> cases h
    by_cases hb1 : b k l = true
    · right; exact ⟨k, hk, by rw [if_pos hb1]⟩
    · left; rw [if_neg hb1]

theorem Mono.inOrder (o o' : Order) (whole : Bool) : Mono (inOrder o o' whole) := .provided fun _ h => h

theorem Mono.take (n : Nat) : Mono (take n) where
  shrinks k l v j l' h := by
    unfold Parser.take at h
    split at h <;> cases h
    rw [List.length_drop]; omega
  fewer k k' l v j l' hk h := by
    unfold Parser.take at h ⊢
    split at h <;> cases h
    rename_i hn
    rw [if_pos hn]
    refine ⟨_, ?_, rfl⟩
    simp only [Bool.and_eq_true]
    exact fun ⟨h1, h2⟩ => ⟨hk h1, h2⟩
  more k k' l v j' l' hk h := by
    unfold Parser.take at h ⊢
    split at h <;> cases h
    rename_i hn
    rw [if_pos hn]
    refine .inr ⟨_, ?_, rfl⟩
    simp only [Bool.and_eq_true]
    exact fun ⟨h1, h2⟩ => ⟨hk h1, h2⟩

theorem Mono.left : Mono left where
  shrinks k l v j l' h := by unfold Parser.left at h; cases h; exact Nat.le_refl _
  fewer k k' l v j l' hk h := by unfold Parser.left at h; cases h; exact ⟨k', hk, rfl⟩
  more k k' l v j' l' hk h := by unfold Parser.left at h; cases h; exact .inr ⟨k, hk, rfl⟩

theorem Mono.drop (n : Nat) : Mono (drop n) where
  shrinks k l v j l' h := by
    unfold Parser.drop at h
    split at h <;> cases h
    rw [List.length_drop]; omega
  fewer k k' l v j l' hk h := by
    unfold Parser.drop at h ⊢
    split at h <;> cases h
    rename_i hn
    rw [if_pos hn]
    refine ⟨_, ?_, rfl⟩
    simp only [Bool.and_eq_true]
    exact fun ⟨h1, h2⟩ => ⟨hk h1, h2⟩
  more k k' l v j' l' hk h := by
    unfold Parser.drop at h ⊢
    split at h <;> cases h
    rename_i hn
    rw [if_pos hn]
    refine .inr ⟨_, ?_, rfl⟩
    simp only [Bool.and_eq_true]
    exact fun ⟨h1, h2⟩ => ⟨hk h1, h2⟩

theorem Mono.skip (o o' : Order) (n : Nat) : Mono (skip o o' n) :=
  (Mono.inOrder _ _ _).bind fun _ => (Mono.provided fun _ h => by simp).bind fun _ => .drop n

theorem Mono.size (w : Why) (n : Int) : Mono (size w n) := (Mono.guard _ _).bind fun _ => .pure _

theorem Mono.octet (o : Order) : Mono (octet o) := (Mono.take 8).bind fun _ => .pure _

theorem Mono.byte (o : Order) : Mono (byte o) := (Mono.inOrder _ _ _).bind fun _ => .octet o

theorem Mono.times {q : Parser α} (h : Mono q) : ∀ n, Mono (q.times n)
  | 0 => .pure _
  | n + 1 => h.bind fun _ => (Mono.times h n).bind fun _ => .pure _

theorem Mono.upTo {q : Parser α} (h : Mono q) (last : α → Nat → Bool) (start : Nat) : ∀ n, Mono (q.upTo last start n)
  | 0 => h.bind fun _ => .fail _
  | n + 1 => h.bind fun _ => Mono.left.bind fun _ =>
      (Mono.pure _).ite ((Mono.upTo h last start n).bind fun _ => .pure _)

theorem Mono.atEnd : Mono atEnd where
  shrinks k l v j l' h := by unfold Parser.atEnd at h; cases h; exact Nat.le_refl _
  fewer k k' l v j l' hk h := by
    unfold Parser.atEnd at h ⊢
    cases h
    refine ⟨_, ?_, rfl⟩
    simp only [Bool.or_eq_true]
    exact fun h => h.imp hk id
  more k k' l v j' l' hk h := by
    unfold Parser.atEnd at h ⊢
    cases h
    refine .inr ⟨_, ?_, rfl⟩
    simp only [Bool.or_eq_true]
    exact fun h => h.imp hk id

theorem Mono.toEnd {q : Parser α} (h : Mono q) : ∀ n, Mono (q.toEnd n)
  | 0 => Mono.atEnd.bind fun _ => (Mono.pure _).ite (h.bind fun _ => .fail _)
  | n + 1 => Mono.atEnd.bind fun _ => (Mono.pure _).ite (h.bind fun _ => (Mono.toEnd h n).bind fun _ => .pure _)

end Parser

open Parser

theorem magicParse_mono (o : Order) : ∀ bs, Mono (magicParse o bs)
  | [] => .pure _
  | _ :: bs => (Mono.byte o).bind fun _ => (Mono.guard _ _).bind fun _ => magicParse_mono o bs

theorem intParse_mono (o : Order) (args : List Arg) (W : Nat) : Mono (intParse o args W) :=
  (Mono.inOrder _ _ _).bind fun _ => .take _

theorem stringParse_mono (bs : List Byte) : Mono (stringParse bs) := (Mono.guard _ _).bind fun _ => .pure _

theorem Base.parse_mono (o : Order) (m : Machine) (args : List Arg) (b : Base) : Mono (b.parse o m args) := by
  cases b with
  | uint W => exact (intParse_mono _ _ _).bind fun _ => .pure _
  | sint W => exact (intParse_mono _ _ _).bind fun _ => .pure _
  | nonzero W => exact (intParse_mono _ _ _).bind fun _ => (Mono.guard _ _).bind fun _ => .pure _
  | nonzeroSigned W => exact (intParse_mono _ _ _).bind fun _ => (Mono.guard _ _).bind fun _ => .pure _
  | bool => exact (intParse_mono _ _ _).bind fun _ => (Mono.guard _ _).bind fun _ => .pure _
  | cstring =>
    unfold Base.parse
    dsimp only
    split
    · exact ((Mono.byte o).upTo _ _ _).bind fun _ => stringParse_mono _
    · exact (Mono.guard _ _).bind fun _ => ((Mono.byte o).times _).bind fun _ => stringParse_mono _
  | unit => exact .pure _

theorem Lim.parse_mono (mem : Nat) (zst : Bool) (env : Env) {q : Parser Val} (h : Mono q) (l : Lim) :
    Mono (l.parse mem zst env q) := by
  cases l with
  | count e => exact (Mono.size _ _).bind fun _ => (Mono.pure _).ite ((Mono.guard _ _).bind fun _ => h.times _)
  | bytes e =>
    exact (Mono.size _ _).bind fun _ => (Mono.size _ _).bind fun _ => (Mono.pure _).ite (Mono.left.bind fun _ => h.upTo _ _ _)
  | bits e => exact (Mono.size _ _).bind fun _ => (Mono.pure _).ite (Mono.left.bind fun _ => h.upTo _ _ _)
  | «until» n => exact (Mono.pure _).ite (h.upTo _ _ _)
  | all => exact (Mono.pure _).ite (h.toEnd _)

theorem bytesParse_mono (o : Order) (args : List Arg) (env : Env) (n : Expr) : Mono (bytesParse o args env n) :=
  (Mono.provided fun _ h => by simp at h).bind fun _ => (Mono.size _ _).bind fun _ => (Mono.inOrder _ _ _).bind fun _ =>
    Mono.left.bind fun _ => (Mono.guard _ _).bind fun _ => ((Mono.octet o).times _).bind fun _ => .pure _

theorem padParse_mono (o : Order) (order : Option Order) (bits bytes : Option Nat) : Mono (padParse o order bits bytes) :=
  (Mono.pure _).ite ((Mono.guard _ _).bind fun _ => .skip _ _ _)

theorem SAttrs.parse_mono (o : Order) (order : Option Order) (a : SAttrs) (default : Option Val) {value : Parser Val}
    (env : Env) (h : Mono value) : Mono (a.parse o order default value env) := by
  refine (magicParse_mono _ _).bind fun _ => (padParse_mono _ _ _ _).bind fun _ => Mono.bind (.ite h ?_) fun _ =>
    (Mono.guard _ _).bind fun _ => (padParse_mono _ _ _ _).bind fun _ => .pure _
  split
  · exact .pure _
  · exact .unclear

theorem Parser.choose_mono (i : Option Nat) {fields : Nat → Parser Val} (h : ∀ i, Mono (fields i)) :
    Mono (choose i fields) := by
  cases i with
  | none => exact .fail _
  | some i => exact (h i).bind fun _ => .pure _

theorem SId.parse_mono (o : Order) (m : Machine) (c : Container) (sc : List Arg) (env : Env) (id : SId) :
    Mono (id.parse o m c sc env) := by
  cases id with
  | ctx e => exact .pure _
  | typed W e bits bytes => exact (intParse_mono _ _ _).bind fun _ => .pure _

mutual

theorem STy.parse_mono (o : Order) (m : Machine) : ∀ (t : STy) (lims : List Lim) (args : List Arg) (env : Env),
    Mono (t.parse o m lims args env)
  | .base b, lims, args, env => by rw [STy.parse]; exact b.parse_mono o m args
  | .option t, lims, args, env => by rw [STy.parse]; exact (t.parse_mono o m lims args env).bind fun _ => .pure _
  | .array n t, lims, args, env => by rw [STy.parse]; exact ((t.parse_mono o m lims args env).times n).bind fun _ => .pure _
  | .pair a b, lims, args, env => by
    rw [STy.parse]
    exact (a.parse_mono o m lims args env).bind fun _ => (b.parse_mono o m lims args env).bind fun _ => .pure _
  | .vec zst t, lims, args, env => by
    rw [STy.parse.eq_def]
    dsimp only
    split
    · exact (Lim.parse_mono _ _ _ (t.parse_mono o m [] args env) _).bind fun _ => .pure _
    · exact .unclear
  | .struct c fs, lims, args, env => by
    rw [STy.parse]
    exact (magicParse_mono _ _).bind fun _ => fs.parse_mono o m c _ _
  | .enum c id vs, lims, args, env => by
    rw [STy.parse]
    exact (magicParse_mono _ _).bind fun _ => (id.parse_mono o m c _ _).bind fun _ =>
      Parser.choose_mono _ fun i => vs.parseAt_mono o m c _ _ _ _ i

theorem SFields.parse_mono (o : Order) (m : Machine) (c : Container) : ∀ (fs : SFields) (sc : List Arg) (env : Env),
    Mono (fs.parse o m c sc env)
  | .nil, sc, env => by rw [SFields.parse]; exact .pure _
  | .cons a t rest, sc, env => by
    rw [SFields.parse]
    refine (a.parse_mono o _ _ env ?_).bind fun _ => (rest.parse_mono o m c sc _).bind fun _ => .pure _
    split
    · exact bytesParse_mono _ _ _ _
    · exact t.parse_mono o m _ _ env

theorem SVariants.parseAt_mono (o : Order) (m : Machine) (c : Container) : ∀ (vs : SVariants) (sc : List Arg)
    (typed : Bool) (env : Env) (n : Int) (i : Nat), Mono (vs.parseAt o m c sc typed env n i)
  | .nil, sc, typed, env, n, i => by rw [SVariants.parseAt]; exact .fail _
  | .cons a fs rest, sc, typed, env, n, 0 => by
    rw [SVariants.parseAt]
    exact .ite (fs.parseStored_mono o m c sc env n) (fs.parse_mono o m c sc env)
  | .cons a fs rest, sc, typed, env, n, i + 1 => by
    rw [SVariants.parseAt]
    exact rest.parseAt_mono o m c sc typed env n i

theorem SFields.parseStored_mono (o : Order) (m : Machine) (c : Container) : ∀ (fs : SFields) (sc : List Arg)
    (env : Env) (n : Int), Mono (fs.parseStored o m c sc env n)
  | .nil, sc, env, n => by rw [SFields.parseStored]; exact .fail _
  | .cons a t rest, sc, env, n => by
    rw [SFields.parseStored]
    exact (rest.parse_mono o m c sc _).bind fun _ => .pure _

end

end Deku
