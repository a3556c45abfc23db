import Verif.Lemmas.Parse

/-! # Sources of which the parser says everything -/

namespace Deku

open Parser

variable {α β : Type} {o : Order}

/-- The parser says something where `P` is true of the number of bits left and nothing has been peeked at (`e`: even
then), and `Q` is true of the value and the number of bits left behind it. -/
def Parser.Says (P : Nat → Prop) (e : Bool) (q : Parser α) (Q : α → Nat → Prop) : Prop :=
  ∀ k l, (e = false → k = false) → P l.length →
    match q k l with
    | .ok a k' l' => k' = false ∧ Q a l'.length
    | .no _ => True
    | .unclear => False

/-- As many bits are left as there are behind one of these. -/
def Behind (ns : List Nat) (len : Nat) : Prop := ∃ n ∈ ns, (len + n) % 8 = 0

def Parser.Clear (e : Bool) (q : Parser α) (f : Phases) : Prop :=
  ∀ n ns, f n = some ns → q.Says (fun len => (len + n) % 8 = 0) e fun _ len => Behind ns len

theorem Parser.Says.mono {P : Nat → Prop} {e : Bool} {q : Parser α} {Q R : α → Nat → Prop} (h : q.Says P e Q)
    (hR : ∀ a len, Q a len → R a len) : q.Says P e R := by
  intro k l hk hl
  have := h k l hk hl
  cases hq : q k l with
  | ok a k' l' => rw [hq] at this; exact ⟨this.1, hR _ _ this.2⟩
  | no => trivial
  | unclear => rw [hq] at this; exact this

theorem Parser.Says.bind {P : Nat → Prop} {e : Bool} {q : Parser α} {f : α → Parser β} {Q : α → Nat → Prop}
    {R : β → Nat → Prop} (hq : q.Says P e Q) (hf : ∀ a, (f a).Says (Q a) false R) : (q >>= f).Says P e R := by
  intro k l hk hl
  have h1 := hq k l hk hl
  rw [Parser.bind_run]
  cases hr : q k l with
  | ok a k' l' =>
    rw [hr] at h1
    exact hf a k' l' (fun _ => h1.1) h1.2
  | no => trivial
  | unclear => rw [hr] at h1; exact h1

theorem Parser.Says.pure {Q : α → Nat → Prop} (a : α) : (Pure.pure a : Parser α).Says (Q a) false Q :=
  fun _ _ hk hl => ⟨hk rfl, hl⟩

/-- It is behind one of these, and everything is well from each. -/
theorem Parser.Says.cases {ns : List Nat} {e : Bool} {q : Parser α} {Q : α → Nat → Prop}
    (h : ∀ n ∈ ns, q.Says (fun len => (len + n) % 8 = 0) e Q) : q.Says (Behind ns) e Q :=
  fun k l hk ⟨n, h1, h2⟩ => h n h1 k l hk h2

theorem Phases.mem_merge {a b : List Nat} {n : Nat} : n ∈ merge a b ↔ n ∈ a ∨ n ∈ b := by
  unfold merge
  rw [List.mem_append, List.mem_filter, decide_eq_true_eq]
  by_cases h : n ∈ b <;> simp [h]

theorem Phases.after_spec {f : Phases} : ∀ {ns ms : List Nat}, f.after ns = some ms → ∀ n ∈ ns, ∃ xs, f n = some xs ∧
    ∀ x ∈ xs, x ∈ ms
  | [], _, _, _, hn => nomatch hn
  | n :: ns, ms, h, m, hm => by
    simp only [after, Option.bind_eq_bind, Option.bind_eq_some_iff, Option.some.injEq] at h
    obtain ⟨a, h1, b, h2, rfl⟩ := h
    rcases List.mem_cons.1 hm with rfl | hm
    · exact ⟨a, h1, fun x hx => mem_merge.2 (.inl hx)⟩
    · obtain ⟨xs, h3, h4⟩ := after_spec h2 m hm
      exact ⟨xs, h3, fun x hx => mem_merge.2 (.inr (h4 x hx))⟩

theorem Behind.mono {ns ms : List Nat} {len : Nat} (h : Behind ns len) (hs : ∀ n ∈ ns, n ∈ ms) : Behind ms len :=
  let ⟨n, h1, h2⟩ := h
  ⟨n, hs n h1, h2⟩

theorem Parser.Clear.bind {e : Bool} {q : Parser α} {g : α → Parser β} {f f' : Phases} (hq : q.Clear e f)
    (hg : ∀ a, (g a).Clear false f') : (q >>= g).Clear e (f.seq f') := by
  intro n ns h
  simp only [Phases.seq, Option.bind_eq_bind, Option.bind_eq_some_iff] at h
  obtain ⟨ms, h1, h2⟩ := h
  refine (hq n ms h1).bind fun a => Says.cases fun n' hn => ?_
  obtain ⟨xs, h5, h6⟩ := Phases.after_spec h2 n' hn
  exact (hg a n' xs h5).mono fun _ _ h => h.mono h6

theorem Parser.Clear.pure (a : α) : (Pure.pure a : Parser α).Clear false .still := by
  intro n ns h k l hk hl
  cases h
  exact ⟨hk rfl, n, by simp, hl⟩

/-- What follows does not read. -/
theorem Parser.Clear.andThen {e : Bool} {q : Parser α} {g : α → Parser β} {f : Phases} (hq : q.Clear e f)
    (hg : ∀ a, (g a).Clear false .still) : (q >>= g).Clear e f := by
  intro n ns h
  refine (hq n ns h).bind fun a => Says.cases fun n' hn => ?_
  exact (hg a n' [n'] rfl).mono fun _ _ ⟨x, h5, h6⟩ => ⟨x, by rwa [List.mem_singleton.1 h5], h6⟩

/-- What comes before does not read. -/
theorem Parser.Clear.first {q : Parser α} {g : α → Parser β} {f : Phases} (hq : q.Clear false .still)
    (hg : ∀ a, (g a).Clear false f) : (q >>= g).Clear false f := by
  intro n ns h
  exact (hq n [n] rfl).bind fun a => Says.cases fun n' hn => by rw [List.mem_singleton.1 hn]; exact hg a n ns h

theorem Parser.Says.fail {P : Nat → Prop} {e : Bool} {w : Why} {Q : α → Nat → Prop} : (Parser.fail w : Parser α).Says P e Q :=
  fun _ _ _ _ => trivial

theorem Parser.Clear.fail {e : Bool} {w : Why} {f : Phases} : (Parser.fail w : Parser α).Clear e f :=
  fun _ _ _ => Says.fail

theorem Parser.Clear.guard (w : Why) (b : Bool) : (Parser.guard w b).Clear false .still := by
  cases b
  · exact Clear.fail
  · exact Clear.pure ()

theorem Parser.Clear.guardThen {w : Why} {b : Bool} {q : Parser α} {f : Phases} {e : Bool} (hq : q.Clear e f) :
    (Parser.guard w b >>= fun _ => q).Clear e f := by
  cases b
  · exact Clear.fail
  · exact hq

theorem Parser.Clear.take (n : Nat) : (Parser.take n).Clear false (.move n) := by
  intro p ns h k l hk hl
  cases h
  unfold Parser.take
  by_cases hn : n ≤ l.length
  · rw [if_pos hn]
    refine ⟨by rw [hk rfl]; rfl, _, List.mem_singleton.2 rfl, ?_⟩
    rw [List.length_drop]
    omega
  · rw [if_neg hn]
    trivial

theorem Parser.Clear.drop (n : Nat) : (Parser.drop n).Clear false (.move n) := by
  intro p ns h k l hk hl
  cases h
  unfold Parser.drop
  by_cases hn : n ≤ l.length
  · rw [if_pos hn]
    refine ⟨by rw [hk rfl]; rfl, _, List.mem_singleton.2 rfl, ?_⟩
    rw [List.length_drop]
    omega
  · rw [if_neg hn]
    trivial

theorem Parser.Clear.takeSome {n : Nat} (h : 1 ≤ n) : (Parser.take n).Clear true (.move n) := by
  intro p ns h' k l _ hl
  cases h'
  unfold Parser.take
  by_cases hn : n ≤ l.length
  · rw [if_pos hn]
    refine ⟨by rw [decide_eq_false (by omega), Bool.and_false], _, List.mem_singleton.2 rfl, ?_⟩
    rw [List.length_drop]
    omega
  · rw [if_neg hn]
    trivial

theorem Parser.Clear.left : Parser.left.Clear false .still := by
  intro n ns h k l hk hl
  cases h
  exact ⟨hk rfl, n, by simp, hl⟩

theorem Parser.Clear.size (w : Why) (n : Int) : (Parser.size w n).Clear false .still :=
  (Clear.guard _ _).andThen fun _ => Clear.pure _

theorem Parser.Clear.inOrder {e : Bool} {o' : Order} {whole : Bool} {q : Parser α} {f : Phases} (hq : q.Clear e f) :
    (Parser.inOrder o o' whole >>= fun _ => q).Clear e (.inOrder o o' whole f) := by
  intro n ns h k l hk hl
  have h' := h
  unfold Phases.inOrder at h
  by_cases hc : (decide (o' = o) || (whole && decide (n = 0))) = true
  · rw [if_pos hc] at h
    have e : (Parser.inOrder o o' whole >>= fun _ => q) k l = q k l := by
      rw [Parser.bind_run]
      unfold Parser.inOrder Parser.provided
      rw [if_pos]
      simp only [Bool.or_eq_true, decide_eq_true_eq, Bool.and_eq_true] at hc ⊢
      exact hc.imp id fun ⟨h1, h2⟩ => ⟨h1, by subst h2; exact hl⟩
    rw [e]
    exact hq n ns h k l hk hl
  · rw [if_neg hc] at h
    cases h

theorem Parser.Clear.congr {e : Bool} {q : Parser α} {f f' : Phases} (hq : q.Clear e f)
    (h : ∀ n ns, f' n = some ns → ∃ ms, f n = some ms ∧ ∀ m ∈ ms, ∃ m' ∈ ns, m % 8 = m' % 8) : q.Clear e f' := by
  intro n ns hn
  obtain ⟨ms, h1, h2⟩ := h n ns hn
  refine (hq n ms h1).mono fun _ len ⟨x, h3, h4⟩ => ?_
  obtain ⟨y, h5, h6⟩ := h2 x h3
  exact ⟨y, h5, by omega⟩

/-- Eight bits later it is the same. -/
theorem Parser.Clear.octetStill {e : Bool} {q : Parser α} (h : q.Clear e (.move 8)) : q.Clear e .still :=
  h.congr fun n ns hn => ⟨_, rfl, fun m hm => by
    cases hn
    rw [List.mem_singleton.1 hm]
    exact ⟨n, List.mem_singleton.2 rfl, by omega⟩⟩

theorem Parser.Clear.octet : (Parser.octet o).Clear false .still :=
  Clear.octetStill ((Clear.take 8).andThen fun _ => Clear.pure _)

theorem Parser.Clear.octetSome : (Parser.octet o).Clear true .still :=
  Clear.octetStill ((Clear.takeSome (by omega)).andThen fun _ => Clear.pure _)

theorem Parser.Clear.times {q : Parser α} {f : Phases} (h : q.Clear false f) : ∀ n, (q.times n).Clear false (f.times n)
  | 0 => Clear.pure []
  | n + 1 => h.bind fun _ => (Clear.times h n).andThen fun _ => Clear.pure _

/-! ### loops -/

/-- From each of these it is one of these again. -/
def Closed (f : Phases) (ns : List Nat) : Prop := ∀ n ∈ ns, ∃ xs, f n = some xs ∧ ∀ x ∈ xs, x ∈ ns

theorem Phases.closure_mem {f : Phases} : ∀ (k : Nat) (ns : List Nat) {n : Nat}, n ∈ ns → n ∈ f.closure k ns
  | 0, _, _, h => h
  | k + 1, ns, n, h => by
    rw [closure]
    cases f.after ns with
    | none => exact h
    | some ms => exact closure_mem k _ (mem_merge.2 (.inr h))

theorem Phases.loop_spec {f : Phases} {n : Nat} {ns : List Nat} (h : f.loop n = some ns) : n ∈ ns ∧ Closed f ns := by
  unfold loop at h
  cases ha : f.after (f.closure 8 [n]) with
  | none => rw [ha] at h; cases h
  | some ms =>
    rw [ha] at h
    dsimp only at h
    by_cases hc : ms.all (f.closure 8 [n]).contains = true
    · rw [if_pos hc] at h
      cases h
      refine ⟨closure_mem 8 [n] (by simp), fun m hm => ?_⟩
      obtain ⟨xs, h1, h2⟩ := after_spec ha m hm
      exact ⟨xs, h1, fun x hx => by simpa using List.all_eq_true.1 hc x (h2 x hx)⟩
    · rw [if_neg hc] at h
      cases h

/-- In a closed set of phases. -/
theorem closed_says {e : Bool} {q : Parser α} {f : Phases} {ns : List Nat} (h : q.Clear e f) (hc : Closed f ns) :
    q.Says (Behind ns) e fun _ len => Behind ns len := by
  refine Says.cases fun n hn => ?_
  obtain ⟨xs, h1, h2⟩ := hc n hn
  exact (h n xs h1).mono fun _ _ h => h.mono h2

theorem times_says {q : Parser α} {f : Phases} {ns : List Nat} (h : q.Clear false f) (hc : Closed f ns) :
    ∀ k : Nat, (q.times k).Says (Behind ns) false fun _ len => Behind ns len
  | 0 => Says.pure (Q := fun _ => Behind ns) []
  | k + 1 => (closed_says h hc).bind fun _ => (times_says h hc k).bind fun _ => Says.pure (Q := fun _ => Behind ns) _

theorem left_says (P : Nat → Prop) : Parser.left.Says P false fun a len => a = len ∧ P len :=
  fun _ _ hk hl => ⟨hk rfl, rfl, hl⟩

theorem upTo_says {q : Parser α} {f : Phases} {ns : List Nat} (h : q.Clear false f) (hc : Closed f ns)
    (last : α → Nat → Bool) (start : Nat) : ∀ k : Nat, (q.upTo last start k).Says (Behind ns) false fun _ len =>
      Behind ns len ∧ ∃ v, last v (start - len) = true
  | 0 => (closed_says h hc).bind fun _ => Says.fail
  | k + 1 => by
    refine (closed_says h hc).bind fun v => (left_says _).bind fun a => ?_
    by_cases hl : last v (start - a) = true
    · rw [if_pos hl]
      rintro k l hk ⟨rfl, hb⟩
      exact ⟨hk rfl, hb, v, hl⟩
    · rw [if_neg hl]
      rintro k' l hk ⟨-, hb⟩
      exact ((upTo_says h hc last start k).bind fun vs => Says.pure
        (Q := fun _ len => Behind ns len ∧ ∃ v, last v (start - len) = true) (v :: vs)) k' l hk hb

theorem toEnd_says {q : Parser α} {f : Phases} {ns : List Nat} (h : q.Clear true f) (hc : Closed f ns) :
    ∀ k : Nat, (q.toEnd k).Says (Behind ns) false fun _ len => len = 0
  | 0 => by
    intro k l hk hl
    cases l with
    | nil => exact ⟨by rw [hk rfl]; rfl, rfl⟩
    | cons x l =>
      exact ((closed_says h hc).bind fun _ => Says.fail (w := .panic) (Q := fun _ len => len = 0)) (k || true) (x :: l) nofun hl
  | n + 1 => by
    intro k l hk hl
    cases l with
    | nil => exact ⟨by rw [hk rfl]; rfl, rfl⟩
    | cons x l =>
      exact ((closed_says h hc).bind fun v => (toEnd_says h hc n).bind fun vs =>
        Says.pure (Q := fun _ len => len = 0) (v :: vs)) (k || true) (x :: l) nofun hl

/-! ### the parser of a source -/

theorem magicPhases_cons {b : Byte} {bs : List Byte} {n : Nat} {ns : List Nat} (h : magicPhases o (b :: bs) n = some ns) :
    Phases.inOrder o .msb0 true .still n = some ns ∧ magicPhases o bs n = some ns ∧ ns = [n] := by
  have h' : Phases.inOrder o .msb0 true .still n = some ns := h
  have hs : ns = [n] := by
    unfold Phases.inOrder at h'
    split at h'
    · exact (Option.some.inj h').symm
    · cases h'
  refine ⟨h', ?_, hs⟩
  cases bs with
  | nil => rw [hs]; rfl
  | cons c cs => exact h

theorem magic_clear : ∀ magic : List Byte, (magicParse o magic).Clear false (magicPhases o magic)
  | [] => Clear.pure ()
  | b :: bs => by
    intro n ns h
    obtain ⟨h1, h2, rfl⟩ := magicPhases_cons h
    exact ((Clear.inOrder Clear.octet : (Parser.byte o).Clear false _) n [n] h1).bind fun x => Says.cases fun m hm =>
      (Clear.guardThen (b := decide (x = b)) (magic_clear bs)) m [n] (by rw [List.mem_singleton.1 hm]; exact h2)

theorem magic_eager {magic : List Byte} (h : magic.isEmpty = false) :
    (magicParse o magic).Clear true (magicPhases o magic) := by
  cases magic with
  | nil => cases h
  | cons b bs =>
    intro n ns h
    obtain ⟨h1, h2, rfl⟩ := magicPhases_cons h
    exact ((Clear.inOrder Clear.octetSome : (Parser.byte o).Clear true _) n [n] h1).bind fun x => Says.cases fun m hm =>
      (Clear.guardThen (b := decide (x = b)) (magic_clear bs)) m [n] (by rw [List.mem_singleton.1 hm]; exact h2)

theorem skip_clear (o' : Order) (n : Nat) : (Parser.skip o o' n).Clear false (skipPhases o o' n) := by
  refine Clear.inOrder fun p ns h k l hk hl => ?_
  have e : (Parser.provided (fun k _ => !k || decide (n < 8)) >>= fun _ => Parser.drop n) k l = Parser.drop n k l := by
    rw [Parser.bind_run, Parser.provided, if_pos (by rw [hk rfl]; rfl)]
  rw [e]
  exact Clear.drop n p ns h k l hk hl

theorem pad_clear (order : Option Order) (bits bytes : Option Nat) :
    (padParse o order bits bytes).Clear false (padPhases o order bits bytes) := by
  unfold padParse padPhases
  by_cases hn : (bits.isNone && bytes.isNone) = true
  · rw [if_pos hn, if_pos hn]
    exact Clear.pure ()
  · rw [if_neg hn, if_neg hn]
    exact Clear.guardThen (skip_clear _ _)

theorem int_clear (args : List Arg) (W : Nat) : (intParse o args W).Clear false (intPhases o args W) :=
  Clear.inOrder (Clear.take _)

theorem int_eager {args : List Arg} {W : Nat} (h : intEager args W = true) :
    (intParse o args W).Clear true (intPhases o args W) :=
  Clear.inOrder (Clear.takeSome (of_decide_eq_true h))

theorem string_clear (bs : List Byte) : (stringParse bs).Clear false .still :=
  (Clear.guard _ _).andThen fun _ => Clear.pure _

theorem Phases.inOrder_still {o' : Order} {n : Nat} {ns : List Nat} (h : Phases.inOrder o o' true .still n = some ns) :
    ns = [n] ∧ Closed (.inOrder o o' true .still) [n] := by
  have hs : ns = [n] := by
    unfold Phases.inOrder at h
    split at h
    · exact (Option.some.inj h).symm
    · cases h
  subst hs
  refine ⟨rfl, fun m hm => ?_⟩
  rw [List.mem_singleton.1 hm]
  exact ⟨_, h, fun _ hx => hx⟩

/-- Bytes one after the other. -/
theorem bytes_clear {q : Parser β} {o' : Order} {f : Phases} (hf : f = .inOrder o o' true .still)
    (h : ∀ ns, Closed f ns → q.Says (Behind ns) false fun _ len => Behind ns len) : q.Clear false f := by
  subst hf
  intro n ns hn
  obtain ⟨rfl, hc⟩ := Phases.inOrder_still hn
  intro k l hk hl
  exact h [n] hc k l hk ⟨n, List.mem_singleton.2 rfl, hl⟩

theorem base_clear (m : Machine) (args : List Arg) (b : Base) : (b.parse o m args).Clear false (b.phases o args) := by
  cases b with
  | uint W => exact (int_clear args W).andThen fun _ => Clear.pure _
  | sint W => exact (int_clear args W).andThen fun _ => Clear.pure _
  | nonzero W => exact (int_clear args W).andThen fun _ => Clear.guardThen (Clear.pure _)
  | nonzeroSigned W => exact (int_clear args W).andThen fun _ => Clear.guardThen (Clear.pure _)
  | bool => exact (int_clear args 1).andThen fun _ => Clear.guardThen (Clear.pure _)
  | cstring =>
    have hb : (Parser.byte o).Clear false (.inOrder o .msb0 true .still) := Clear.inOrder Clear.octet
    unfold Base.parse
    dsimp only
    cases sizeOf? args with
    | none => exact Clear.andThen (bytes_clear rfl fun ns hc => (upTo_says hb hc _ _ _).mono fun _ _ h => h.1) string_clear
    | some n => exact Clear.guardThen (Clear.andThen (bytes_clear rfl fun ns hc => times_says hb hc _) string_clear)
  | unit => exact Clear.pure _

theorem base_eager (m : Machine) {args : List Arg} {b : Base} (h : b.eager args = true) :
    (b.parse o m args).Clear true (b.phases o args) := by
  cases b with
  | uint W => exact (int_eager h).andThen fun _ => Clear.pure _
  | sint W => exact (int_eager h).andThen fun _ => Clear.pure _
  | nonzero W => exact (int_eager h).andThen fun _ => Clear.guardThen (Clear.pure _)
  | nonzeroSigned W => exact (int_eager h).andThen fun _ => Clear.guardThen (Clear.pure _)
  | bool => exact (int_eager h).andThen fun _ => Clear.guardThen (Clear.pure _)
  | cstring =>
    have hb : (Parser.byte o).Clear false (.inOrder o .msb0 true .still) := Clear.inOrder Clear.octet
    have hb' : (Parser.byte o).Clear true (.inOrder o .msb0 true .still) := Clear.inOrder Clear.octetSome
    have start : ∀ {q : Byte → Parser (List Byte)}, (∀ x ns, Closed (.inOrder o .msb0 true .still) ns →
        (q x).Says (Behind ns) false fun _ len => Behind ns len) →
        (Parser.byte o >>= q).Clear true (.inOrder o .msb0 true .still) := by
      intro q hq n ns hn
      have h1 := hb' n ns hn
      obtain ⟨rfl, hc⟩ := Phases.inOrder_still hn
      exact h1.bind fun x => hq x [n] hc
    unfold Base.parse
    unfold Base.eager at h
    dsimp only at h ⊢
    cases hs : sizeOf? args with
    | none =>
      rw [hs] at h
      refine Clear.andThen ?_ string_clear
      cases m.mem with
      | zero => exact start fun x ns hc => Says.fail
      | succ k =>
        refine start fun x ns hc => (left_says _).bind fun a => ?_
        by_cases hl : (decide (x = 0)) = true
        · rw [if_pos hl]
          rintro k l hk ⟨rfl, hb⟩
          exact ⟨hk rfl, hb⟩
        · rw [if_neg hl]
          rintro k' l hk ⟨-, hb'⟩
          exact ((upTo_says hb hc (fun b _ => decide (b = 0)) 0 k).bind fun vs => (Says.pure
            (Q := fun _ len => Behind ns len ∧ ∃ v : Byte, decide (v = 0) = true) (x :: vs)).mono fun _ _ h => h.1) k' l hk hb'
    | some n =>
      rw [hs] at h
      have h8 : 8 ≤ n := of_decide_eq_true h
      refine Clear.guardThen (Clear.andThen ?_ string_clear)
      obtain ⟨k, hk⟩ : ∃ k, n / 8 = k + 1 := ⟨n / 8 - 1, by omega⟩
      rw [hk]
      exact start fun x ns hc => (times_says hb hc k).bind fun vs => Says.pure (Q := fun _ => Behind ns) _
  | unit => cases h

theorem Phases.loop_behind {f : Phases} {n : Nat} {ns : List Nat} (h : f.loop n = some ns) {q : Parser β} {e : Bool}
    {Q : β → Nat → Prop} (hq : Closed f ns → q.Says (Behind ns) e Q) : q.Says (fun len => (len + n) % 8 = 0) e Q := by
  obtain ⟨h1, h2⟩ := loop_spec h
  intro k l hk hl
  exact hq h2 k l hk ⟨n, h1, hl⟩

theorem lim_clear (mem : Nat) (zst eager : Bool) (env : Env) {q : Parser Val} {f : Phases} (h : q.Clear false f)
    (he : eager = true → q.Clear true f) (l : Lim) : (l.parse mem zst env q).Clear false (l.phases zst eager f) := by
  cases zst with
  | true =>
    cases l with
    | count e => exact Clear.first (Clear.size _ _) fun n => Clear.pure _
    | bytes e =>
      have g : ∀ sz sz' : Int → Parser Nat, (∀ x, (sz x).Clear false .still) → (∀ x, (sz' x).Clear false .still) →
          (sz (e.eval env) >>= fun n => sz' (8 * n : Int) >>= fun n => if true || decide (n = 0) then Pure.pure [] else
            Parser.left >>= fun start => q.upTo (fun _ k => decide (k = n)) start mem).Clear false .still := fun sz sz' hsz hsz' =>
        Clear.first (hsz _) fun n => Clear.first (hsz' _) fun n => Clear.pure _
      exact g _ _ (Clear.size .parse) (Clear.size .panic)
    | bits e => exact Clear.first (Clear.size _ _) fun n => Clear.pure _
    | «until» n => exact Clear.pure _
    | all => exact Clear.pure _
  | false =>
    have none : ∀ {n : Nat} {ns : List Nat}, f.loop n = some ns →
        (Pure.pure [] : Parser (List Val)).Says (fun len => (len + n) % 8 = 0) false fun _ len => Behind ns len :=
      fun hn k l hk hl => ⟨hk rfl, _, (Phases.loop_spec hn).1, hl⟩
    have sized : ∀ (k : Nat) (b : Bool), (if b then Pure.pure [] else
        Parser.left >>= fun start => q.upTo (fun _ j => decide (j = k)) start mem : Parser (List Val)).Clear false f.loop := by
      intro k b n ns hn
      cases b with
      | true => exact none hn
      | false =>
        refine Phases.loop_behind hn fun hc => (left_says _).bind fun a => ?_
        rintro k' l hk ⟨-, hb⟩
        exact (upTo_says h hc _ _ _).mono (fun _ _ h => h.1) k' l hk hb
    cases l with
    | count e =>
      refine Clear.first (Clear.size _ _) fun k => Clear.guardThen fun n ns hn => ?_
      exact Phases.loop_behind hn fun hc => times_says h hc k
    | bytes e =>
      have g : ∀ sz sz' : Int → Parser Nat, (∀ x, (sz x).Clear false .still) → (∀ x, (sz' x).Clear false .still) →
          (∀ x k l a k' l', sz' x k l = .ok a k' l' → a = x.toNat) →
          (sz (e.eval env) >>= fun n => sz' (8 * n : Int) >>= fun n => if false || decide (n = 0) then Pure.pure [] else
            Parser.left >>= fun start => q.upTo (fun _ k => decide (k = n)) start mem).Clear false (f.loopTo id) := by
        intro sz sz' hsz hsz' hv
        refine Clear.first (hsz _) fun x n ns hn => ?_
        simp only [Phases.loopTo, Option.bind_eq_bind, Option.bind_eq_some_iff, Option.some.injEq, id] at hn
        obtain ⟨ms, h1, rfl⟩ := hn
        have hx : (sz' (8 * x : Int)).Says (fun len => (len + n) % 8 = 0) false fun a len =>
            (len + n) % 8 = 0 ∧ a = 8 * x := by
          intro k l hk hl
          have h1 := hsz' (8 * x : Int) n [n] rfl k l hk hl
          have h2 := hv (8 * x : Int) k l
          cases hr : sz' (8 * x : Int) k l with
          | ok a k' l' =>
            rw [hr] at h1
            have h3 := h2 _ _ _ hr
            obtain ⟨h4, y, h5, h6⟩ := h1
            rw [List.mem_singleton.1 h5] at h6
            exact ⟨h4, h6, by omega⟩
          | no => trivial
          | unclear => rw [hr] at h1; exact h1
        refine hx.bind fun a => ?_
        by_cases ha : a = 0
        · rw [if_pos (by simp [ha])]
          rintro k l hk ⟨hl, -⟩
          exact ⟨hk rfl, n, List.mem_singleton.2 rfl, hl⟩
        · rw [if_neg (by simp [ha])]
          refine (left_says _).bind fun b => ?_
          rintro k l hk ⟨hb, hl, rfl⟩
          obtain ⟨h3, h4⟩ := Phases.loop_spec h1
          refine (upTo_says h h4 _ _ _).mono (fun _ len hq => ?_) k l hk ⟨n, h3, hl⟩
          obtain ⟨-, v, hv⟩ := hq
          have hv := of_decide_eq_true hv
          exact ⟨n, List.mem_singleton.2 rfl, by omega⟩
      refine g _ _ (Clear.size .parse) (Clear.size .panic) fun x k l a k' l' hr => ?_
      unfold Parser.size at hr
      rw [Parser.bind_run] at hr
      unfold Parser.guard at hr
      by_cases hg : decide (0 ≤ x ∧ x < 2 ^ 64) = true
      · rw [if_pos hg] at hr
        cases hr
        rfl
      · rw [if_neg hg] at hr
        cases hr
    | bits e => exact Clear.first (Clear.size _ _) fun n => sized n _
    | «until» x => exact fun n ns hn => Phases.loop_behind hn fun hc => (upTo_says h hc _ _ _).mono fun _ _ h => h.1
    | all =>
      unfold Lim.phases
      cases eager with
      | false => exact fun n ns hn => nomatch hn
      | true =>
        intro n ns hn
        simp only [Bool.false_eq_true, if_false, if_true, Phases.loopTo, Option.bind_eq_bind, Option.bind_eq_some_iff,
          Option.some.injEq] at hn
        obtain ⟨ms, h1, rfl⟩ := hn
        exact Phases.loop_behind h1 fun hc => (toEnd_says (he rfl) hc _).mono fun _ len h =>
          ⟨0, List.mem_singleton.2 rfl, by omega⟩

theorem byteVec_clear {args : List Arg} (hb : bitSized args = false) (env : Env) (n : Expr) :
    (bytesParse o args env n).Clear false (.inOrder o .lsb0 true .still) := by
  intro p ns h k l hk hl
  have e : bytesParse o args env n k l = (Parser.size .parse (n.eval env) >>= fun n => Parser.inOrder o .lsb0 true >>= fun _ =>
      Parser.left >>= fun k => Parser.guard .panic (decide (8 * n ≤ k ∨ 8 * n < 2 ^ 64)) >>= fun _ => (octet o).times n >>= fun bs => Pure.pure (Val.ofList (bs.map .ofByte))) k l := by
    unfold bytesParse
    rw [Parser.bind_run, Parser.provided, if_pos (by rw [hk rfl, hb]; rfl)]
  rw [e]
  have hc : ∀ p, Closed .still [p] := fun p m hm => ⟨_, rfl, fun x hx => by
    rw [List.mem_singleton.1 hm] at hx; exact hx⟩
  exact (Clear.first (Clear.size _ _) fun n => Clear.inOrder (f := .still) (Clear.first Clear.left fun _ => Clear.guardThen (Clear.andThen (fun n' ns' h' => by
    cases h'
    intro k l hk hl
    exact times_says Clear.octet (hc n') n k l hk ⟨n', List.mem_singleton.2 rfl, hl⟩) fun _ => Clear.pure _))) p ns h k l hk hl

theorem Parser.Clear.either_left {e : Bool} {q : Parser α} {f f' : Phases} (h : q.Clear e f) : q.Clear e (f.either f') := by
  intro n ns hn
  simp only [Phases.either, Option.bind_eq_bind, Option.bind_eq_some_iff, Option.some.injEq] at hn
  obtain ⟨a, h1, b, h2, rfl⟩ := hn
  exact (h n a h1).mono fun _ _ h => h.mono fun _ hx => Phases.mem_merge.2 (.inl hx)

theorem Parser.Clear.either_right {e : Bool} {q : Parser α} {f f' : Phases} (h : q.Clear e f') : q.Clear e (f.either f') := by
  intro n ns hn
  simp only [Phases.either, Option.bind_eq_bind, Option.bind_eq_some_iff, Option.some.injEq] at hn
  obtain ⟨a, h1, b, h2, rfl⟩ := hn
  exact (h n b h2).mono fun _ _ h => h.mono fun _ hx => Phases.mem_merge.2 (.inr hx)

theorem SAttrs.always_parsed {a : SAttrs} (ha : a.always = true) (env : Env) : a.parsed env = true := by
  unfold SAttrs.always at ha
  unfold SAttrs.parsed
  simp only [Bool.and_eq_true, Bool.or_eq_true, Option.isNone_iff_eq_none, decide_eq_true_eq] at ha
  rw [ha.2]
  rcases ha.1 with h | h <;> rw [h]

theorem choice_clear {a : SAttrs} {dflt : Option Val} {q : Parser Val} {f : Phases} {env : Env} (hq : q.Clear false f) :
    (if a.parsed env then q else match a.default.or dflt with | some v => Pure.pure v | none => unclear).Clear false
      (if a.always then f else if (a.default.or dflt).isSome then
        (if (a.skip = some .read ∨ a.skip = some .all) ∧ a.cond = none then .still else f.either .still)
          else fun _ => none) := by
  by_cases ha : a.always = true
  · rw [if_pos ha, if_pos (SAttrs.always_parsed ha env)]
    exact hq
  · rw [if_neg ha]
    by_cases hd : (a.default.or dflt).isSome = true
    · rw [if_pos hd]
      obtain ⟨v, hv⟩ := Option.isSome_iff_exists.1 hd
      rw [hv]
      dsimp only
      by_cases hs : (a.skip = some .read ∨ a.skip = some .all) ∧ a.cond = none
      · rw [if_pos hs, if_neg (by
          unfold SAttrs.parsed
          rw [hs.2]
          rcases hs.1 with h | h <;> rw [h] <;> exact Bool.false_ne_true)]
        exact Clear.pure _
      · rw [if_neg hs]
        by_cases hp : a.parsed env = true
        · rw [if_pos hp]; exact hq.either_left
        · rw [if_neg hp]; exact (Clear.pure _).either_right
    · rw [if_neg hd]
      exact fun n ns h => nomatch h

theorem attrs_clear {a : SAttrs} {order : Option Order} {dflt : Option Val} {q : Parser Val} {f : Phases} {env : Env}
    (hq : q.Clear false f) : (a.parse o order dflt q env).Clear false (a.phases o order dflt f) :=
  (magic_clear _).bind fun _ => (pad_clear _ _ _).bind fun _ => (choice_clear hq).bind fun _ =>
    Clear.guardThen ((pad_clear _ _ _).andThen fun _ => Clear.pure _)

theorem Parser.Clear.stillSeq {e : Bool} {q : Parser α} {f : Phases} (hq : q.Clear e f) : q.Clear e (Phases.seq .still f) := by
  intro n ns h
  obtain ⟨xs, h1, h2⟩ := Phases.after_spec (show f.after [n] = some ns from h) n (List.mem_singleton.2 rfl)
  exact (hq n xs h1).mono fun _ _ h => h.mono h2

theorem attrs_eager {a : SAttrs} {order : Option Order} {dflt : Option Val} {q : Parser Val} {f : Phases} {env : Env}
    {b : Bool} (h : a.eager b = true) (hq : q.Clear false f) (hb : b = true → q.Clear true f) :
    (a.parse o order dflt q env).Clear true (a.phases o order dflt f) := by
  cases hm : a.magic.isEmpty with
  | false =>
    exact (magic_eager hm).bind fun _ => (pad_clear _ _ _).bind fun _ => (choice_clear hq).bind fun _ =>
      Clear.guardThen ((pad_clear _ _ _).andThen fun _ => Clear.pure _)
  | true =>
    simp only [SAttrs.eager, hm, Bool.not_true, Bool.false_or, Bool.and_eq_true] at h
    obtain ⟨⟨⟨h1, h2⟩, h3⟩, h4⟩ := h
    unfold SAttrs.parse SAttrs.phases
    rw [List.isEmpty_iff.1 hm, show magicParse o [] = Pure.pure () from rfl, show magicPhases o [] = .still from rfl,
      show padParse o order a.padBitsBefore a.padBytesBefore = Pure.pure () by unfold padParse; rw [h1, h2]; rfl,
      show padPhases o order a.padBitsBefore a.padBytesBefore = .still by unfold padPhases; rw [h1, h2]; rfl,
      if_pos (SAttrs.always_parsed h3 env), if_pos h3]
    exact Clear.stillSeq (Clear.stillSeq ((hb h4).bind fun _ =>
      Clear.guardThen ((pad_clear _ _ _).andThen fun _ => Clear.pure _)))

theorem id_clear (m : Machine) (c : Container) (sc : List Arg) (env : Env) (id : SId) :
    (id.parse o m c sc env).Clear false (id.phases o c sc) := by
  cases id with
  | ctx e => exact Clear.pure _
  | typed W e bits bytes => exact (int_clear _ _).andThen fun _ => Clear.pure _


mutual

theorem STy.parse_clear (m : Machine) : ∀ (t : STy) (lims : List Lim) (args : List Arg) (env : Env),
    (t.parse o m lims args env).Clear false (t.phases o lims args)
  | .base b, lims, args, env => by
    rw [STy.parse, STy.phases]
    exact base_clear m args b
  | .option t, lims, args, env => by
    rw [STy.parse, STy.phases]
    exact (STy.parse_clear m t lims args env).andThen fun _ => Clear.pure _
  | .array n t, lims, args, env => by
    rw [STy.parse, STy.phases]
    exact ((STy.parse_clear m t lims args env).times n).andThen fun _ => Clear.pure _
  | .pair a b, lims, args, env => by
    rw [STy.parse, STy.phases]
    exact (STy.parse_clear m a lims args env).bind fun _ => (STy.parse_clear m b lims args env).andThen fun _ =>
      Clear.pure _
  | .vec z t, lims, args, env => by
    match lims with
    | [] => rw [STy.phases.eq_def]; exact fun n ns h => nomatch h
    | [l] =>
      rw [STy.parse, STy.phases]
      exact (lim_clear m.mem z _ env (STy.parse_clear m t [] args env) (fun he => STy.parse_eager m t [] args env he)
        l).andThen fun _ => Clear.pure _
    | _ :: _ :: _ => rw [STy.phases.eq_def]; exact fun n ns h => nomatch h
  | .struct c fs, lims, args, env => by
    rw [STy.parse, STy.phases]
    exact (magic_clear _).bind fun _ => SFields.parse_clear m c fs _ _
  | .enum c id vs, lims, args, env => by
    rw [STy.parse, STy.phases]
    refine (magic_clear _).bind fun _ => (id_clear m _ _ _ _).bind fun n => ?_
    cases vs.choose n with
    | none => exact Clear.fail
    | some i => exact (SVariants.parseAt_clear m c vs _ _ _ n i).andThen fun _ => Clear.pure _

theorem STy.parse_eager (m : Machine) : ∀ (t : STy) (lims : List Lim) (args : List Arg) (env : Env),
    t.eager args = true → (t.parse o m lims args env).Clear true (t.phases o lims args)
  | .base b, lims, args, env, h => by
    rw [STy.eager] at h
    rw [STy.parse, STy.phases]
    exact base_eager m h
  | .option t, lims, args, env, h => by
    rw [STy.eager] at h
    rw [STy.parse, STy.phases]
    exact (STy.parse_eager m t lims args env h).andThen fun _ => Clear.pure _
  | .array n t, lims, args, env, h => by
    rw [STy.eager, Bool.and_eq_true, decide_eq_true_eq] at h
    rw [STy.parse, STy.phases]
    match n, h.1 with
    | n + 1, _ =>
      exact Clear.andThen ((STy.parse_eager m t lims args env h.2).bind fun _ =>
        ((STy.parse_clear m t lims args env).times n).andThen fun _ => Clear.pure _) fun _ => Clear.pure _
  | .pair a b, lims, args, env, h => by
    rw [STy.eager] at h
    rw [STy.parse, STy.phases]
    exact (STy.parse_eager m a lims args env h).bind fun _ => (STy.parse_clear m b lims args env).andThen fun _ =>
      Clear.pure _
  | .vec z t, lims, args, env, h => by
    rw [STy.eager] at h
    cases h
  | .struct c fs, lims, args, env, h => by
    rw [STy.eager] at h
    rw [STy.parse, STy.phases]
    cases hm : c.magic.isEmpty with
    | false => exact (magic_eager hm).bind fun _ => SFields.parse_clear m c fs _ _
    | true =>
      rw [hm, Bool.not_true, Bool.false_or] at h
      rw [List.isEmpty_iff.1 hm]
      exact Clear.stillSeq (SFields.parse_eager m c fs _ _ h)
  | .enum c id vs, lims, args, env, h => by
    unfold STy.eager at h
    rw [STy.parse, STy.phases]
    have hv : ∀ n, (choose (vs.choose n) (vs.parseAt o m c (c.scope args) id.size.isSome
        (inside ((c.scope args).map Arg.expr) env) n)).Clear false (vs.phases o c (c.scope args) id.size.isSome) := by
      intro n
      cases vs.choose n with
      | none => exact Clear.fail
      | some i => exact (SVariants.parseAt_clear m c vs _ _ _ n i).andThen fun _ => Clear.pure _
    cases hm : c.magic.isEmpty with
    | false => exact (magic_eager hm).bind fun _ => (id_clear m _ _ _ _).bind hv
    | true =>
      rw [hm, Bool.not_true, Bool.false_or] at h
      rw [List.isEmpty_iff.1 hm, show magicParse o [] = Pure.pure () from rfl, Parser.pure_bind]
      refine Clear.stillSeq (Clear.bind ?_ hv)
      cases id with
      | ctx e => cases h
      | typed W e bits bytes => exact (int_eager h).andThen fun _ => Clear.pure _

theorem SFields.parse_clear (m : Machine) (c : Container) : ∀ (fs : SFields) (sc : List Arg) (env : Env),
    (fs.parse o m c sc env).Clear false (fs.phases o c sc)
  | .nil, sc, env => by rw [SFields.parse, SFields.phases]; exact Clear.pure _
  | .cons a t tl, sc, env => by
    rw [SFields.parse, SFields.phases]
    refine Clear.bind (attrs_clear ?_) fun v => (SFields.parse_clear m c tl sc _).andThen fun _ => Clear.pure _
    split
    · cases hb : bitSized (a.passes c sc) with
      | true => exact fun n ns h => nomatch h
      | false => exact byteVec_clear hb _ _
    · exact STy.parse_clear m t _ _ env

theorem SFields.parse_eager (m : Machine) (c : Container) : ∀ (fs : SFields) (sc : List Arg) (env : Env),
    fs.eager c sc = true → (fs.parse o m c sc env).Clear true (fs.phases o c sc)
  | .nil, sc, env, h => by rw [SFields.eager] at h; cases h
  | .cons a t tl, sc, env, h => by
    rw [SFields.eager] at h
    rw [SFields.parse, SFields.phases]
    refine Clear.bind (attrs_eager h ?_ ?_) fun v => (SFields.parse_clear m c tl sc _).andThen fun _ => Clear.pure _
    · split
      · cases hb : bitSized (a.passes c sc) with
        | true => exact fun n ns h => nomatch h
        | false => exact byteVec_clear hb _ _
      · exact STy.parse_clear m t _ _ env
    · intro he
      split
      · rename_i hv
        match t, hv, he with
        | .vec .., _, he => rw [STy.eager] at he; cases he
      · exact STy.parse_eager m t _ _ env he

theorem SVariants.parseAt_clear (m : Machine) (c : Container) : ∀ (vs : SVariants) (sc : List Arg) (typed : Bool) (env : Env)
    (n : Int) (i : Nat), (vs.parseAt o m c sc typed env n i).Clear false (vs.phases o c sc typed)
  | .nil, sc, typed, env, n, i => by rw [SVariants.parseAt]; exact Clear.fail
  | .cons a fs tl, sc, typed, env, n, i + 1 => by
    rw [SVariants.parseAt, SVariants.phases]
    exact (SVariants.parseAt_clear m c tl sc typed env n i).either_right
  | .cons a fs tl, sc, typed, env, n, 0 => by
    rw [SVariants.parseAt, SVariants.phases]
    refine Clear.either_left ?_
    by_cases hk : (a.kind.isPat && typed) = true
    · rw [if_pos hk, if_pos hk]
      exact SFields.parseStored_clear m c fs sc env n
    · rw [if_neg hk, if_neg hk]
      exact SFields.parse_clear m c fs sc env

theorem SFields.parseStored_clear (m : Machine) (c : Container) : ∀ (fs : SFields) (sc : List Arg) (env : Env) (n : Int),
    (fs.parseStored o m c sc env n).Clear false (fs.phasesStored o c sc)
  | .nil, sc, env, n => by rw [SFields.parseStored]; exact Clear.fail
  | .cons a t tl, sc, env, n => by
    rw [SFields.parseStored, SFields.phasesStored]
    exact (SFields.parse_clear m c tl sc _).andThen fun _ => Clear.pure _

end

/-- What is said of a source that is clear. -/
theorem STy.parseBytes_clear {t : STy} {off : Nat} (hc : t.clear o off = true) (m : Machine) (data : List Byte) :
    t.parseBytes o m data off ≠ .unclear := by
  unfold STy.clear at hc
  obtain ⟨ns, hn⟩ := Option.isSome_iff_exists.1 hc
  have key : (if off = 0 then t.parse o m [] [] {} else Parser.skip o .msb0 off >>= fun _ => t.parse o m [] [] {}).Clear false
      ((if off = 0 then Phases.still else skipPhases o .msb0 off).seq (t.phases o [] [])) := by
    by_cases h0 : off = 0
    · rw [if_pos h0, if_pos h0]
      exact Clear.stillSeq (STy.parse_clear m t [] [] {})
    · rw [if_neg h0, if_neg h0]
      exact (skip_clear _ _).bind fun _ => STy.parse_clear m t [] [] {}
  have := key 0 ns hn false (orderBits o data) (fun _ => rfl) (by rw [Reader.length_orderBits]; omega)
  intro e
  unfold STy.parseBytes at e
  rw [e] at this
  exact this

end Deku
