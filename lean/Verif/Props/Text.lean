import Verif.Model.Text

/-!
# C100: the names of the macro in the text of an attribute
-/

namespace Deku.Text

/-! ### Specification -/

/-- `reader`, `writer`, `bit_offset`, `byte_offset` -/
def names : List (List Char) :=
  [['r','e','a','d','e','r'], ['w','r','i','t','e','r'], ['b','i','t','_','o','f','f','s','e','t'],
   ['b','y','t','e','_','o','f','f','s','e','t']]

/-- `deku::` -/
def path : List Char := ['d','e','k','u',':',':']

/-- `__deku_` -/
def mark : List Char := ['_','_','d','e','k','u','_']

/-- Wherever `deku::` with one of the names occurs, it is replaced by `__deku_` with that name, and nothing else is. -/
inductive Rewritten (ns : List (List Char)) : List Char → List Char → Prop
  | nil : Rewritten ns [] []
  | name {n s t} : n ∈ ns → Rewritten ns s t → Rewritten ns (path ++ n ++ s) (mark ++ n ++ t)
  | char {c s t} : (∀ n ∈ ns, ¬ (path ++ n) <+: c :: s) → Rewritten ns s t → Rewritten ns (c :: s) (c :: t)

/-! ### Proofs -/

theorem contains_iff (pat : List Char) : ∀ s, contains pat s = true ↔ pat <:+: s
  | [] => by simp [contains]
  | c :: cs => by
    rw [contains, Bool.or_eq_true, List.isPrefixOf_iff_prefix, contains_iff pat cs, List.infix_cons_iff]

theorem replaceFrom_skip (pat new : List Char) : ∀ (k : Nat) (s : List Char), replaceFrom pat new k s = replaceFrom pat new 0 (s.drop k)
  | 0, s => rfl
  | k + 1, [] => by simp [replaceFrom]
  | k + 1, _ :: cs => by rw [replaceFrom, List.drop_succ_cons, replaceFrom_skip pat new k cs]

theorem replace_rewrites (n : List Char) : ∀ (k : Nat) (s : List Char), s.length ≤ k → Rewritten [n] s (replace (path ++ n) (mark ++ n) s)
  | _, [], _ => .nil
  | 0, c :: cs, h => by simp at h
  | k + 1, c :: cs, h => by
    simp only [List.length_cons, Nat.add_le_add_iff_right] at h
    rw [replace, replaceFrom]
    by_cases hp : (path ++ n) <+: c :: cs
    · rw [if_pos (List.isPrefixOf_iff_prefix.2 hp), replaceFrom_skip]
      obtain ⟨s2, hs⟩ := hp
      have e : cs.drop ((path ++ n).length - 1) = s2 := by
        have : cs = (['e','k','u',':',':'] ++ n) ++ s2 := by
          have := (List.cons.inj hs).2
          exact this.symm
        rw [this]
        exact List.drop_left' (by simp [path])
      rw [e, ← hs]
      have hl : s2.length ≤ k := by
        have := congrArg List.length hs
        simp [path] at this
        omega
      exact .name (by simp) (replace_rewrites n k s2 hl)
    · rw [if_neg (fun h => hp (List.isPrefixOf_iff_prefix.1 h))]
      exact .char (by simpa using hp) (replace_rewrites n k cs h)

/-- The two differ in a place that both have. -/
def differs : List Char → List Char → Bool
  | c :: cs, d :: ds => decide (c ≠ d) || differs cs ds
  | _, _ => false

/-- `p` differs from every end of the text. -/
def apart (p : List Char) : List Char → Bool
  | [] => true
  | c :: cs => differs p (c :: cs) && apart p cs

theorem differs_not_prefix : ∀ (p x t : List Char), differs p x = true → ¬ p <+: x ++ t
  | c :: cs, d :: ds, t, h, hp => by
    rw [differs, Bool.or_eq_true, decide_eq_true_iff] at h
    rw [List.cons_append, List.cons_prefix_cons] at hp
    rcases h with h | h
    · exact h hp.1
    · exact differs_not_prefix cs ds t h hp.2
  | [], x, t, h, _ => by simp [differs] at h
  | c :: cs, [], t, h, _ => by simp [differs] at h

/-- Text that has nothing to do with the names is passed on. -/
theorem Rewritten.pass {ns : List (List Char)} : ∀ (x : List Char) {s t : List Char}, (∀ n ∈ ns, apart (path ++ n) x = true) →
    Rewritten ns (x ++ s) t → ∃ t', t = x ++ t' ∧ Rewritten ns s t'
  | [], s, t, _, h => ⟨t, rfl, h⟩
  | c :: x, s, t, ha, h => by
    have h1 : ∀ n ∈ ns, ¬ (path ++ n) <+: c :: x ++ s := fun n hn => by
      have := ha n hn
      rw [apart, Bool.and_eq_true] at this
      exact differs_not_prefix _ _ _ this.1
    have h2 : ∀ n ∈ ns, apart (path ++ n) x = true := fun n hn => by
      have := ha n hn
      rw [apart, Bool.and_eq_true] at this
      exact this.2
    generalize hs : c :: x ++ s = s' at h h1
    cases h with
    | nil => cases hs
    | name hn hr => exact absurd (List.prefix_append _ _) (h1 _ hn)
    | char hc hr =>
      simp only [List.cons_append, List.cons.injEq] at hs
      obtain ⟨rfl, rfl⟩ := hs
      obtain ⟨t', rfl, h'⟩ := Rewritten.pass x h2 hr
      exact ⟨t', rfl, h'⟩

/-- Every underscore is followed by something else than an underscore. -/
def single : List Char → Bool
  | [] => true
  | [c] => decide (c ≠ '_')
  | c :: d :: cs => (decide (c ≠ '_') || decide (d ≠ '_')) && single (d :: cs)

/-- Text without two underscores comes from the same text. -/
theorem Rewritten.back {ns : List (List Char)} : ∀ (x : List Char) {s t : List Char}, single x = true → Rewritten ns s (x ++ t) →
    ∃ s', s = x ++ s' ∧ Rewritten ns s' t
  | [], s, t, _, h => ⟨s, rfl, h⟩
  | c :: x, s, t, hx, h => by
    generalize ht : c :: x ++ t = t' at h
    cases h with
    | nil => cases ht
    | name hn hr =>
      exfalso
      cases x with
      | nil => simp [mark] at ht; simp [single, ht.1] at hx
      | cons d x => simp [mark] at ht; simp [single, ht.1, ht.2.1] at hx
    | char hc hr =>
      simp only [List.cons_append, List.cons.injEq] at ht
      obtain ⟨rfl, rfl⟩ := ht
      have hx' : single x = true := by
        cases x with
        | nil => rfl
        | cons d x => rw [single, Bool.and_eq_true] at hx; exact hx.2
      obtain ⟨s', rfl, h'⟩ := Rewritten.back x hx' hr
      exact ⟨s', rfl, h'⟩

theorem names_alike {n m : List Char} (hn : n ∈ names) (hm : m ∈ names) {x y : List Char} (h : n ++ x = m ++ y) : n = m ∧ x = y := by
  simp only [names, List.mem_cons, List.not_mem_nil, or_false] at hn hm
  rcases hn with rfl | rfl | rfl | rfl <;> rcases hm with rfl | rfl | rfl | rfl <;> simp at h ⊢ <;> exact h

theorem apart_path_mark : ∀ n ∈ names, ∀ m ∈ names, apart (path ++ n) (mark ++ m) = true := by decide

theorem apart_path_path : ∀ n ∈ names, ∀ m ∈ names, n ≠ m → apart (path ++ n) (path ++ m) = true := by decide

theorem apart_mark : ∀ n ∈ names, apart mark (['_','d','e','k','u','_'] ++ n) = true := by decide

theorem single_path : ∀ n ∈ names, single (path ++ n) = true := by decide

theorem Rewritten.then {ps : List (List Char)} {n : List Char} (hn : n ∈ names) (hps : ∀ p ∈ ps, p ∈ names ∧ p ≠ n) :
    ∀ (k : Nat) {s t u : List Char}, s.length ≤ k → Rewritten ps s t → Rewritten [n] t u → Rewritten (n :: ps) s u := by
  intro k
  induction k with
  | zero =>
    intro s t u hk h1 h2
    cases s with
    | cons c s => simp at hk
    | nil =>
      generalize hs : ([] : List Char) = s' at h1
      cases h1 with
      | name => simp [path] at hs
      | char => cases hs
      | nil =>
        generalize hs : ([] : List Char) = s' at h2
        cases h2 with
        | name => simp [path] at hs
        | char => cases hs
        | nil => exact .nil
  | succ k ih =>
    intro s t u hk h1 h2
    cases h1 with
    | nil =>
      generalize hs : ([] : List Char) = s' at h2
      cases h2 with
      | name => simp [path] at hs
      | char => cases hs
      | nil => exact .nil
    | @name m s t hm hr =>
      obtain ⟨u', rfl, h'⟩ := Rewritten.pass (mark ++ m) (fun q hq => by
        rw [List.mem_singleton] at hq
        subst hq
        exact apart_path_mark _ hn _ (hps m hm).1) h2
      refine .name (List.mem_cons_of_mem _ hm) (ih ?_ hr h')
      simp [path] at hk
      omega
    | @char c s t hc hr =>
      have whole : Rewritten ps (c :: s) (c :: t) := .char hc hr
      generalize ht : c :: t = t' at h2
      cases h2 with
      | nil => cases ht
      | @name q t2 u2 hq hr2 =>
        rw [List.mem_singleton] at hq
        subst hq
        rw [ht] at whole
        obtain ⟨s2, hs, h'⟩ := Rewritten.back _ (single_path _ hn) whole
        rw [hs]
        refine .name List.mem_cons_self (ih ?_ h' hr2)
        have := congrArg List.length hs
        simp [path] at this hk
        omega
      | @char c' t2 u2 hc2 hr2 =>
        cases ht
        refine .char (fun q hq => ?_) (ih (by simpa using hk) hr hr2)
        rcases List.mem_cons.1 hq with rfl | hq
        · rintro ⟨s2, hs⟩
          rw [← hs] at whole
          obtain ⟨t', ht', -⟩ := Rewritten.pass _ (fun p hp => apart_path_path p (hps p hp).1 _ hn (hps p hp).2) whole
          exact hc2 _ (by simp) ⟨t', ht'.symm⟩
        · exact hc q hq

theorem Rewritten.congr {ps qs : List (List Char)} (h : ∀ n, n ∈ ps ↔ n ∈ qs) {s t : List Char} (hr : Rewritten ps s t) : Rewritten qs s t := by
  induction hr with
  | nil => exact .nil
  | name hn _ ih => exact .name ((h _).1 hn) ih
  | char hc _ ih => exact .char (fun n hn => hc n ((h _).2 hn)) ih

theorem Rewritten.unique {s t t' : List Char} (h : Rewritten names s t) (h' : Rewritten names s t') : t = t' := by
  induction h generalizing t' with
  | nil =>
    generalize hs : ([] : List Char) = s' at h'
    cases h' with
    | nil => rfl
    | name => simp [path] at hs
    | char => cases hs
  | @name n s t hn hr ih =>
    generalize hs : path ++ n ++ s = s' at h'
    cases h' with
    | nil => simp [path] at hs
    | name hm hr' =>
      rw [List.append_assoc, List.append_assoc] at hs
      obtain ⟨rfl, rfl⟩ := names_alike hn hm (List.append_cancel_left hs)
      rw [ih hr']
    | char hc _ => exact absurd ⟨s, hs⟩ (hc n hn)
  | @char c s t hc hr ih =>
    generalize hs : c :: s = s' at h'
    cases h' with
    | nil => cases hs
    | name hm hr' => exact absurd ⟨_, hs.symm⟩ (hc _ hm)
    | char _ hr' => cases hs; rw [ih hr']

theorem Rewritten.self {s : List Char} (h : ∀ n ∈ names, ¬ (path ++ n) <:+: s) : Rewritten names s s := by
  induction s with
  | nil => exact .nil
  | cons c s ih => exact .char (fun n hn hp => h n hn hp.isInfix) (ih fun n hn hi => h n hn (List.infix_cons hi))

theorem names_head {n : List Char} (hn : n ∈ names) {x t : List Char} (h : n ++ x = '_' :: t) : False := by
  simp only [names, List.mem_cons, List.not_mem_nil, or_false] at hn
  rcases hn with rfl | rfl | rfl | rfl <;> simp at h

/-- If `__deku_` is there without having been put there by a replacement, the text had it or has a name right after. -/
theorem Rewritten.copied {c : Char} {s t b : List Char} (hr : Rewritten names s t) (h : c :: t = mark ++ b) :
    mark <:+: c :: s ∨ ∃ n ∈ names, ['_','d','e','k','u','_'] ++ n <+: b := by
  obtain ⟨rfl, rfl⟩ : c = '_' ∧ t = ['_','d','e','k','u'] ++ '_' :: b := by simpa [mark] using h
  obtain ⟨s2, rfl, h2⟩ := Rewritten.back ['_','d','e','k','u'] (by decide) hr
  generalize hb : '_' :: b = b' at h2
  cases h2 with
  | nil => cases hb
  | @name n s3 t3 hn _ =>
    simp only [mark, List.cons_append, List.nil_append, List.cons.injEq, true_and] at hb
    exact .inr ⟨n, hn, t3, by rw [hb]; rfl⟩
  | char _ _ =>
    cases hb
    exact .inl ⟨[], _, rfl⟩

theorem inside (p : List Char) : ∀ (x : List Char) {t a b : List Char}, apart p x = true → x ++ t = a ++ (p ++ b) →
    ∃ a', t = a' ++ (p ++ b)
  | [], t, a, b, _, h => ⟨a, h⟩
  | c :: x, t, a, b, ha, h => by
    rw [apart, Bool.and_eq_true] at ha
    cases a with
    | nil => exact absurd ⟨b, h.symm⟩ (differs_not_prefix p (c :: x) t ha.1)
    | cons d a => exact inside p x ha.2 (List.cons.inj h).2

theorem Rewritten.marks {s t : List Char} (h : Rewritten names s t) : ¬ mark <:+: s → ∀ a b, t = a ++ (mark ++ b) →
    ∃ n ∈ names, n <+: b ∨ ['_','d','e','k','u','_'] ++ n <+: b := by
  induction h with
  | nil => intro _ a b h; simp [mark] at h
  | @name n s t hn hr ih =>
    intro hs a b h
    cases a with
    | nil =>
      rw [List.nil_append, List.append_assoc] at h
      exact ⟨n, hn, .inl ⟨t, List.append_cancel_left h⟩⟩
    | cons c a =>
      have h' : ['_','d','e','k','u','_'] ++ n ++ t = a ++ (mark ++ b) := (List.cons.inj h).2
      obtain ⟨a', ha⟩ := inside mark _ (apart_mark n hn) h'
      exact ih (fun hi => hs (hi.trans ⟨path ++ n, [], by simp⟩)) a' b ha
  | @char c s t hc hr ih =>
    intro hs a b h
    cases a with
    | nil =>
      rcases hr.copied h with h' | ⟨n, hn, h'⟩
      · exact absurd h' hs
      · exact ⟨n, hn, .inr h'⟩
    | cons d a => exact ih (fun hi => hs (List.infix_cons hi)) a b (List.cons.inj h).2

theorem Rewritten.not_copied {c : Char} {s t n t' : List Char} (hn : n ∈ names) (hr : Rewritten names s t)
    (h : c :: t = mark ++ (n ++ t')) : mark <:+: c :: s := by
  rcases hr.copied h with h' | ⟨m, hm, x, hx⟩
  · exact h'
  · exact (names_head hn hx.symm).elim

theorem Rewritten.inj {s t : List Char} (h : Rewritten names s t) : ∀ {s' : List Char}, ¬ mark <:+: s → ¬ mark <:+: s' →
    Rewritten names s' t → s = s' := by
  induction h with
  | nil =>
    intro s' _ _ h
    generalize ht : ([] : List Char) = t' at h
    cases h with
    | nil => rfl
    | name => simp [mark] at ht
    | char => cases ht
  | @name n s t hn hr ih =>
    intro s' h1 h2 h
    generalize ht : mark ++ n ++ t = t' at h
    cases h with
    | nil => simp [mark] at ht
    | @name m s2 t2 hm hr' =>
      rw [List.append_assoc, List.append_assoc] at ht
      obtain ⟨rfl, rfl⟩ := names_alike hn hm (List.append_cancel_left ht)
      rw [ih (fun hi => h1 (hi.trans ⟨path ++ n, [], by simp⟩)) (fun hi => h2 (hi.trans ⟨path ++ n, [], by simp⟩)) hr']
    | @char c s2 t2 hc hr' =>
      rw [List.append_assoc] at ht
      exact absurd (hr'.not_copied hn ht.symm) h2
  | @char c s t hc hr ih =>
    intro s' h1 h2 h
    generalize ht : c :: t = t' at h
    cases h with
    | nil => cases ht
    | @name m s2 t2 hm hr' =>
      rw [List.append_assoc] at ht
      exact absurd (hr.not_copied hm ht) h1
    | char _ hr' =>
      cases ht
      rw [ih (fun hi => h1 (List.infix_cons hi)) (fun hi => h2 (List.infix_cons hi)) hr']

/-! ### Properties -/

/-- **C100**, an attribute is refused exactly if it has `__deku_` in it, and otherwise the four names with `deku::` before
them are replaced wherever they are, and nothing else. That the code does it one name after the other does not matter. -/
theorem C100_the_names_are_replaced (s t : List Char) :
    applyReplacements s = some t ↔ ¬ mark <:+: s ∧ Rewritten names s t := by
  have hm : "__deku_".toList = mark := rfl
  have key : Rewritten names s (
      replace "deku::byte_offset".toList "__deku_byte_offset".toList <|
      replace "deku::bit_offset".toList "__deku_bit_offset".toList <|
      replace "deku::writer".toList "__deku_writer".toList <|
      replace "deku::reader".toList "__deku_reader".toList s) := by
    have r1 := replace_rewrites ['r','e','a','d','e','r'] _ s (Nat.le_refl _)
    have r2 := r1.then (n := ['w','r','i','t','e','r']) (by decide) (by decide) _ (Nat.le_refl _) (replace_rewrites _ _ _ (Nat.le_refl _))
    have r3 := r2.then (n := ['b','i','t','_','o','f','f','s','e','t']) (by decide) (by decide) _ (Nat.le_refl _) (replace_rewrites _ _ _ (Nat.le_refl _))
    have r4 := r3.then (n := ['b','y','t','e','_','o','f','f','s','e','t']) (by decide) (by decide) _ (Nat.le_refl _)
      (replace_rewrites _ _ _ (Nat.le_refl _))
    exact r4.congr fun n => by
      simp only [names, List.mem_cons, List.not_mem_nil, or_false]
      constructor
      · rintro (h | h | h | h) <;> simp [h]
      · rintro (h | h | h | h) <;> simp [h]
  have hd : ¬ contains "deku".toList s = true → ¬ mark <:+: s ∧ Rewritten names s s := fun h => by
    rw [contains_iff] at h
    refine ⟨fun hi => h (List.IsInfix.trans ⟨['_','_'], ['_'], rfl⟩ hi), .self fun n hn hi => h (List.IsInfix.trans ⟨[], [':',':'] ++ n, rfl⟩ hi)⟩
  unfold applyReplacements
  rw [hm]
  by_cases h1 : contains "deku".toList s = true
  · rw [h1]
    by_cases h2 : contains mark s = true
    · rw [h2]
      simp [(contains_iff mark s).1 h2]
    · rw [Bool.not_eq_true] at h2
      rw [h2]
      have h3 : ¬ mark <:+: s := fun hi => by rw [(contains_iff mark s).2 hi] at h2; cases h2
      constructor
      · intro h
        simp only [Bool.not_true, Bool.false_eq_true, if_false, Option.some.injEq] at h
        exact ⟨h3, h ▸ key⟩
      · rintro ⟨-, h⟩
        simp only [Bool.not_true, Bool.false_eq_true, if_false, Option.some.injEq]
        exact key.unique h
  · obtain ⟨h2, h3⟩ := hd h1
    rw [Bool.not_eq_true] at h1
    rw [h1]
    simp only [Bool.not_false, if_true, Option.some.injEq]
    exact ⟨fun h => ⟨h2, h ▸ h3⟩, fun h => h3.unique h.2⟩

/-- **C100**, text without the names stays as it is. -/
theorem C100_other_text_is_kept (s : List Char) (hm : ¬ mark <:+: s) (h : ∀ n ∈ names, ¬ (path ++ n) <:+: s) :
    applyReplacements s = some s :=
  (C100_the_names_are_replaced s s).2 ⟨hm, .self h⟩

/-- **C100**, no other variable of the emitted code can be named: wherever there is `__deku_` afterwards, one of the four
names follows, or what follows is `_deku_` with one of the names. -/
theorem C100_other_variables_are_out_of_reach (s a b : List Char) (h : applyReplacements s = some (a ++ (mark ++ b))) :
    ∃ n ∈ names, n <+: b ∨ ['_','d','e','k','u','_'] ++ n <+: b := by
  obtain ⟨h1, h2⟩ := (C100_the_names_are_replaced _ _).1 h
  exact h2.marks h1 a b rfl

/-- **C100**, different texts stay different. -/
theorem C100_replacing_is_injective (s s' t : List Char) (h : applyReplacements s = some t) (h' : applyReplacements s' = some t) : s = s' := by
  obtain ⟨h1, h2⟩ := (C100_the_names_are_replaced _ _).1 h
  obtain ⟨h1', h2'⟩ := (C100_the_names_are_replaced _ _).1 h'
  exact h2.inj h1 h1' h2'

/-- The variables of the emitted code other than the four (deku_read.rs, deku_write.rs). -/
example : ∀ v ∈ ["input", "value", "cursor", "variant_id", "pad", "pad_source", "pad_chunk", "magic", "read_byte", "__field"],
    ¬ ∃ n ∈ names, n <+: v.toList ∨ ['_','d','e','k','u','_'] ++ n <+: v.toList := by decide

example : applyReplacements "f(deku::reader, deku::byte_offset)".toList = some "f(__deku_reader, __deku_byte_offset)".toList := by
  decide +kernel

example : applyReplacements "__deku_variant_id + 1".toList = none := by decide +kernel

/-- **C100 has a limit**, it is text that is replaced, not names: the module `deku::reader` cannot be referred to, other
names that end in `deku` are torn apart, strings are changed, and with spaces nothing is replaced. -/
theorem C100_text_is_not_names :
    applyReplacements "deku::reader::Reader<R>".toList = some "__deku_reader::Reader<R>".toList ∧
    applyReplacements "my_deku::reader(x)".toList = some "my___deku_reader(x)".toList ∧
    applyReplacements "log(\"deku::reader\")".toList = some "log(\"__deku_reader\")".toList ∧
    applyReplacements "f(deku :: reader)".toList = some "f(deku :: reader)".toList := by decide +kernel

/-- **C100 has a limit**: text that has no `__deku_` can have one afterwards that does not stand before a name. -/
theorem C100_the_mark_can_be_forged :
    applyReplacements "__dekudeku::reader".toList = some "__deku__deku_reader".toList := by decide +kernel

end Deku.Text
