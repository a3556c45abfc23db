import Verif.Spec.Io
import Verif.Lemmas.Talk

/-!
# The loop of `read_exact`, pipes and buffers
-/

namespace Deku

theorem take_drop_append {α : Type} (l : List α) (p : Nat) {a b : Nat} :
    (l.drop p).take a ++ (l.drop (p + a)).take b = (l.drop p).take (a + b) := by
  rw [List.take_add, List.drop_drop]

/-- `read` delivers the bytes in order; `μ` bounds the number of interruptions. -/
def ReadLaw {S : Type} (read : S → Nat → Once × S) (data : List Byte) (R : S → Nat → Prop) (μ : S → Nat) : Prop :=
  ∀ s pos n, R s pos → 0 < n → match read s n with
    | (.got bs, s') => bs.length ≤ n ∧ bs = (data.drop pos).take bs.length ∧ R s' (pos + bs.length) ∧ μ s' ≤ μ s
    | (.interrupted, s') => R s' pos ∧ μ s' < μ s
    | (.failed _, s') => R s' pos

/-- No error, and nothing only at the end. -/
def Once.Fine (len pos : Nat) : Once → Prop
  | .got bs => bs = [] → len ≤ pos
  | .interrupted => True
  | .failed _ => False

/-- ... and fails only at the end. -/
def QuietLaw {S : Type} (read : S → Nat → Once × S) (data : List Byte) (R : S → Nat → Prop) : Prop :=
  ∀ s pos n, R s pos → 0 < n → (read s n).1.Fine data.length pos

section Loop

variable {S : Type} {read : S → Nat → Once × S} {data : List Byte} {R : S → Nat → Prop} {μ : S → Nat}

theorem readExactLoop_honest (hl : ReadLaw read data R μ) : ∀ (fuel : Nat) (s : S) (pos n : Nat), R s pos →
    μ s + n ≤ fuel →
    (∀ bs s', readExactLoop read fuel s n = (.ok bs, s') →
      n ≤ data.length - pos ∧ bs = (data.drop pos).take n ∧ R s' (pos + n)) ∧
    (∀ e s', readExactLoop read fuel s n = (.error e, s') → ∃ k, k < n ∧ k ≤ data.length - pos ∧ R s' (pos + k))
  | _, s, pos, 0, h, _ => by
    simp only [readExactLoop]
    refine ⟨fun bs s' e => ?_, fun e s' he => by simp at he⟩
    simp only [Prod.mk.injEq, Except.ok.injEq] at e
    obtain ⟨rfl, rfl⟩ := e
    exact ⟨by omega, by simp, h⟩
  | 0, s, pos, n + 1, h, hf => by omega
  | fuel + 1, s, pos, n + 1, h, hf => by
    have law := hl s pos (n + 1) h (by omega)
    simp only [readExactLoop]
    rcases hr : read s (n + 1) with ⟨x, s'⟩
    rw [hr] at law
    cases x with
    | got bs =>
      obtain ⟨hlen, hbs, hR, hμ⟩ := law
      cases bs with
      | nil =>
        refine ⟨fun bs s' e => by simp at e, fun e s'' he => ?_⟩
        simp only [Prod.mk.injEq] at he
        obtain ⟨_, rfl⟩ := he
        exact ⟨0, by omega, by omega, by simpa using hR⟩
      | cons b bs =>
        simp only [List.length_cons] at hlen hbs hR
        have hle : bs.length + 1 ≤ data.length - pos := by
          have := congrArg List.length hbs
          simp only [List.length_cons, List.length_take, List.length_drop] at this
          omega
        have ih := readExactLoop_honest hl fuel s' (pos + (bs.length + 1)) (n - bs.length) hR (by omega)
        simp only
        rcases hx : readExactLoop read fuel s' (n - bs.length) with ⟨y, s''⟩
        rw [hx] at ih
        cases y with
        | ok r =>
          obtain ⟨h1, h2, h3⟩ := ih.1 r s'' rfl
          refine ⟨fun bs' s3 e => ?_, fun e s3 he => by simp at he⟩
          simp only [Prod.mk.injEq, Except.ok.injEq] at e
          obtain ⟨rfl, rfl⟩ := e
          refine ⟨by omega, ?_, ?_⟩
          · rw [hbs, h2, take_drop_append]
            congr 1
            omega
          · have : pos + (bs.length + 1) + (n - bs.length) = pos + (n + 1) := by omega
            rwa [this] at h3
        | error e =>
          obtain ⟨k, h1, h2, h3⟩ := ih.2 e s'' rfl
          refine ⟨fun bs' s3 e => by simp at e, fun e' s3 he => ?_⟩
          simp only [Prod.mk.injEq] at he
          obtain ⟨_, rfl⟩ := he
          exact ⟨bs.length + 1 + k, by omega, by omega, by rwa [Nat.add_assoc] at h3⟩
    | interrupted => exact readExactLoop_honest hl fuel s' pos (n + 1) law.1 (by have := law.2; omega)
    | failed e =>
      refine ⟨fun bs s' e => by simp at e, fun e s'' he => ?_⟩
      simp only [Prod.mk.injEq] at he
      obtain ⟨_, rfl⟩ := he
      exact ⟨0, by omega, by omega, law⟩

theorem readExactLoop_reliable (hl : ReadLaw read data R μ) (hq : QuietLaw read data R) :
    ∀ (fuel : Nat) (s : S) (pos n : Nat), R s pos →
    μ s + n ≤ fuel → if n ≤ data.length - pos then
      ∃ s', readExactLoop read fuel s n = (.ok ((data.drop pos).take n), s') ∧ R s' (pos + n)
    else ∃ s', readExactLoop read fuel s n = (.error .unexpectedEof, s') ∧ R s' (max pos data.length)
  | _, s, pos, 0, h, _ => by
    rw [if_pos (by omega)]
    exact ⟨s, by simp [readExactLoop], h⟩
  | 0, s, pos, n + 1, h, hf => by omega
  | fuel + 1, s, pos, n + 1, h, hf => by
    have law := hl s pos (n + 1) h (by omega)
    have quiet := hq s pos (n + 1) h (by omega)
    simp only [readExactLoop]
    rcases hr : read s (n + 1) with ⟨x, s'⟩
    rw [hr] at law quiet
    cases x with
    | got bs =>
      obtain ⟨hlen, hbs, hR, hμ⟩ := law
      cases bs with
      | nil =>
        have hp := quiet rfl
        rw [if_neg (by omega)]
        refine ⟨s', rfl, ?_⟩
        rw [Nat.max_eq_left hp]
        simpa using hR
      | cons b bs =>
        simp only [List.length_cons] at hlen hbs hR
        have hle : bs.length + 1 ≤ data.length - pos := by
          have := congrArg List.length hbs
          simp only [List.length_cons, List.length_take, List.length_drop] at this
          omega
        have ih := readExactLoop_reliable hl hq fuel s' (pos + (bs.length + 1)) (n - bs.length) hR (by omega)
        simp only
        by_cases hc : n - bs.length ≤ data.length - (pos + (bs.length + 1))
        · rw [if_pos hc] at ih
          rw [if_pos (by omega)]
          obtain ⟨s'', h1, h2⟩ := ih
          refine ⟨s'', ?_, ?_⟩
          · rw [h1]
            simp only
            rw [hbs, take_drop_append]
            congr 3
            omega
          · have : pos + (bs.length + 1) + (n - bs.length) = pos + (n + 1) := by omega
            rwa [this] at h2
        · rw [if_neg hc] at ih
          rw [if_neg (by omega)]
          obtain ⟨s'', h1, h2⟩ := ih
          refine ⟨s'', by rw [h1], ?_⟩
          have : max (pos + (bs.length + 1)) data.length = max pos data.length := by omega
          rwa [this] at h2
    | interrupted => exact readExactLoop_reliable hl hq fuel s' pos (n + 1) law.1 (by have := law.2; omega)
    | failed e => exact quiet.elim

end Loop

/-! ### Pipes -/

theorem Pipe.give_law (data : List Byte) (p : Pipe) (pos n : Nat) (h : p.Holds data pos) :
    ∃ bs p', p.give n = (.got bs, p') ∧ bs.length ≤ n ∧ bs = (data.drop pos).take bs.length ∧
      p'.Holds data (pos + bs.length) ∧ p'.script = p.script ∧ p'.seeks = p.seeks ∧
      (bs = [] → 0 < n → data.length ≤ pos) := by
  obtain ⟨rfl, rfl⟩ := h
  refine ⟨_, _, rfl, by simp only [List.length_take]; omega, ?_, ⟨rfl, rfl⟩, rfl, rfl, ?_⟩
  · rw [List.length_take, List.length_drop]
    rcases Nat.le_total n (p.data.length - p.pos) with hc | hc
    · rw [Nat.min_eq_left hc]
    · rw [Nat.min_eq_right hc, List.take_of_length_le (by simpa using hc), List.take_of_length_le (by simp)]
  · intro h0 hn
    have := congrArg List.length h0
    simp only [List.length_take, List.length_drop, List.length_nil] at this
    omega

theorem Pipe.read_law (data : List Byte) : ReadLaw Pipe.read data (Pipe.Holds data) (fun p => p.script.length) := by
  intro p pos n h hn
  unfold Pipe.read
  rcases hs : p.script with _ | ⟨a, sc⟩
  · obtain ⟨bs, p', e, h1, h2, h3, h4, _⟩ := p.give_law data pos n h
    simp only [e]
    exact ⟨h1, h2, h3, by rw [h4]; omega⟩
  · cases a with
    | give k =>
      obtain ⟨bs, p', e, h1, h2, h3, h4, _⟩ := Pipe.give_law data { p with script := sc } pos (min n (k + 1)) h
      simp only [e]
      exact ⟨by omega, h2, h3, by rw [h4, hs]; simp⟩
    | interrupt => exact ⟨h, by show sc.length < p.script.length; rw [hs]; simp⟩
    | pause => exact ⟨by simp, by simp, h, by show sc.length ≤ p.script.length; rw [hs]; simp⟩
    | fail e => exact h

/-- What is left of a quiet script is quiet. -/
theorem Pipe.read_quiet {p : Pipe} (hq : p.Quiet) (n : Nat) : (p.read n).2.Quiet := by
  unfold Pipe.read
  rcases hs : p.script with _ | ⟨a, sc⟩
  · simp only [Pipe.give]
    exact ⟨hq.1, hq.2⟩
  · have hsc : ∀ a ∈ sc, (∃ k, a = .give k) ∨ a = .interrupt := fun x hx => hq.1 x (by rw [hs]; exact List.mem_cons_of_mem _ hx)
    cases a <;> exact ⟨hsc, hq.2⟩

theorem Pipe.quiet_law (data : List Byte) (p : Pipe) (pos n : Nat) (h : p.Holds data pos) (hq : p.Quiet) (hn : 0 < n) :
    (p.read n).1.Fine data.length pos := by
  unfold Pipe.read
  rcases hs : p.script with _ | ⟨a, sc⟩
  · obtain ⟨bs, p', e, _, _, _, _, _, h5⟩ := p.give_law data pos n h
    simp only [e]
    exact fun h0 => h5 h0 hn
  · have ha := hq.1 a (by rw [hs]; simp)
    cases a with
    | give k =>
      obtain ⟨bs, p', e, _, _, _, _, _, h5⟩ := Pipe.give_law data { p with script := sc } pos (min n (k + 1)) h
      simp only [e]
      exact fun h0 => h5 h0 (by omega)
    | interrupt => trivial
    | pause => simp at ha
    | fail e => simp at ha

theorem Pipe.read_quiet_law (data : List Byte) :
    ReadLaw Pipe.read data (fun p pos => p.Holds data pos ∧ p.Quiet) (fun p => p.script.length) := by
  intro p pos n h hn
  have l := Pipe.read_law data p pos n h.1 hn
  have q := Pipe.read_quiet h.2 n
  rcases hr : p.read n with ⟨x, p'⟩
  rw [hr] at l q
  cases x with
  | got bs => exact ⟨l.1, l.2.1, ⟨l.2.2.1, q⟩, l.2.2.2⟩
  | interrupted => exact ⟨⟨l.1, q⟩, l.2⟩
  | failed e => exact ⟨l, q⟩

theorem Pipe.seek_honest (data : List Byte) (p : Pipe) (pos : Nat) (t : SeekFrom) (h : p.Holds data pos) :
    (∀ n p', p.seek t = (.ok n, p') → Src.seekTarget data.length pos t = some n ∧ p'.Holds data n) ∧
    (∀ e p', p.seek t = (.error e, p') → p'.Holds data pos) := by
  obtain ⟨rfl, rfl⟩ := h
  unfold Pipe.seek
  split
  · refine ⟨fun n p' e => by simp at e, fun e p' he => ?_⟩
    simp only [Prod.mk.injEq] at he
    obtain ⟨_, rfl⟩ := he
    exact ⟨rfl, rfl⟩
  · cases ht : Src.seekTarget p.data.length p.pos t with
    | none =>
      refine ⟨fun n p' e => by simp at e, fun e p' he => ?_⟩
      simp only [Prod.mk.injEq] at he
      obtain ⟨_, rfl⟩ := he
      exact ⟨rfl, rfl⟩
    | some n =>
      refine ⟨fun n' p' e => ?_, fun e p' he => by simp at he⟩
      simp only [Prod.mk.injEq, Except.ok.injEq] at e
      obtain ⟨rfl, rfl⟩ := e
      exact ⟨rfl, rfl, rfl⟩

theorem Pipe.seek_reliable (data : List Byte) (p : Pipe) (pos : Nat) (t : SeekFrom) (h : p.Holds data pos) (hq : p.Quiet) :
    (∀ n, Src.seekTarget data.length pos t = some n → ∃ p', p.seek t = (.ok n, p') ∧ p'.Holds data n ∧ p'.Quiet) ∧
    (Src.seekTarget data.length pos t = none → ∃ p', p.seek t = (.error .invalidInput, p') ∧ p'.Holds data pos ∧ p'.Quiet) := by
  obtain ⟨rfl, rfl⟩ := h
  have hqt : ∀ a ∈ p.seeks.tail, a = none := fun a ha => hq.2 a (List.mem_of_mem_tail ha)
  have key : p.seek t = match Src.seekTarget p.data.length p.pos t with
      | some n => (.ok n, { p with pos := n, seeks := p.seeks.tail })
      | none => (.error .invalidInput, { p with seeks := p.seeks.tail }) := by
    unfold Pipe.seek
    split
    · rename_i e l hl
      have := hq.2 (some e) (by rw [hl]; simp)
      simp at this
    · rfl
  rw [key]
  constructor
  · intro n ht
    rw [ht]
    exact ⟨_, rfl, ⟨rfl, rfl⟩, hq.1, hqt⟩
  · intro ht
    rw [ht]
    exact ⟨_, rfl, ⟨rfl, rfl⟩, hq.1, hqt⟩

theorem seekTarget_current (len pos : Nat) : Src.seekTarget len pos (.current 0) = some pos := by
  simp [Src.seekTarget]

theorem Pipe.honest (data : List Byte) : Honest Pipe.impl data (Pipe.Holds data) where
  readExact p pos n h := readExactLoop_honest (Pipe.read_law data) _ p pos n h (Nat.le_refl _)
  seek p pos t h := p.seek_honest data pos t h
  position p pos h := by
    have := p.seek_honest data pos (.current 0) h
    rw [seekTarget_current] at this
    refine ⟨fun n p' e => ?_, this.2⟩
    obtain ⟨e', h'⟩ := this.1 n p' e
    cases e'
    exact ⟨rfl, h'⟩

theorem Pipe.reliable (data : List Byte) : Reliable Pipe.impl data (fun p pos => p.Holds data pos ∧ p.Quiet) where
  readExact p pos n h := readExactLoop_reliable (Pipe.read_quiet_law data)
    (fun p pos n h hn => p.quiet_law data pos n h.1 h.2 hn) _ p pos n h (Nat.le_refl _)
  seek p pos t h := p.seek_reliable data pos t h.1 h.2
  position p pos h := (p.seek_reliable data pos (.current 0) h.1 h.2).1 pos (seekTarget_current _ _)

/-! ### Buffers -/

theorem take_drop_split {α : Type} {l : List α} {p a : Nat} {buf : List α} (h : buf = (l.drop p).take a) (n : Nat) :
    buf.take n = (l.drop p).take (min n a) ∧ buf.drop n = (l.drop (p + n)).take (a - n) := by
  subst h
  constructor
  · rw [List.take_take]
  · rw [List.drop_take, List.drop_drop]

theorem BufReader.read_law (data : List Byte) :
    ReadLaw BufReader.read data (BufReader.Holds data) (fun b => b.inner.script.length) := by
  intro b pos n h hn
  obtain ⟨hc, hd, hp, hb⟩ := h
  unfold BufReader.read
  by_cases he : b.buf = []
  · rw [if_pos he]
    have hi : b.inner.Holds data pos := ⟨hd, by rw [hp, he]; rfl⟩
    by_cases hcap : b.cap ≤ n
    · rw [if_pos hcap]
      have l := Pipe.read_law data b.inner pos n hi hn
      rcases hr : b.inner.read n with ⟨x, i⟩
      rw [hr] at l
      cases x with
      | got bs =>
        obtain ⟨h1, h2, h3, h4⟩ := l
        refine ⟨h1, h2, ⟨hc, h3.1, ?_, ?_⟩, h4⟩
        · simp [he, h3.2]
        · simp [he]
      | interrupted => exact ⟨⟨hc, l.1.1, by simp [he, l.1.2], by simp [he]⟩, l.2⟩
      | failed e => exact ⟨hc, l.1, by simp [he, l.2], by simp [he]⟩
    · rw [if_neg hcap]
      have l := Pipe.read_law data b.inner pos b.cap hi hc
      rcases hr : b.inner.read b.cap with ⟨x, i⟩
      rw [hr] at l
      cases x with
      | got bs =>
        obtain ⟨h1, h2, h3, h4⟩ := l
        obtain ⟨e1, e2⟩ := take_drop_split h2 n
        refine ⟨by simp; omega, ?_, ⟨hc, h3.1, ?_, ?_⟩, h4⟩
        · rw [List.length_take]; exact e1
        · simp only [h3.2, List.length_take, List.length_drop]; omega
        · simp only
          rw [List.length_drop, List.length_take, e2]
          rcases Nat.le_total n bs.length with hn' | hn'
          · rw [Nat.min_eq_left hn']
          · rw [Nat.sub_eq_zero_of_le hn']; simp
      | interrupted => exact ⟨⟨hc, l.1.1, by simp [he, l.1.2], by simp [he]⟩, l.2⟩
      | failed e => exact ⟨hc, l.1, by simp [he, l.2], by simp [he]⟩
  · rw [if_neg he]
    obtain ⟨e1, e2⟩ := take_drop_split hb n
    refine ⟨by simp; omega, ?_, ⟨hc, hd, ?_, ?_⟩, Nat.le_refl _⟩
    · rw [List.length_take]; exact e1
    · simp only [hp, List.length_take, List.length_drop]; omega
    · simp only
      rw [List.length_drop, List.length_take, e2]
      rcases Nat.le_total n b.buf.length with hn' | hn'
      · rw [Nat.min_eq_left hn']
      · rw [Nat.sub_eq_zero_of_le hn']; simp

theorem BufReader.read_quiet {b : BufReader} (hq : b.inner.Quiet) (n : Nat) : (b.read n).2.inner.Quiet := by
  have h1 := Pipe.read_quiet hq n
  have h2 := Pipe.read_quiet hq b.cap
  unfold BufReader.read
  split
  · split
    · exact h1
    · rcases hr : b.inner.read b.cap with ⟨x, i⟩
      rw [hr] at h2
      cases x <;> exact h2
  · exact hq

theorem BufReader.read_quiet_law (data : List Byte) :
    ReadLaw BufReader.read data (fun b pos => b.Holds data pos ∧ b.inner.Quiet) (fun b => b.inner.script.length) := by
  intro b pos n h hn
  have l := BufReader.read_law data b pos n h.1 hn
  have q := BufReader.read_quiet h.2 n
  rcases hr : b.read n with ⟨x, p'⟩
  rw [hr] at l q
  cases x with
  | got bs => exact ⟨l.1, l.2.1, ⟨l.2.2.1, q⟩, l.2.2.2⟩
  | interrupted => exact ⟨⟨l.1, q⟩, l.2⟩
  | failed e => exact ⟨l, q⟩

theorem BufReader.quiet_law (data : List Byte) (b : BufReader) (pos n : Nat) (h : b.Holds data pos)
    (hq : b.inner.Quiet) (hn : 0 < n) :
    (b.read n).1.Fine data.length pos := by
  obtain ⟨hc, hd, hp, hb⟩ := h
  unfold BufReader.read
  by_cases he : b.buf = []
  · rw [if_pos he]
    have hi : b.inner.Holds data pos := ⟨hd, by rw [hp, he]; rfl⟩
    by_cases hcap : b.cap ≤ n
    · rw [if_pos hcap]
      have l := Pipe.quiet_law data b.inner pos n hi hq hn
      rcases hr : b.inner.read n with ⟨x, i⟩
      rw [hr] at l
      cases x <;> exact l
    · rw [if_neg hcap]
      have l := Pipe.quiet_law data b.inner pos b.cap hi hq hc
      rcases hr : b.inner.read b.cap with ⟨x, i⟩
      rw [hr] at l
      cases x with
      | got bs =>
        intro h0
        rcases List.take_eq_nil_iff.1 h0 with h | h
        · omega
        · exact l h
      | interrupted => exact l
      | failed e => exact l
  · rw [if_neg he]
    intro h0
    rcases List.take_eq_nil_iff.1 h0 with h | h
    · omega
    · exact absurd h he

/-- `read_exact` with enough in the buffer. -/
theorem BufReader.readExact_buffered {data : List Byte} {b : BufReader} {pos : Nat} (h : b.Holds data pos) {n : Nat}
    (hn : n ≤ b.buf.length) : b.buf.take n = (data.drop pos).take n ∧ n ≤ data.length - pos ∧
      BufReader.Holds data { b with buf := b.buf.drop n } (pos + n) := by
  obtain ⟨hc, hd, hp, hb⟩ := h
  obtain ⟨e1, e2⟩ := take_drop_split hb n
  have hlen : b.buf.length ≤ data.length - pos := by
    have := congrArg List.length hb
    simp only [List.length_take, List.length_drop] at this
    omega
  refine ⟨by rw [e1, Nat.min_eq_left hn], by omega, hc, hd, ?_, ?_⟩
  · simp only [List.length_drop, hp]; omega
  · simp only
    rw [List.length_drop]; exact e2

theorem BufReader.seekTarget_eq {data : List Byte} {b : BufReader} {pos : Nat} (h : b.Holds data pos) (t : SeekFrom) :
    Src.seekTarget data.length b.inner.pos (b.target t) =
      Src.seekTarget data.length pos t := by
  obtain ⟨hc, hd, hp, hb⟩ := h
  cases t with
  | start n => rfl
  | «end» n => rfl
  | current n =>
    simp only [Src.seekTarget, BufReader.target]
    have : ((b.inner.pos : Nat) : Int) + (n - (b.buf.length : Int)) = (pos : Int) + n := by omega
    rw [this]

theorem BufReader.honest (data : List Byte) : Honest BufReader.impl data (BufReader.Holds data) where
  readExact b pos n h := by
    simp only [BufReader.impl, BufReader.readExact]
    by_cases hn : n ≤ b.buf.length
    · obtain ⟨h1, h2, h3⟩ := BufReader.readExact_buffered h hn
      rw [if_pos hn]
      refine ⟨fun bs s' e => ?_, fun e s' he => by simp at he⟩
      simp only [Prod.mk.injEq, Except.ok.injEq] at e
      obtain ⟨rfl, rfl⟩ := e
      exact ⟨h2, h1, h3⟩
    · rw [if_neg hn]
      exact readExactLoop_honest (BufReader.read_law data) _ b pos n h (Nat.le_refl _)
  seek b pos t h := by
    have l := b.inner.seek_honest data b.inner.pos (b.target t) ⟨h.2.1, rfl⟩
    rw [BufReader.seekTarget_eq h] at l
    simp only [BufReader.impl, BufReader.seek]
    rcases hr : b.inner.seek (b.target t) with ⟨x, i⟩
    rw [hr] at l
    cases x with
    | ok n =>
      have l := l.1 n i rfl
      refine ⟨fun n' s' e => ?_, fun e s' he => by simp at he⟩
      simp only [Prod.mk.injEq, Except.ok.injEq] at e
      obtain ⟨rfl, rfl⟩ := e
      exact ⟨l.1, h.1, l.2.1, by simp [l.2.2], by simp⟩
    | error e =>
      have l := l.2 e i rfl
      refine ⟨fun n s' e => by simp at e, fun e s' he => ?_⟩
      simp only [Prod.mk.injEq] at he
      obtain ⟨_, rfl⟩ := he
      exact ⟨h.1, l.1, by simp [l.2, h.2.2.1], h.2.2.2⟩
  position b pos h := by
    have l := (Pipe.honest data).position b.inner b.inner.pos ⟨h.2.1, rfl⟩
    simp only [Pipe.impl] at l
    simp only [BufReader.impl, BufReader.position]
    rcases hr : b.inner.position with ⟨x, i⟩
    rw [hr] at l
    cases x with
    | ok n =>
      obtain ⟨rfl, l2⟩ := l.1 n i rfl
      refine ⟨fun n' s' e => ?_, fun e s' he => by simp at he⟩
      simp only [Prod.mk.injEq, Except.ok.injEq] at e
      obtain ⟨rfl, rfl⟩ := e
      exact ⟨by rw [h.2.2.1]; omega, h.1, l2.1, by simp [l2.2, h.2.2.1], h.2.2.2⟩
    | error e =>
      have l := l.2 e i rfl
      refine ⟨fun n s' e => by simp at e, fun e s' he => ?_⟩
      simp only [Prod.mk.injEq] at he
      obtain ⟨_, rfl⟩ := he
      exact ⟨h.1, l.1, by simp [l.2, h.2.2.1], h.2.2.2⟩

theorem BufReader.reliable (data : List Byte) :
    Reliable BufReader.impl data (fun b pos => b.Holds data pos ∧ b.inner.Quiet) where
  readExact b pos n h := by
    simp only [BufReader.impl, BufReader.readExact]
    by_cases hn : n ≤ b.buf.length
    · obtain ⟨h1, h2, h3⟩ := BufReader.readExact_buffered h.1 hn
      rw [if_pos h2, if_pos hn]
      exact ⟨_, by rw [h1], h3, h.2⟩
    · rw [if_neg hn]
      exact readExactLoop_reliable (BufReader.read_quiet_law data)
        (fun b pos n h hn => b.quiet_law data pos n h.1 h.2 hn) _ b pos n h (Nat.le_refl _)
  seek b pos t h := by
    have l := b.inner.seek_reliable data b.inner.pos (b.target t) ⟨h.1.2.1, rfl⟩ h.2
    rw [BufReader.seekTarget_eq h.1] at l
    simp only [BufReader.impl, BufReader.seek]
    constructor
    · intro n ht
      obtain ⟨i, e, l1, l2⟩ := l.1 n ht
      rw [e]
      exact ⟨_, rfl, ⟨h.1.1, l1.1, by simp [l1.2], by simp⟩, l2⟩
    · intro ht
      obtain ⟨i, e, l1, l2⟩ := l.2 ht
      rw [e]
      exact ⟨_, rfl, ⟨h.1.1, l1.1, by simp [l1.2, h.1.2.2.1], h.1.2.2.2⟩, l2⟩
  position b pos h := by
    obtain ⟨i, e, l1, l2⟩ := (Pipe.reliable data).position b.inner b.inner.pos ⟨⟨h.1.2.1, rfl⟩, h.2⟩
    simp only [Pipe.impl] at e
    refine ⟨{ b with inner := i }, ?_, ⟨h.1.1, l1.1, by simp [l1.2, h.1.2.2.1], h.1.2.2.2⟩, l2⟩
    simp only [BufReader.impl, BufReader.position, e, h.1.2.2.1, Nat.add_sub_cancel]

/-! ### Running the same program on two streams -/

theorem Talk.run_reliable {α S : Type} {impl : Impl ReadCall ReadCall.Answer S} {data : List Byte} {R : S → Nat → Prop}
    (hr : Reliable impl data R) : ∀ (t : Talk ReadCall ReadCall.Answer α) (s : S) (c : Src), c.data = data →
    c.faults = noFaults → R s c.pos →
    (t.run impl s).1 = (t.run Src.impl c).1 ∧ (t.run Src.impl c).2.data = data ∧ R (t.run impl s).2 (t.run Src.impl c).2.pos
  | .done a, s, c, hd, _, h => ⟨rfl, hd, h⟩
  | .call (.readExact n) k, s, c, hd, hf, h => by
    have hr' := hr.readExact s c.pos n h
    simp only [Talk.run]
    by_cases hc : n ≤ data.length - c.pos
    · rw [if_pos hc] at hr'
      obtain ⟨s', e, h'⟩ := hr'
      have e' : Src.impl c (.readExact n) = (.ok ((data.drop c.pos).take n), { c with calls := c.calls + 1, pos := c.pos + n }) := by
        simp [Src.impl, Src.readExact, hf, noFaults, hd, hc]
      rw [e, e']
      exact Talk.run_reliable hr (k _) s' _ hd hf h'
    · rw [if_neg hc] at hr'
      obtain ⟨s', e, h'⟩ := hr'
      have e' : Src.impl c (.readExact n) = (.error .unexpectedEof, { c with calls := c.calls + 1, pos := max c.pos data.length }) := by
        simp [Src.impl, Src.readExact, hf, noFaults, hd, hc]
      rw [e, e']
      exact Talk.run_reliable hr (k _) s' _ hd hf h'
  | .call (.seek p) k, s, c, hd, hf, h => by
    have hr' := hr.seek s c.pos p h
    simp only [Talk.run]
    cases ht : Src.seekTarget data.length c.pos p with
    | some n =>
      obtain ⟨s', e, h'⟩ := hr'.1 n ht
      have e' : Src.impl c (.seek p) = (.ok n, { c with calls := c.calls + 1, pos := n }) := by
        simp [Src.impl, Src.seek, hf, noFaults, hd, ht]
      rw [e, e']
      exact Talk.run_reliable hr (k _) s' _ hd hf h'
    | none =>
      obtain ⟨s', e, h'⟩ := hr'.2 ht
      have e' : Src.impl c (.seek p) = (.error .invalidInput, { c with calls := c.calls + 1 }) := by
        simp [Src.impl, Src.seek, hf, noFaults, hd, ht]
      rw [e, e']
      exact Talk.run_reliable hr (k _) s' _ hd hf h'
  | .call .position k, s, c, hd, hf, h => by
    obtain ⟨s', e, h'⟩ := hr.position s c.pos h
    simp only [Talk.run]
    have e' : Src.impl c .position = (.ok c.pos, { c with calls := c.calls + 1 }) := by
      simp [Src.impl, Src.streamPosition, hf, noFaults]
    rw [e, e']
    exact Talk.run_reliable hr (k _) s' _ hd hf h'

/-- Faults for the calls to come: the next one, and then those of `F`. -/
def nextFault (x : Option (Nat × IoKind)) (F : Nat → Option (Nat × IoKind)) : Nat → Option (Nat × IoKind)
  | 0 => x
  | i + 1 => F i

theorem Talk.run_honest {α S : Type} {impl : Impl ReadCall ReadCall.Answer S} {data : List Byte} {R : S → Nat → Prop}
    (hr : Honest impl data R) : ∀ (t : Talk ReadCall ReadCall.Answer α) (s : S) (pos : Nat), R s pos →
    ∃ F : Nat → Option (Nat × IoKind), ∀ c : Src, c.data = data → c.pos = pos → c.faults.seekable = true →
      (∀ i, c.faults (c.calls + i) = F i) →
      (t.run impl s).1 = (t.run Src.impl c).1 ∧ (t.run Src.impl c).2.data = data ∧ R (t.run impl s).2 (t.run Src.impl c).2.pos
  | .done a, s, pos, h => ⟨fun _ => none, fun c hd hp _ _ => ⟨rfl, hd, by rw [← hp] at h; exact h⟩⟩
  | .call (.readExact n) k, s, pos, h => by
    have hr' := hr.readExact s pos n h
    simp only [Talk.run]
    rcases hx : impl s (.readExact n) with ⟨x, s'⟩
    rw [hx] at hr'
    cases x with
    | ok bs =>
      obtain ⟨h1, rfl, h3⟩ := hr'.1 bs s' rfl
      obtain ⟨F, hF⟩ := Talk.run_honest hr (k (.ok ((data.drop pos).take n))) s' (pos + n) h3
      refine ⟨nextFault none F, fun c hd hp hs hf => ?_⟩
      have e' : Src.impl c (.readExact n) = (.ok ((data.drop pos).take n), { c with calls := c.calls + 1, pos := c.pos + n }) := by
        have := hf 0
        simp only [Nat.add_zero, nextFault] at this
        simp [Src.impl, Src.readExact, this, hd, hp, h1]
      rw [e']
      refine hF _ hd (by simp [hp]) hs fun i => ?_
      have := hf (i + 1)
      simpa [nextFault, Nat.add_assoc, Nat.add_comm 1] using this
    | error e =>
      obtain ⟨m, h1, h2, h3⟩ := hr'.2 e s' rfl
      obtain ⟨F, hF⟩ := Talk.run_honest hr (k (.error e)) s' (pos + m) h3
      refine ⟨nextFault (some (m, e)) F, fun c hd hp hs hf => ?_⟩
      have e' : Src.impl c (.readExact n) = (.error e, { c with calls := c.calls + 1, pos := c.pos + m }) := by
        have := hf 0
        simp only [Nat.add_zero, nextFault] at this
        have hm : min m (min (n - 1) (data.length - pos)) = m := by omega
        simp [Src.impl, Src.readExact, this, hd, hp, hm]
      rw [e']
      refine hF _ hd (by simp [hp]) hs fun i => ?_
      have := hf (i + 1)
      simpa [nextFault, Nat.add_assoc, Nat.add_comm 1] using this
  | .call (.seek p) k, s, pos, h => by
    have hr' := hr.seek s pos p h
    simp only [Talk.run]
    rcases hx : impl s (.seek p) with ⟨x, s'⟩
    rw [hx] at hr'
    cases x with
    | ok n =>
      obtain ⟨h1, h3⟩ := hr'.1 n s' rfl
      obtain ⟨F, hF⟩ := Talk.run_honest hr (k (.ok n)) s' n h3
      refine ⟨nextFault none F, fun c hd hp hs hf => ?_⟩
      have e' : Src.impl c (.seek p) = (.ok n, { c with calls := c.calls + 1, pos := n }) := by
        have := hf 0
        simp only [Nat.add_zero, nextFault] at this
        simp [Src.impl, Src.seek, hs, this, hd, hp, h1]
      rw [e']
      refine hF _ hd rfl hs fun i => ?_
      have := hf (i + 1)
      simpa [nextFault, Nat.add_assoc, Nat.add_comm 1] using this
    | error e =>
      obtain ⟨F, hF⟩ := Talk.run_honest hr (k (.error e)) s' pos (hr'.2 e s' rfl)
      refine ⟨nextFault (some (0, e)) F, fun c hd hp hs hf => ?_⟩
      have e' : Src.impl c (.seek p) = (.error e, { c with calls := c.calls + 1 }) := by
        have := hf 0
        simp only [Nat.add_zero, nextFault] at this
        simp [Src.impl, Src.seek, hs, this]
      rw [e']
      refine hF _ hd hp hs fun i => ?_
      have := hf (i + 1)
      simpa [nextFault, Nat.add_assoc, Nat.add_comm 1] using this
  | .call .position k, s, pos, h => by
    have hr' := hr.position s pos h
    simp only [Talk.run]
    rcases hx : impl s .position with ⟨x, s'⟩
    rw [hx] at hr'
    cases x with
    | ok n =>
      obtain ⟨rfl, h3⟩ := hr'.1 n s' rfl
      obtain ⟨F, hF⟩ := Talk.run_honest hr (k (.ok n)) s' n h3
      refine ⟨nextFault none F, fun c hd hp hs hf => ?_⟩
      have e' : Src.impl c .position = (.ok n, { c with calls := c.calls + 1 }) := by
        have := hf 0
        simp only [Nat.add_zero, nextFault] at this
        simp [Src.impl, Src.streamPosition, hs, this, hp]
      rw [e']
      refine hF _ hd hp hs fun i => ?_
      have := hf (i + 1)
      simpa [nextFault, Nat.add_assoc, Nat.add_comm 1] using this
    | error e =>
      obtain ⟨F, hF⟩ := Talk.run_honest hr (k (.error e)) s' pos (hr'.2 e s' rfl)
      refine ⟨nextFault (some (0, e)) F, fun c hd hp hs hf => ?_⟩
      have e' : Src.impl c .position = (.error e, { c with calls := c.calls + 1 }) := by
        have := hf 0
        simp only [Nat.add_zero, nextFault] at this
        simp [Src.impl, Src.streamPosition, hs, this]
      rw [e']
      refine hF _ hd hp hs fun i => ?_
      have := hf (i + 1)
      simpa [nextFault, Nat.add_assoc, Nat.add_comm 1] using this

end Deku
