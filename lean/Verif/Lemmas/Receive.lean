import Verif.Spec.Receive
import Verif.Lemmas.CoreFlow
import Verif.Lemmas.CoreSafe
import Verif.Props.Truncate

/-! # A program that receives messages -/

namespace Deku

variable {α : Type} {parse : List Byte → Nat → Res ((List Byte × Nat) × α)} {next : List Byte × Nat → List Byte × Nat}

/-- What is needed of `from_bytes`: an input that is cut off is `Incomplete`, or what is missing makes no difference. -/
structure Cuts (lim : Nat → Prop) (parse : List Byte → Nat → Res ((List Byte × Nat) × α)) : Prop where
  mono : ∀ {m n}, m ≤ n → lim n → lim m
  cut : ∀ a b off, off < 8 → lim (a ++ b).length →
    (∃ n, parse a off = .err (.incomplete n)) ∨
    (∃ rest bit v, parse a off = .ok ((rest, bit), v) ∧ parse (a ++ b) off = .ok ((rest ++ b, bit), v)) ∨
    (∃ e, parse a off = .err e ∧ parse (a ++ b) off = .err e) ∨
    parse a off = .panic ∧ parse (a ++ b) off = .panic
  rest : ∀ {data off rest bit v}, parse data off = .ok ((rest, bit), v) →
    rest.length ≤ data.length ∧ bit < 8 ∧ (bit ≠ 0 → rest ≠ [])

/-- Where the next message starts does not depend on what comes after it. -/
structure Steps (next : List Byte × Nat → List Byte × Nat) : Prop where
  append : ∀ (x : List Byte × Nat) c, (x.2 ≠ 0 → x.1 ≠ []) → next (x.1 ++ c, x.2) = ((next x).1 ++ c, (next x).2)
  length : ∀ x, (next x).1.length ≤ x.1.length
  off : ∀ x, x.2 < 8 → (next x).2 < 8
  bits : ∀ x : List Byte × Nat, x.2 < 8 → 8 * (next x).1.length - (next x).2 ≤ 8 * x.1.length - x.2

theorem packed_steps : Steps packed := ⟨fun _ _ _ => rfl, fun _ => Nat.le_refl _, fun _ h => h, fun _ _ => Nat.le_refl _⟩

theorem atNextByte_steps : Steps atNextByte := by
  refine ⟨fun x c h => ?_, fun x => ?_, fun x h => ?_, fun x h => ?_⟩
  · unfold atNextByte
    by_cases h0 : x.2 = 0
    · simp [h0]
    · rw [if_neg h0, if_neg h0, List.drop_append_of_le_length]
      have := List.length_pos_iff.2 (h h0)
      exact this
  · unfold atNextByte; split <;> simp
  · unfold atNextByte; split
    · exact h
    · simp
  · unfold atNextByte; split
    · exact Nat.le_refl _
    · simp only [List.length_drop]; omega

theorem Drains.unique {x : List Byte × Nat} {vs ws : List α} {s t : Status} (h : Drains parse next x vs s)
    (g : Drains parse next x ws t) : vs = ws ∧ s = t := by
  induction h generalizing ws t with
  | message e _ ih =>
    cases g with
    | message e' g' =>
      rw [e] at e'
      cases e'
      obtain ⟨rfl, rfl⟩ := ih g'
      exact ⟨rfl, rfl⟩
    | wait e' => rw [e] at e'; cases e'
    | fail e' _ => rw [e] at e'; cases e'
    | panic e' => rw [e] at e'; cases e'
  | wait e =>
    cases g with
    | message e' g' => rw [e] at e'; cases e'
    | wait e' => exact ⟨rfl, rfl⟩
    | fail e' h' => rw [e] at e'; cases e'; exact absurd rfl (h' _)
    | panic e' => rw [e] at e'; cases e'
  | fail e h =>
    cases g with
    | message e' g' => rw [e] at e'; cases e'
    | wait e' => rw [e] at e'; cases e'; exact absurd rfl (h _)
    | fail e' h' => rw [e] at e'; cases e'; exact ⟨rfl, rfl⟩
    | panic e' => rw [e] at e'; cases e'
  | panic e =>
    cases g with
    | message e' g' => rw [e] at e'; cases e'
    | wait e' => rw [e] at e'; cases e'
    | fail e' _ => rw [e] at e'; cases e'
    | panic e' => exact ⟨rfl, rfl⟩

/-- More bytes arrive: what has been delivered would have been delivered with them. -/
theorem Drains.append {lim : Nat → Prop} (hc : Cuts lim parse) (hn : Steps next) {x : List Byte × Nat} {vs : List α} {s : Status}
    (h : Drains parse next x vs s) (c : List Byte) (ho : x.2 < 8) (hl : lim (x.1 ++ c).length) :
    (∀ buf off, s = .waiting buf off → (buf.length ≤ x.1.length ∧ off < 8 ∧ ∃ n, parse buf off = .err (.incomplete n)) ∧
      ∀ ws t, Drains parse next (buf ++ c, off) ws t → Drains parse next (x.1 ++ c, x.2) (vs ++ ws) t) ∧
    ((∀ buf off, s ≠ .waiting buf off) → Drains parse next (x.1 ++ c, x.2) vs s) := by
  induction h with
  | @message x y v vs s e _ ih =>
    obtain ⟨hr, hb, hne⟩ := hc.rest (rest := y.1) (bit := y.2) e
    have hlen := hn.length y
    obtain ⟨i1, i2⟩ := ih (hn.off y hb) (hc.mono (by simp only [List.length_append]; omega) hl)
    have e' : parse (x.1 ++ c) x.2 = .ok ((y.1 ++ c, y.2), v) := by
      rcases hc.cut x.1 c x.2 ho hl with ⟨n, h⟩ | ⟨_, _, _, h, h'⟩ | ⟨_, h, _⟩ | ⟨h, _⟩
      · rw [e] at h; cases h
      · rw [e] at h; cases h; exact h'
      · rw [e] at h; cases h
      · rw [e] at h; cases h
    have hnx := hn.append y c hne
    refine ⟨fun buf off hs => ?_, fun hs => .message (y := (y.1 ++ c, y.2)) e' (by rw [hnx]; exact i2 hs)⟩
    obtain ⟨⟨h1, h2, h3⟩, h4⟩ := i1 buf off hs
    exact ⟨⟨by omega, h2, h3⟩, fun ws t hw => .message (y := (y.1 ++ c, y.2)) e' (by rw [hnx]; exact h4 ws t hw)⟩
  | wait e =>
    refine ⟨fun buf off hs => ?_, fun h => absurd rfl (h _ _)⟩
    cases hs
    exact ⟨⟨Nat.le_refl _, ho, _, e⟩, fun _ _ hw => hw⟩
  | @fail x e h he =>
    refine ⟨nofun, fun _ => .fail ?_ he⟩
    rcases hc.cut x.1 c x.2 ho hl with ⟨n, h'⟩ | ⟨_, _, _, h', _⟩ | ⟨_, h', h''⟩ | ⟨h', _⟩
    · rw [h] at h'; cases h'; exact absurd rfl (he n)
    · rw [h] at h'; cases h'
    · rw [h] at h'; cases h'; exact h''
    · rw [h] at h'; cases h'
  | @panic x h =>
    refine ⟨nofun, fun _ => .panic ?_⟩
    rcases hc.cut x.1 c x.2 ho hl with ⟨n, h'⟩ | ⟨_, _, _, h', _⟩ | ⟨_, h', h''⟩ | ⟨h', h''⟩
    · rw [h] at h'; cases h'
    · rw [h] at h'; cases h'
    · rw [h] at h'; cases h'
    · exact h''

/-- The pieces do not matter: a program that waits gets from them what it gets from all at once. -/
theorem Gets.drains {lim : Nat → Prop} (hc : Cuts lim parse) (hn : Steps next) {x : List Byte × Nat} {cs : List (List Byte)}
    {vss : List (List α)} {s : Status} (h : Gets parse next x cs vss s)
    (hx : cs ≠ [] ∨ ∃ n, parse x.1 x.2 = .err (.incomplete n)) (ho : x.2 < 8) (hl : lim (x.1 ++ cs.flatten).length) :
    Drains parse next (x.1 ++ cs.flatten, x.2) vss.flatten s := by
  induction h with
  | nil =>
    obtain h | ⟨n, h⟩ := hx
    · exact absurd rfl h
    · simpa using Drains.wait h
  | @piece x y c cs vs vss s h _ ih =>
    have hlim : lim (x.1 ++ c ++ cs.flatten).length := by simpa using hl
    obtain ⟨⟨h1, h2, h3⟩, h4⟩ := (h.append hc hn cs.flatten ho hlim).1 y.1 y.2 rfl
    have := h4 _ _ (ih (.inr h3) h2 (hc.mono (by simp only [List.length_append] at h1 ⊢; omega) hlim))
    simpa using this
  | @stop x c cs vs s h hs =>
    have hlim : lim (x.1 ++ c ++ cs.flatten).length := by simpa using hl
    have := (h.append hc hn cs.flatten ho hlim).2 hs
    have e : (cs.map fun _ => ([] : List α)).flatten = [] := by
      clear hl hx h ho hlim this
      induction cs with
      | nil => rfl
      | cons c cs ih => simpa using ih
    simpa [e] using this

/-- Every message has a bit: then the loop ends. -/
theorem Drains.total (hn : Steps next)
    (hp : ∀ data off rest bit v, parse data off = .ok ((rest, bit), v) →
      bit < 8 ∧ 8 * rest.length - bit < 8 * data.length - off) :
    ∀ (n : Nat) (x : List Byte × Nat), 8 * x.1.length - x.2 ≤ n → ∃ vs s, Drains parse next x vs s := by
  intro n
  induction n using Nat.strongRecOn with
  | ind n ih =>
    intro x hx
    rcases e : parse x.1 x.2 with ⟨⟨rest, bit⟩, v⟩ | e' | _
    · obtain ⟨h0, h1⟩ := hp _ _ _ _ _ e
      have h2 := hn.bits (rest, bit) h0
      simp only at h2
      obtain ⟨vs, s, h⟩ := ih _ (by omega) (next (rest, bit)) (Nat.le_refl _)
      exact ⟨_, _, .message e h⟩
    · by_cases hi : ∃ n, e' = .incomplete n
      · obtain ⟨k, rfl⟩ := hi
        exact ⟨_, _, .wait e⟩
      · exact ⟨_, _, .fail e fun n h => hi ⟨n, h⟩⟩
    · exact ⟨_, _, .panic e⟩

theorem Gets.total (hn : Steps next)
    (hp : ∀ data off rest bit v, parse data off = .ok ((rest, bit), v) →
      bit < 8 ∧ 8 * rest.length - bit < 8 * data.length - off)
    (cs : List (List Byte)) : ∀ x, ∃ vss s, Gets parse next x cs vss s := by
  induction cs with
  | nil => exact fun x => ⟨_, _, .nil⟩
  | cons c cs ih =>
    intro x
    obtain ⟨vs, s, h⟩ := Drains.total hn hp _ (x.1 ++ c, x.2) (Nat.le_refl _)
    cases s with
    | waiting buf off =>
      obtain ⟨vss, t, ht⟩ := ih (buf, off)
      exact ⟨_, _, .piece (y := (buf, off)) h ht⟩
    | failed e => exact ⟨_, _, .stop h nofun⟩
    | panicked => exact ⟨_, _, .stop h nofun⟩

theorem Gets.unique {x : List Byte × Nat} {cs : List (List Byte)} {vss wss : List (List α)} {s t : Status}
    (h : Gets parse next x cs vss s) (g : Gets parse next x cs wss t) : vss = wss ∧ s = t := by
  induction h generalizing wss t with
  | nil => cases g; exact ⟨rfl, rfl⟩
  | @piece x y c cs vs vss s h _ ih =>
    cases g with
    | @piece _ y' _ _ _ _ _ h' g' =>
      obtain ⟨rfl, e⟩ := h.unique h'
      cases y; cases y'
      cases e
      obtain ⟨rfl, rfl⟩ := ih g'
      exact ⟨rfl, rfl⟩
    | stop h' hs =>
      obtain ⟨rfl, e⟩ := h.unique h'
      exact absurd e.symm (hs _ _)
  | stop h hs =>
    cases g with
    | piece h' g' =>
      obtain ⟨rfl, e⟩ := h.unique h'
      exact absurd e (hs _ _)
    | stop h' hs' =>
      obtain ⟨rfl, rfl⟩ := h.unique h'
      exact ⟨rfl, rfl⟩

/-- What has been delivered after some of the pieces does not depend on those that come. -/
theorem Gets.front {x : List Byte × Nat} {cs ds : List (List Byte)} {vss : List (List α)} {s : Status}
    (h : Gets parse next x (cs ++ ds) vss s) : ∃ t, Gets parse next x cs (vss.take cs.length) t := by
  induction cs generalizing x vss with
  | nil => exact ⟨_, .nil⟩
  | cons c cs ih =>
    cases h with
    | piece h g =>
      obtain ⟨t, ht⟩ := ih g
      exact ⟨t, .piece h ht⟩
    | stop h hs =>
      have : ((cs ++ ds).map fun _ => ([] : List α)).take cs.length = cs.map fun _ => [] := by simp
      rw [List.length_cons, List.take_succ_cons, List.append_eq, this]
      exact ⟨_, .stop h hs⟩

theorem Gets.length {x : List Byte × Nat} {cs : List (List Byte)} {vss : List (List α)} {s : Status}
    (h : Gets parse next x cs vss s) : vss.length = cs.length := by
  induction h with
  | nil => rfl
  | piece _ _ ih => simp [ih]
  | stop _ _ => simp

/-! ### Messages that were written -/

/-- The bytes of a message: with them it is read, without the last of them it is incomplete. -/
structure Sent (parse : List Byte → Nat → Res ((List Byte × Nat) × α)) (next : List Byte × Nat → List Byte × Nat)
    (out : List Byte) (v : α) : Prop where
  nonempty : out ≠ []
  whole : ∀ extra, ∃ y, parse (out ++ extra) 0 = .ok (y, v) ∧ next y = (extra, 0)
  part : ∀ a b, out = a ++ b → b ≠ [] → ∃ n, parse a 0 = .err (.incomplete n)

theorem arrived_drains (he : ∃ n, parse [] 0 = .err (.incomplete n)) : ∀ (ms : List (List Byte × α)),
    (∀ x ∈ ms, Sent parse next x.1 x.2) → ∀ data, data <+: (ms.map (·.1)).flatten →
    Drains parse next (data, 0) (arrived ms data).1 (.waiting (arrived ms data).2 0)
  | [], _, data, h => by
    obtain ⟨n, he⟩ := he
    simp at h
    subst h
    exact .wait he
  | (out, v) :: ms, hs, data, h => by
    have h0 := hs (out, v) List.mem_cons_self
    simp only [List.map_cons, List.flatten_cons] at h
    unfold arrived
    split
    · rename_i hl
      obtain ⟨extra, rfl⟩ : ∃ extra, data = out ++ extra := by
        have := List.prefix_of_prefix_length_le (List.prefix_append out _) h hl
        obtain ⟨e, he⟩ := this
        exact ⟨e, he.symm⟩
      obtain ⟨y, e, hy⟩ := h0.whole extra
      rw [List.drop_left]
      refine .message (y := y) e ?_
      rw [hy]
      exact arrived_drains he ms (fun x hx => hs x (List.mem_cons_of_mem _ hx)) extra
        ((List.prefix_append_right_inj _).1 h)
    · rename_i hl
      have := List.prefix_of_prefix_length_le h (List.prefix_append out _) (by omega)
      obtain ⟨b, hb⟩ := this
      obtain ⟨n, hn⟩ := h0.part data b hb.symm (by rintro rfl; simp at hb; subst hb; simp at hl)
      exact .wait hn

theorem arrived_all : ∀ (ms : List (List Byte × α)), arrived ms (ms.map (·.1)).flatten = (ms.map (·.2), [])
  | [] => rfl
  | (out, v) :: ms => by
    simp [arrived, arrived_all ms]

/-! ### `from_bytes` -/

theorem fromBytes_cuts {inside : Bool} {m : Machine} {t : Ty} (ht : t.Cuttable inside) (hs : t.Streams true) (env : Env) :
    Cuts (fun n => inside = true → n < 2 ^ 61) (fromBytes (t.read m env)) where
  mono h hl hi := Nat.lt_of_le_of_lt h (hl hi)
  cut a b off ho hl := C56_cut_input_partial ht env a b (fun _ => ho) hl
  rest h := by
    obtain ⟨n, _, _, hn, rfl, rfl, hsum⟩ := C44_rest_is_unconsumed_input_partial m t env hs _ _ _ _ _ h
    refine ⟨by simp, Nat.mod_lt _ (by decide), fun hb he => ?_⟩
    rw [List.drop_eq_nil_iff] at he
    omega

/-- Every message has a bit. -/
theorem fromBytes_eats {m : Machine} {t : Ty} {env : Env} (hs : t.Streams true) (he : Eats (t.read m env))
    (data : List Byte) (off : Nat) (rest : List Byte) (bit : Nat) (v : Val)
    (h : fromBytes (t.read m env) data off = .ok ((rest, bit), v)) :
    bit < 8 ∧ 8 * rest.length - bit < 8 * data.length - off := by
  have hf := Ty.follows m t env hs
  have hoff := fromBytes_start hf h
  obtain ⟨r, e, hb, rfl, rfl⟩ := fromBytes_ok_iff.1 h
  obtain ⟨hg, hd, _⟩ := readFrom_follows hf off _ _ _ (new_good data) e
  have hdat : r.inner.data = data := hd
  have hin := hg.within (by rw [hdat]; exact hb)
  rw [hdat] at hin
  have hp := hg.pos_eq
  obtain ⟨r0, e0, g0, b0, _⟩ := readFrom_start (o := .msb0) (f := t.read m env) hoff
  rw [e0] at e
  have := (he r0 v r ⟨g0.healthy, g0.wf, g0.sync, g0.inside, (fun h => nomatch h), (fun h => nomatch h)⟩ e).2
  rw [List.length_drop]
  exact ⟨Nat.mod_lt _ (by decide), by omega⟩

/-- Messages that are written by `to_bytes` and come back. -/
theorem fromBytes_sent {inside : Bool} {m : Machine} {t : Ty} (ht : t.Cuttable inside) (hs : t.Streams true) (env : Env)
    (he : Eats (t.read m env)) {out : List Byte} {v : Val} {k : Nat} (hk : out.length = (k + 7) / 8)
    (h : ∀ extra, fromBytes (t.read m env) (out ++ extra) 0 = .ok (((out ++ extra).drop (k / 8), k % 8), v))
    (hl : inside = true → out.length < 2 ^ 61) : Sent (fromBytes (t.read m env)) atNextByte out v where
  nonempty := by
    rintro rfl
    have h1 := h []
    have := fromBytes_eats hs he _ _ _ _ _ h1
    simp at hk this
  whole extra := by
    refine ⟨_, h extra, ?_⟩
    unfold atNextByte
    simp only
    split
    · rw [show k / 8 = out.length by omega, List.drop_left]; rename_i h0; rw [h0]
    · rw [List.drop_drop, show k / 8 + 1 = out.length by omega, List.drop_left]
  part a b hab hb := by
    have h1 := h []
    rw [List.append_nil, hab] at h1
    refine C56_missing_bits_partial ht hs env a b (fun _ => by decide) (by rw [← hab]; exact hl) h1 ?_
    have := List.length_pos_iff.2 hb
    rw [← hab, List.length_drop]
    omega

end Deku
