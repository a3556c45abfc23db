import Verif.Lemmas.Envelope
import Verif.Props.Receive

/-!
# A message inside another one: C102

The program is that of `Model/Envelope.lean`. Of the type inside nothing is assumed.
-/

namespace Deku

open Envelope

variable {α β : Type}

/-! ## The answer -/

/-- **C102.** The answer for every input: where an envelope ends depends on its number only, and what is in it is asked only
when all of it is there. -/
theorem C102_the_answer (native e : Endian) {W : Nat} (hW : 1 ≤ W) (h7 : W ≤ 7) (inner : M Reader α)
    (judge : Except DekuError α → Except DekuError β) (data : List Byte) :
    fromBytes (read native W e inner judge) data 0 = verdict e W (fun bs => handed judge (tryFrom inner bs)) data :=
  fromBytes_read native e hW h7 inner judge data

/-- **C102.** If the user does not say `Incomplete` about a payload, `Incomplete` means that bytes are missing, and nothing
else. -/
theorem C102_incomplete_iff_bytes_are_missing (native e : Endian) {W : Nat} (hW : 1 ≤ W) (h7 : W ≤ 7) (inner : M Reader α)
    (judge : Except DekuError α → Except DekuError β) (hj : Decided judge) (data : List Byte) :
    (∃ n, fromBytes (read native W e inner judge) data 0 = .err (.incomplete n)) ↔ ¬ Complete e W data := by
  rw [fromBytes_read native e hW h7]
  refine ⟨fun ⟨n, h⟩ hc => ?_, verdict_waits _⟩
  unfold verdict at h
  rw [if_pos hc] at h
  have key : ∀ x : Res α, handed judge x ≠ .err (.incomplete n) := by
    intro x hx
    unfold handed at hx
    split at hx
    · split at hx
      · cases hx
      · rename_i he
        cases hx
        exact hj _ _ he
    · split at hx
      · cases hx
      · rename_i he
        cases hx
        exact hj _ _ he
    · cases hx
  revert h
  have := key (tryFrom inner (payload e W data))
  dsimp only
  cases hx : handed judge (tryFrom inner (payload e W data)) with
  | ok v => nofun
  | err x =>
    intro h
    cases h
    exact this hx
  | panic => nofun

/-! ## Round trips -/

/-- **C102.** What is written, and when. -/
theorem C102_what_is_written (native e : Endian) (W : Nat) (inner : M Writer Unit) (out : List Byte) :
    toBytes (write native W e inner) = .ok out ↔
      ∃ bs, toBytes inner = .ok bs ∧ bs.length < 256 ^ W ∧ out = endianBytes W e bs.length ++ bs := by
  rw [toBytes_write]
  cases toBytes inner with
  | ok bs =>
    by_cases h : bs.length < 256 ^ W
    · simp only [if_pos h]
      refine ⟨fun hx => ?_, fun ⟨bs', h1, _, h3⟩ => ?_⟩
      · cases hx; exact ⟨bs, rfl, h, rfl⟩
      · cases h1; rw [h3]; rfl
    · simp only [if_neg h]
      exact ⟨nofun, fun ⟨_, h1, h2, _⟩ => by cases h1; exact absurd h2 h⟩
  | err x => exact ⟨nofun, fun ⟨_, h1, _⟩ => nomatch h1⟩
  | panic => exact ⟨nofun, fun ⟨_, h1, _⟩ => nomatch h1⟩

/-- **C102.** What is written is read back, whatever is behind it, if the payload is: not even a type that takes all the
input there is takes more than its own bytes. -/
theorem C102_round_trip (native e : Endian) {W : Nat} (hW : 1 ≤ W) (h7 : W ≤ 7) (inner : M Reader α) (writer : M Writer Unit)
    (judge : Except DekuError α → Except DekuError α) {v : α} (hj : judge (.ok v) = .ok v)
    (hi : ∀ bs, toBytes writer = .ok bs → tryFrom inner bs = .ok v) {out : List Byte}
    (h : toBytes (write native W e writer) = .ok out) (extra : List Byte) :
    fromBytes (read native W e inner judge) (out ++ extra) 0 = .ok ((extra, 0), v) := by
  obtain ⟨bs, h1, h2, rfl⟩ := (C102_what_is_written native e W writer out).1 h
  rw [fromBytes_read native e hW h7]
  exact verdict_sealed h2 (by rw [hi bs h1]; exact handed_ok hj) extra

/-- **C102.** As a field, wherever a byte starts and in either bit order. -/
theorem C102_round_trip_as_a_field (native e : Endian) {W : Nat} (hW : 1 ≤ W) (inner : M Reader α) (writer : M Writer Unit)
    (judge : Except DekuError α → Except DekuError α) {v : α} (hj : judge (.ok v) = .ok v)
    (hi : ∀ bs, toBytes writer = .ok bs → tryFrom inner bs = .ok v) (o : Order) :
    SoundOn o (· % 8 = 0) (read native W e inner judge) (write native W e writer) v (· % 8 = 0) := by
  intro p w w' hp _ h
  unfold write at h
  cases hb : toBytes writer with
  | ok bs =>
    rw [hb] at h
    by_cases hl : bs.length < 256 ^ W
    · refine ⟨orderBits o (sealed e W bs), write_writes native e hb hl fun _ => hp,
        read_reads native e hW hl (by rw [hi bs hb]; exact handed_ok hj) hp, ?_⟩
      rw [Reader.length_orderBits]
      omega
    · simp only [if_neg hl] at h
      cases h
  | err x => rw [hb] at h; cases h
  | panic => rw [hb] at h; cases h

/-! ## Envelopes in envelopes -/

/-- **C102.** Envelopes in envelopes, to any depth: what is written, and that it is read back. Each costs the bytes of its
number, and the outermost has to hold the others. -/
theorem C102_nested (native e : Endian) {W : Nat} (hW : 1 ≤ W) (h7 : W ≤ 7) (inner : M Reader α) (writer : M Writer Unit)
    (judge : Except DekuError α → Except DekuError α) {v : α} (hj : judge (.ok v) = .ok v) {bs : List Byte}
    (hb : toBytes writer = .ok bs) (hi : tryFrom inner bs = .ok v) (n : Nat) :
    ((n - 1) * W + bs.length < 256 ^ W →
      ∃ out, toBytes (writeNested native W e writer n) = .ok out ∧ out.length = n * W + bs.length ∧
        tryFrom (readNested native W e inner judge n) out = .ok v) ∧
    (1 ≤ n → ¬ (n - 1) * W + bs.length < 256 ^ W → toBytes (writeNested native W e writer n) = .err .parse) := by
  rw [toBytes_writeNested native e hb]
  refine ⟨fun h => ⟨_, if_pos (.inr h), length_sealedNested e W bs n, ?_⟩, fun h1 h => if_neg ?_⟩
  · exact readNested_sealed native e hW h7 hi hj n (.inr h)
  · rintro (h0 | h0)
    · omega
    · exact h h0

/-! ## Receiving -/

/-- **C102.** The loop that receives envelopes ends, with one outcome, and how the bytes are cut into pieces makes no
difference. -/
theorem C102_pieces_make_no_difference (native e : Endian) {W : Nat} (hW : 1 ≤ W) (h7 : W ≤ 7) (inner : M Reader α)
    (judge : Except DekuError α → Except DekuError β) (buf : List Byte) (cs : List (List Byte)) (hc : cs ≠ []) :
    ∃ vss s, Gets (fromBytes (read native W e inner judge)) atNextByte (buf, 0) cs vss s ∧
      (∀ wss t, Gets (fromBytes (read native W e inner judge)) atNextByte (buf, 0) cs wss t → wss = vss ∧ t = s) ∧
      Drains (fromBytes (read native W e inner judge)) atNextByte (buf ++ cs.flatten, 0) vss.flatten s := by
  have heq : ∀ data, parse0 e W (fun bs => handed judge (tryFrom inner bs)) data 0 =
      fromBytes (read native W e inner judge) data 0 := fun data => (fromBytes_read native e hW h7 inner judge data).symm
  obtain ⟨vss, s, g⟩ := Gets.total atNextByte_steps (parse0_eats (e := e) hW (answer := fun bs => handed judge (tryFrom inner bs)))
    cs (buf, 0)
  have g' := g.congr heq rfl
  refine ⟨vss, s, g', fun _ _ h => h.unique g', ?_⟩
  exact ((g.drains (parse0_cuts e W _) atNextByte_steps (.inl hc) (Nat.zero_lt_succ 7) trivial).congr heq rfl).1

/-- **C102.** Payloads that the user accepts, in envelopes, one after the other, arrive in pieces, not all of them perhaps.
After each piece exactly those are delivered that are complete; the rest is in the buffer. -/
theorem C102_payloads_are_delivered_when_they_are_complete (native e : Endian) {W : Nat} (hW : 1 ≤ W) (h7 : W ≤ 7)
    (inner : M Reader α) (judge : Except DekuError α → Except DekuError β) (ms : List (List Byte × β))
    (hms : ∀ x ∈ ms, x.1.length < 256 ^ W ∧ handed judge (tryFrom inner x.1) = .ok x.2) (cs : List (List Byte))
    (hp : cs.flatten <+: (ms.map fun x => sealed e W x.1).flatten) :
    ∃ vss, Gets (fromBytes (read native W e inner judge)) atNextByte ([], 0) cs vss
        (.waiting (arrived (ms.map fun x => (sealed e W x.1, x.2)) cs.flatten).2 0) ∧
      ∀ n, (vss.take n).flatten = (arrived (ms.map fun x => (sealed e W x.1, x.2)) (cs.take n).flatten).1 := by
  have heq : ∀ data, parse0 e W (fun bs => handed judge (tryFrom inner bs)) data 0 =
      fromBytes (read native W e inner judge) data 0 := fun data => (fromBytes_read native e hW h7 inner judge data).symm
  generalize hA : (fun bs => handed judge (tryFrom inner bs)) = answer at heq
  have hms' : ∀ x ∈ ms, x.1.length < 256 ^ W ∧ answer x.1 = .ok x.2 := by rw [← hA]; exact hms
  generalize hN : ms.map (fun x => (sealed e W x.1, x.2)) = ns at *
  have hf : (ms.map fun x => sealed e W x.1) = ns.map (·.1) := by rw [← hN, List.map_map]; rfl
  rw [hf] at hp
  have hsent : ∀ x ∈ ns, Sent (parse0 e W answer) atNextByte x.1 x.2 := by
    intro x hx
    rw [← hN] at hx
    obtain ⟨y, hy, rfl⟩ := List.mem_map.1 hx
    exact parse0_sent hW (hms' y hy).1 (hms' y hy).2
  have he : ∃ n, parse0 e W answer [] 0 = .err (.incomplete n) :=
    verdict_waits answer fun h => by have := h.1; simp at this; omega
  obtain ⟨vss, s, g⟩ := Gets.total atNextByte_steps (parse0_eats (e := e) hW (answer := answer)) cs ([], 0)
  have key : ∀ cs' : List (List Byte), cs'.flatten <+: (ns.map (·.1)).flatten → ∀ wss t,
      Gets (parse0 e W answer) atNextByte ([], 0) cs' wss t →
      wss.flatten = (arrived ns cs'.flatten).1 ∧ t = .waiting (arrived ns cs'.flatten).2 0 := by
    intro cs' hp' wss t g'
    have h1 := g'.drains (parse0_cuts e W answer) atNextByte_steps (.inr he) (by decide) trivial
    exact h1.unique (arrived_drains he ns hsent _ hp')
  obtain ⟨_, rfl⟩ := key cs hp vss s g
  refine ⟨vss, g.congr heq rfl, fun n => ?_⟩
  have hcs : cs = cs.take n ++ cs.drop n := (List.take_append_drop n cs).symm
  rw [hcs] at g
  obtain ⟨t, gt⟩ := g.front
  have hlen := g.length
  have := (key (cs.take n) (.trans ⟨(cs.drop n).flatten, by rw [← List.flatten_append, ← hcs]⟩ hp) _ _ gt).1
  rw [← this]
  congr 1
  rw [List.length_take]
  by_cases hn : n ≤ cs.length
  · rw [Nat.min_eq_left hn]
  · rw [Nat.min_eq_right (by omega), List.take_of_length_le (by rw [hlen, ← hcs]; omega),
      List.take_of_length_le (by rw [hlen, ← hcs]; omega)]

/-- **C102.** Messages that are written by `to_bytes`: when all bytes are there, all have been delivered, each once and in
order. The type inside may have a list with `read_all`, which C85 excludes. -/
theorem C102_all_messages_are_delivered (native e : Endian) {W : Nat} (hW : 1 ≤ W) (h7 : W ≤ 7) (inner : M Reader α)
    (writer : α → M Writer Unit) (judge : Except DekuError α → Except DekuError α) (vs : List α) (outs : List (List Byte))
    (hw : vs.map (fun v => toBytes (write native W e (writer v))) = outs.map .ok)
    (hj : ∀ v ∈ vs, judge (.ok v) = .ok v) (hi : ∀ v ∈ vs, ∀ bs, toBytes (writer v) = .ok bs → tryFrom inner bs = .ok v)
    (cs : List (List Byte)) (hc : cs.flatten = outs.flatten) :
    ∃ vss, Gets (fromBytes (read native W e inner judge)) atNextByte ([], 0) cs vss (.waiting [] 0) ∧ vss.flatten = vs := by
  have key : ∀ (vs : List α) (outs : List (List Byte)), vs.map (fun v => toBytes (write native W e (writer v))) = outs.map .ok →
      (∀ v ∈ vs, judge (.ok v) = .ok v) → (∀ v ∈ vs, ∀ bs, toBytes (writer v) = .ok bs → tryFrom inner bs = .ok v) →
      ∃ ms : List (List Byte × α), ms.map (·.2) = vs ∧ (ms.map fun x => sealed e W x.1) = outs ∧
        ∀ x ∈ ms, x.1.length < 256 ^ W ∧ handed judge (tryFrom inner x.1) = .ok x.2 := by
    intro vs
    induction vs with
    | nil =>
      intro outs h _ _
      cases outs with
      | nil => exact ⟨[], rfl, rfl, nofun⟩
      | cons => cases h
    | cons v vs ih =>
      intro outs h hj hi
      cases outs with
      | nil => cases h
      | cons out outs =>
        simp only [List.map_cons, List.cons.injEq] at h
        obtain ⟨bs, h1, h2, rfl⟩ := (C102_what_is_written native e W (writer v) out).1 h.1
        obtain ⟨ms, m1, m2, m3⟩ := ih outs h.2 (fun w hw => hj w (List.mem_cons_of_mem _ hw))
          fun w hw => hi w (List.mem_cons_of_mem _ hw)
        refine ⟨(bs, v) :: ms, by simp [m1], by rw [List.map_cons, m2]; rfl, fun x hx => ?_⟩
        obtain rfl | hx := List.mem_cons.1 hx
        · exact ⟨h2, by rw [hi v List.mem_cons_self bs h1]; exact handed_ok (hj v List.mem_cons_self)⟩
        · exact m3 x hx
  obtain ⟨ms, m1, m2, m3⟩ := key vs outs hw hj hi
  obtain ⟨vss, g, hn⟩ := C102_payloads_are_delivered_when_they_are_complete native e hW h7 inner judge ms m3 cs
    (by rw [m2, hc]; exact List.prefix_refl _)
  have ha := arrived_all (ms.map fun x => (sealed e W x.1, x.2))
  rw [List.map_map, List.map_map] at ha
  change arrived _ (ms.map fun x => sealed e W x.1).flatten = (ms.map (·.2), []) at ha
  rw [m1, m2] at ha
  have := hn cs.length
  have hlen := g.length
  rw [List.take_of_length_le (by omega), List.take_of_length_le (by omega), hc, ha] at this
  rw [hc, ha] at g
  exact ⟨vss, g, this⟩

/-- **C102.** A bad payload harms no other: if the user keeps the answer for the payload as the value, every envelope is
delivered, with the answer that its payload has on its own. Only a panic is not an answer. -/
theorem C102_a_bad_payload_harms_no_other (native e : Endian) {W : Nat} (hW : 1 ≤ W) (h7 : W ≤ 7) (inner : M Reader α)
    (ps : List (List Byte)) (hp : ∀ p ∈ ps, p.length < 256 ^ W ∧ tryFrom inner p ≠ .panic) (cs : List (List Byte))
    (hc : cs.flatten = (ps.map (sealed e W)).flatten) :
    ∃ vss, Gets (fromBytes (read native W e inner keep)) atNextByte ([], 0) cs vss (.waiting [] 0) ∧
      vss.flatten.map kept = ps.map (tryFrom inner) := by
  have key : ∀ ps : List (List Byte), (∀ p ∈ ps, p.length < 256 ^ W ∧ tryFrom inner p ≠ .panic) →
      ∃ ms : List (List Byte × Except DekuError α), ms.map (·.1) = ps ∧
        (∀ x ∈ ms, x.1.length < 256 ^ W ∧ handed keep (tryFrom inner x.1) = .ok x.2) ∧
        (ms.map (·.2)).map kept = ps.map (tryFrom inner) := by
    intro ps
    induction ps with
    | nil => exact fun _ => ⟨[], rfl, nofun, rfl⟩
    | cons p ps ih =>
      intro h
      obtain ⟨ms, m1, m2, m3⟩ := ih fun q hq => h q (List.mem_cons_of_mem _ hq)
      obtain ⟨h1, h2⟩ := h p List.mem_cons_self
      have hx : ∃ v, handed keep (tryFrom inner p) = .ok v ∧
          kept v = tryFrom inner p := by
        cases ht : tryFrom inner p with
        | ok v => exact ⟨.ok v, rfl, rfl⟩
        | err x => exact ⟨.error x, rfl, rfl⟩
        | panic => exact absurd ht h2
      obtain ⟨v, h3, h4⟩ := hx
      refine ⟨(p, v) :: ms, by simp [m1], fun x hx => ?_, ?_⟩
      · obtain rfl | hx := List.mem_cons.1 hx
        · exact ⟨h1, h3⟩
        · exact m2 x hx
      · rw [List.map_cons, List.map_cons, m3, List.map_cons]
        exact congrArg (· :: _) h4
  obtain ⟨ms, m1, m2, m3⟩ := key ps hp
  have hs : (ms.map fun x => sealed e W x.1) = ps.map (sealed e W) := by rw [← m1, List.map_map]; rfl
  obtain ⟨vss, g, hn⟩ := C102_payloads_are_delivered_when_they_are_complete native e hW h7 inner keep ms m2 cs
    (by rw [hs, hc]; exact List.prefix_refl _)
  have ha := arrived_all (ms.map fun x => (sealed e W x.1, x.2))
  rw [List.map_map, List.map_map] at ha
  change arrived _ (ms.map fun x => sealed e W x.1).flatten = (ms.map (·.2), []) at ha
  rw [hs] at ha
  have := hn cs.length
  have hlen := g.length
  rw [List.take_of_length_le (by omega), List.take_of_length_le (by omega), hc, ha] at this
  rw [hc, ha] at g
  exact ⟨vss, g, by rw [this]; exact m3⟩

/-! ## What goes wrong -/

/-- **C102** needs a user who decides: with `?`, a payload that is too short for its type is `Incomplete` though all of the
envelope is there. No further byte changes that: the program waits for ever, and nothing behind it is ever delivered. -/
theorem C102_question_mark_waits_for_ever (native e : Endian) {W : Nat} (hW : 1 ≤ W) (h7 : W ≤ 7) (inner : M Reader α)
    (buf : List Byte) (hc : Complete e W buf) {n : Nat} (hi : tryFrom inner (payload e W buf) = .err (.incomplete n))
    (cs : List (List Byte)) :
    Gets (fromBytes (read native W e inner passOn)) atNextByte (buf, 0) cs (cs.map fun _ => [])
      (.waiting (buf ++ cs.flatten) 0) := by
  induction cs generalizing buf with
  | nil => rw [List.flatten_nil, List.append_nil]; exact .nil (x := (buf, 0))
  | cons c cs ih =>
    obtain ⟨_, h2, h3, _⟩ := hc.append c
    have hp : fromBytes (read native W e inner passOn) (buf ++ c) 0 = .err (.incomplete n) := by
      rw [fromBytes_read native e hW h7]
      unfold verdict
      rw [if_pos h2, h3]
      dsimp only
      rw [hi]
      rfl
    rw [List.flatten_cons, ← List.append_assoc]
    exact .piece (y := (buf ++ c, 0)) (.wait (x := (buf ++ c, 0)) hp) (ih (buf ++ c) h2 (by rw [h3]; exact hi))

theorem refuse_decided : Decided (refuse (α := α)) := by
  intro x n
  cases x with
  | ok => nofun
  | error => nofun

theorem keep_decided : Decided (keep (α := α)) := fun _ _ => nofun

/-! ## Examples -/

namespace Envelope.Example

open Deku.Example SourceExample

/-- `a: u8` and a list with `read_all`. -/
def openEnded : Ty :=
  ((STy.struct {} (.cons {} u8 (.cons { readAll := true } (.vec false u8) .nil))).compile.map (·.toTy mach)).getD u8T

/-- The answer of `C102_the_answer`: the rest is not taken by `read_all`. -/
example : fromBytes (read .little 2 .big (openEnded.read mach {}) refuse) [0, 3, 1, 2, 3, 9, 9] 0 =
    .ok (([9, 9], 0), .ofList [.num 1, .ofList [.num 2, .num 3]]) := by
  rw [C102_the_answer .little .big (by decide) (by decide)]
  decide +kernel

/-- A payload that is too short: refused, not `Incomplete`. -/
example : ¬ ∃ n, fromBytes (read .little 2 .big (openEnded.read mach {}) refuse) [0, 0] 0 = .err (.incomplete n) := by
  rw [C102_incomplete_iff_bytes_are_missing .little .big (by decide) (by decide) _ _ refuse_decided]
  decide

/-- A byte is missing. -/
example : ∃ n, fromBytes (read .little 2 .big (openEnded.read mach {}) refuse) [0, 3, 1, 2] 0 = .err (.incomplete n) := by
  rw [C102_incomplete_iff_bytes_are_missing .little .big (by decide) (by decide) _ _ refuse_decided]
  decide

def openValue (a : Nat) (xs : List Val) : Val := .ofList [.num a, .ofList xs]

theorem openEnded_written : toBytes (openEnded.write mach {} (openValue 1 [.num 2, .num 3])) = .ok [1, 2, 3] ∧
    toBytes (openEnded.write mach {} (openValue 7 [])) = .ok [7] := by decide +kernel

theorem openEnded_comes_back : ∀ v ∈ [openValue 1 [.num 2, .num 3], openValue 7 []], ∀ bs,
    toBytes (openEnded.write mach {} v) = .ok bs → tryFrom (openEnded.read mach {}) bs = .ok v := by
  intro v hv bs hb
  simp only [List.mem_cons, List.not_mem_nil, or_false] at hv
  obtain rfl | rfl := hv
  · rw [openEnded_written.1] at hb
    cases hb
    decide +kernel
  · rw [openEnded_written.2] at hb
    cases hb
    decide +kernel

/-- `C102_what_is_written`, `C102_round_trip`. -/
example (extra : List Byte) :
    fromBytes (read .little 2 .big (openEnded.read mach {}) refuse) ([0, 3, 1, 2, 3] ++ extra) 0 =
      .ok ((extra, 0), openValue 1 [.num 2, .num 3]) :=
  C102_round_trip .little .big (by decide) (by decide) _ (openEnded.write mach {} (openValue 1 [.num 2, .num 3])) _ rfl
    (openEnded_comes_back _ List.mem_cons_self)
    ((C102_what_is_written .little .big 2 _ _).2 ⟨[1, 2, 3], openEnded_written.1, by decide, by decide⟩) extra

/-- `C102_round_trip_as_a_field`. -/
example : SoundOn .lsb0 (· % 8 = 0) (read .little 2 .big (openEnded.read mach {}) refuse)
    (write .little 2 .big (openEnded.write mach {} (openValue 7 []))) (openValue 7 []) (· % 8 = 0) :=
  C102_round_trip_as_a_field .little .big (by decide) _ _ _ rfl
    (openEnded_comes_back _ (List.mem_cons_of_mem _ List.mem_cons_self)) .lsb0

/-- `C102_nested`: with a number of one byte, a payload of one byte fits in 255 envelopes, not in 256. -/
example : (∃ out, toBytes (writeNested .little 1 .big (openEnded.write mach {} (openValue 7 [])) 255) = .ok out ∧
      out.length = 256 ∧ tryFrom (readNested .little 1 .big (openEnded.read mach {}) refuse 255) out = .ok (openValue 7 [])) ∧
    toBytes (writeNested .little 1 .big (openEnded.write mach {} (openValue 7 [])) 256) = .err .parse := by
  have h := fun n => C102_nested .little .big (W := 1) (by decide) (by decide) (openEnded.read mach {})
    (openEnded.write mach {} (openValue 7 [])) refuse rfl openEnded_written.2
    (openEnded_comes_back _ (List.mem_cons_of_mem _ List.mem_cons_self) _ openEnded_written.2) n
  exact ⟨(h 255).1 (by decide), (h 256).2 (by decide) (by decide)⟩

/-- `C102_all_messages_are_delivered`: a type that C85 does not allow. -/
example (cs : List (List Byte)) (hc : cs.flatten = [0, 3, 1, 2, 3, 0, 1, 7]) :
    ∃ vss, Gets (fromBytes (read .little 2 .big (openEnded.read mach {}) refuse)) atNextByte ([], 0) cs vss (.waiting [] 0) ∧
      vss.flatten = [openValue 1 [.num 2, .num 3], openValue 7 []] :=
  C102_all_messages_are_delivered .little .big (by decide) (by decide) _ (fun v => openEnded.write mach {} v) refuse
    [openValue 1 [.num 2, .num 3], openValue 7 []] [[0, 3, 1, 2, 3], [0, 1, 7]]
    (by
      rw [List.map_cons, List.map_cons, toBytes_write, toBytes_write, openEnded_written.1, openEnded_written.2]
      decide)
    (fun _ _ => rfl) openEnded_comes_back cs hc

/-- `C102_payloads_are_delivered_when_they_are_complete`: half of the second one is there. -/
example : ∃ vss, Gets (fromBytes (read .little 2 .big (openEnded.read mach {}) refuse)) atNextByte ([], 0)
    [[0, 3, 1], [2, 3, 0]] vss (.waiting [0] 0) ∧ ∀ n, (vss.take n).flatten =
      (arrived [([0, 3, 1, 2, 3], openValue 1 [.num 2, .num 3]), ([0, 1, 7], openValue 7 [])]
        (([[0, 3, 1], [2, 3, 0]] : List (List Byte)).take n).flatten).1 := by
  refine C102_payloads_are_delivered_when_they_are_complete .little .big (by decide) (by decide) _ refuse
    [([1, 2, 3], openValue 1 [.num 2, .num 3]), ([7], openValue 7 [])] ?_ [[0, 3, 1], [2, 3, 0]] (by decide)
  intro x hx
  simp only [List.mem_cons, List.not_mem_nil, or_false] at hx
  obtain rfl | rfl := hx
  · exact ⟨by decide, by decide +kernel⟩
  · exact ⟨by decide, by decide +kernel⟩

/-- `C102_pieces_make_no_difference`. -/
example : ∃ vss s, Gets (fromBytes (read .little 2 .big (openEnded.read mach {}) refuse)) atNextByte ([], 0) [[0], [0]] vss s ∧
    (∀ wss t, Gets (fromBytes (read .little 2 .big (openEnded.read mach {}) refuse)) atNextByte ([], 0) [[0], [0]] wss t →
      wss = vss ∧ t = s) ∧
    Drains (fromBytes (read .little 2 .big (openEnded.read mach {}) refuse)) atNextByte ([0, 0], 0) vss.flatten s :=
  C102_pieces_make_no_difference .little .big (by decide) (by decide) _ refuse [] [[0], [0]] nofun

/-- `C102_a_bad_payload_harms_no_other`: an empty payload between two good ones. -/
example (cs : List (List Byte)) (hc : cs.flatten = [0, 1, 7, 0, 0, 0, 3, 1, 2, 3]) :
    ∃ vss, Gets (fromBytes (read .little 2 .big (openEnded.read mach {}) keep)) atNextByte ([], 0) cs vss (.waiting [] 0) ∧
      vss.flatten.map kept =
        [.ok (openValue 7 []), .err (.incomplete 8), .ok (openValue 1 [.num 2, .num 3])] := by
  have h := C102_a_bad_payload_harms_no_other .little .big (W := 2) (by decide) (by decide) (openEnded.read mach {})
    [[7], [], [1, 2, 3]] (by
      intro p hp
      simp only [List.mem_cons, List.not_mem_nil, or_false] at hp
      obtain rfl | rfl | rfl := hp <;> exact ⟨by decide, by decide +kernel⟩) cs hc
  rwa [show [[7], [], [1, 2, 3]].map (tryFrom (openEnded.read mach {})) =
    [.ok (openValue 7 []), .err (.incomplete 8), .ok (openValue 1 [.num 2, .num 3])] by decide +kernel] at h

end Envelope.Example

open Envelope.Example Example in
/-- **C102**: the same with `?`. The good message behind the empty one is never delivered. -/
theorem C102_a_short_payload_blocks_the_rest (cs : List (List Byte)) :
    Gets (fromBytes (read .little 2 .big (openEnded.read mach {}) passOn)) atNextByte ([0, 0, 0, 3, 1, 2, 3], 0) cs
      (cs.map fun _ => []) (.waiting ([0, 0, 0, 3, 1, 2, 3] ++ cs.flatten) 0) :=
  C102_question_mark_waits_for_ever .little .big (by decide) (by decide) _ _ (by decide) (n := 8) (by decide +kernel) cs

open Envelope.Example Example in
/-- **C102** is for numbers of up to seven bytes: with `u64` the number of bits is computed without a check
(src/impls/vec.rs:36), and nine bytes of input are enough for a panic. -/
theorem C102_a_number_of_eight_bytes_panics :
    fromBytes (read .little 8 .big (openEnded.read mach {}) refuse) [0x20, 0, 0, 0, 0, 0, 0, 0, 0] 0 = .panic := by
  decide +kernel

end Deku
