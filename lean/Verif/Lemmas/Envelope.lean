import Verif.Spec.Envelope
import Verif.Lemmas.Wire
import Verif.Lemmas.FromBytes
import Verif.Lemmas.Receive

/-! # A message inside another one -/

namespace Deku

open Reader Writer

variable {α β : Type}

theorem Reader.At.rest_eq {r : Reader} {p : Nat} {o : Order} {bs : List Byte} (hr : r.At p) (hp : p % 8 = 0)
    (hu : r.unread o = orderBits o bs) (o' : Order) : r.unread o' = orderBits o' bs := by
  have h0 : r.At 0 := hr.congr hp
  rw [h0.unread_aligned] at hu ⊢
  rw [orderBits_inj o hu]

namespace Envelope

/-- The number of a header. -/
theorem header_run (native e : Endian) {W : Nat} (hW : 1 ≤ W) (data : List Byte) :
    (W ≤ data.length → ∃ r, Prim.readUnsigned native W (.endian e) (Reader.new { data := data }) =
        (.ok (announced e W data), r) ∧ r.At 0 ∧ r.bitsRead = 8 * W ∧ ∀ o, r.unread o = orderBits o (data.drop W)) ∧
    (¬ W ≤ data.length → ∃ r, Prim.readUnsigned native W (.endian e) (Reader.new { data := data }) =
        (.err (.incomplete (8 * W)), r)) := by
  have h := Prim.readWhole_delivers (W := W) e hW (Reader.new { data := data }) (Reader.new_at data).healthy
    (Reader.new_at data).wf
  rw [Reader.new_unread, length_orderBits] at h
  refine ⟨fun hl => ?_, fun hl => ?_⟩
  · obtain ⟨r, e1, s⟩ := h.1 (by omega)
    rw [take_orderBits, ← Prim.endianNat_bytesOf _ _ _ (by rw [length_orderBits]; omega), Prim.bytesOf_orderBits] at e1
    have ha : r.At (0 + 8 * W) := (Reader.new_at data).step s
    refine ⟨r, e1, ha.congr (by omega), by rw [s.bitsRead]; simp [Reader.new], fun o => ?_⟩
    refine ha.rest_eq (by omega) (o := .msb0) ?_ o
    rw [s.unread, Reader.new_unread, drop_orderBits]
  · obtain ⟨k, r, e1, _, hk, _⟩ := h.2 (by omega)
    rw [hk (Reader.new_at data).noPeek] at e1
    exact ⟨r, e1⟩

theorem announced_lt (e : Endian) (W : Nat) (data : List Byte) : announced e W data < 256 ^ W := by
  have h : endianNat e (data.take W) < 256 ^ (data.take W).length := by
    cases e
    · exact leNat_lt _
    · rw [endianNat, ← leNat_reverse, ← List.length_reverse]; exact leNat_lt _
  refine Nat.lt_of_lt_of_le h (Nat.pow_le_pow_right (by decide) ?_)
  rw [List.length_take]; omega

/-- The complete answer, for every input. -/
theorem fromBytes_read (native e : Endian) {W : Nat} (hW : 1 ≤ W) (h7 : W ≤ 7) (inner : M Reader α)
    (judge : Except DekuError α → Except DekuError β) (data : List Byte) :
    fromBytes (read native W e inner judge) data 0 = verdict e W (fun bs => handed judge (tryFrom inner bs)) data := by
  unfold fromBytes
  rw [readFrom_zero]
  obtain ⟨h1, h2⟩ := header_run native e hW data
  unfold read verdict
  by_cases hl : W ≤ data.length
  · obtain ⟨r, e1, hr, hb, hu⟩ := h1 hl
    rw [M.bind_ok e1]
    have hun := hu .lsb0
    by_cases hn : W + announced e W data ≤ data.length
    · rw [if_pos ⟨hl, hn⟩]
      obtain ⟨r', e2, s⟩ := readExact_ok (n := announced e W data) hr (by
        rw [hun, length_orderBits, List.length_drop]; omega)
      rw [hun, take_orderBits, Prim.bytesOf_orderBits] at e2
      rw [M.bind_ok e2]
      have hbits : r'.bitsRead = 8 * (W + announced e W data) := by rw [s.bitsRead, hb]; omega
      change (match (match handed judge (tryFrom inner (payload e W data)) with
        | .ok v => pure v
        | .err x => M.throw x
        | .panic => M.panic : M Reader β) r' with
        | (.ok v, r) => _
        | (.err e, _) => _
        | (.panic, _) => _) = _
      dsimp only
      cases handed judge (tryFrom inner (payload e W data)) with
      | ok v =>
        simp only [M.pure_run]
        rw [hbits, Nat.mul_div_cancel_left _ (by decide), if_pos hn, Nat.mul_mod_right]
        rfl
      | err x => rfl
      | panic => rfl
    · rw [if_neg (fun h => hn h.2), if_neg (by omega)]
      have h64 : 8 * announced e W data < 2 ^ 64 := by
        have := announced_lt e W data
        have h256 : (256 : Nat) ^ W ≤ 256 ^ 7 := Nat.pow_le_pow_right (by decide) h7
        have : (256 : Nat) ^ 7 = 2 ^ 56 := by decide
        omega
      have e2 := readExact_short (n := announced e W data) hr (by
        rw [hun, length_orderBits, List.length_drop]; omega) h64
      rw [M.bind_err e2]
  · obtain ⟨r, e1⟩ := h2 hl
    rw [if_neg (fun h => hl h.1), if_pos (by omega), M.bind_err e1]

/-! ### Writing -/

theorem length_header (W n : Nat) (e : Endian) : (endianBytes W e n).length = W := by
  cases e <;> simp [endianBytes]

theorem length_sealed (e : Endian) (W : Nat) (bs : List Byte) : (sealed e W bs).length = W + bs.length := by
  rw [sealed, List.length_append, length_header]

theorem announced_sealed {e : Endian} {W : Nat} {bs : List Byte} (h : bs.length < 256 ^ W) (extra : List Byte) :
    announced e W (sealed e W bs ++ extra) = bs.length := by
  unfold announced sealed
  rw [List.append_assoc, List.take_append_of_le_length (by rw [length_header]; omega),
    List.take_of_length_le (by rw [length_header]; omega)]
  cases e
  · simp only [endianNat, endianBytes, leNat_toLE, Nat.mod_eq_of_lt h]
  · simp only [endianNat, endianBytes, beNat_toBE, Nat.mod_eq_of_lt h]

theorem complete_sealed {e : Endian} {W : Nat} {bs : List Byte} (h : bs.length < 256 ^ W) (extra : List Byte) :
    Complete e W (sealed e W bs ++ extra) := by
  unfold Complete
  rw [announced_sealed h, List.length_append, length_sealed]
  omega

theorem payload_sealed {e : Endian} {W : Nat} {bs : List Byte} (h : bs.length < 256 ^ W) (extra : List Byte) :
    payload e W (sealed e W bs ++ extra) = bs := by
  unfold payload
  rw [announced_sealed h]
  unfold sealed
  have hl := length_header W bs.length e
  rw [List.append_assoc, List.drop_append_of_le_length (by omega), List.drop_of_length_le (by omega), List.nil_append,
    List.take_left]

theorem behind_sealed {e : Endian} {W : Nat} {bs : List Byte} (h : bs.length < 256 ^ W) (extra : List Byte) :
    behind e W (sealed e W bs ++ extra) = extra := by
  unfold behind
  rw [announced_sealed h, ← length_sealed e, List.drop_left]

theorem verdict_sealed {e : Endian} {W : Nat} {bs : List Byte} {answer : List Byte → Res β} {v : β}
    (h : bs.length < 256 ^ W) (ha : answer bs = .ok v) (extra : List Byte) :
    verdict e W answer (sealed e W bs ++ extra) = .ok ((extra, 0), v) := by
  unfold verdict
  rw [if_pos (complete_sealed h extra), payload_sealed h, ha, behind_sealed h]

theorem write_writes (native e : Endian) {W : Nat} {inner : M Writer Unit} {bs : List Byte} (hb : toBytes inner = .ok bs)
    (h : bs.length < 256 ^ W) {o : Order} {p : Nat} (hp : o = .lsb0 → p % 8 = 0) :
    Writes o p (write native W e inner) (orderBits o (sealed e W bs)) := by
  unfold write
  rw [hb]
  dsimp only
  rw [if_pos h, sealed, orderBits_append]
  refine Writes.bind (writeBytes_writes _ hp) (writeBytes_writes bs fun ho => ?_)
  rw [length_orderBits]
  have := hp ho
  omega

theorem toBytes_write (native e : Endian) (W : Nat) (inner : M Writer Unit) :
    toBytes (write native W e inner) = match toBytes inner with
      | .ok bs => if bs.length < 256 ^ W then .ok (sealed e W bs) else .err .parse
      | .err x => .err x
      | .panic => .panic := by
  cases hb : toBytes inner with
  | ok bs =>
    dsimp only
    by_cases h : bs.length < 256 ^ W
    · rw [if_pos h]
      obtain ⟨out, e1, e2⟩ := (write_writes native e hb h (o := .msb0) (p := 0) (fun _ => rfl)).toBytes
      rw [length_orderBits, show (8 - 8 * (sealed e W bs).length % 8) % 8 = 0 by omega, List.replicate_zero,
        List.append_nil] at e2
      rw [e1, orderBits_inj _ e2]
    · rw [if_neg h]
      simp only [write, hb, if_neg h]
      rfl
  | err x => simp only [write, hb]; rfl
  | panic => simp only [write, hb]; rfl

theorem tryFrom_of_fromBytes {f : M Reader α} {data : List Byte} {v : α} (h : fromBytes f data 0 = .ok (([], 0), v)) :
    tryFrom f data = .ok v := by
  unfold fromBytes at h
  unfold tryFrom fromReader
  rcases e : readFrom f 0 (Reader.new { data := data }) with ⟨x, r⟩
  rw [e] at h
  cases x with
  | ok w =>
    dsimp only at h ⊢
    split at h
    · rename_i hl
      simp only [Res.ok.injEq, Prod.mk.injEq, List.drop_eq_nil_iff] at h
      obtain ⟨⟨h1, _⟩, rfl⟩ := h
      rw [if_neg (by omega), if_neg (by omega)]
    · cases h
  | err x => cases h
  | panic => cases h

theorem handed_ok {judge : Except DekuError α → Except DekuError β} {v : α} {w : β} (h : judge (.ok v) = .ok w) :
    handed judge (.ok v) = .ok w := by
  simp only [handed, h]

/-- Reading back, wherever a byte starts. -/
theorem read_reads (native e : Endian) {W : Nat} (hW : 1 ≤ W) {inner : M Reader α}
    {judge : Except DekuError α → Except DekuError β} {bs : List Byte} {v : β}
    (h : bs.length < 256 ^ W) (hv : handed judge (tryFrom inner bs) = .ok v) {o : Order} {p : Nat} (hp : p % 8 = 0) :
    Reads o p (read native W e inner judge) (orderBits o (sealed e W bs)) v := by
  refine Reads.switch (o := .msb0) hp ?_
  unfold read
  rw [sealed, orderBits_append, ← List.append_nil (orderBits .msb0 bs)]
  have hd := (Prim.readWhole_delivers (W := W) e hW).reads (bits := orderBits .msb0 (endianBytes W e bs.length))
    (by rw [length_orderBits, length_header]) p
  rw [← Prim.endianNat_bytesOf _ _ _ (by rw [length_orderBits]; omega), Prim.bytesOf_orderBits] at hd
  have hn : endianNat e (endianBytes W e bs.length) = bs.length := by
    have := announced_sealed (e := e) h []
    unfold announced sealed at this
    rwa [List.append_nil, List.take_left' (length_header W bs.length e)] at this
  rw [hn] at hd
  refine hd.bind ((readExact_reads (by rw [length_orderBits]; omega) bs).bind ?_)
  rw [hv]
  exact Reads.pure _ _ _

/-! ### Envelopes in envelopes -/

theorem length_sealedNested (e : Endian) (W : Nat) (bs : List Byte) (n : Nat) :
    (sealedNested e W bs n).length = n * W + bs.length := by
  induction n with
  | zero => simp [sealedNested]
  | succ n ih => rw [sealedNested, length_sealed, ih, Nat.succ_mul]; omega

theorem toBytes_writeNested (native e : Endian) {W : Nat} {inner : M Writer Unit} {bs : List Byte}
    (hb : toBytes inner = .ok bs) (n : Nat) :
    toBytes (writeNested native W e inner n) =
      if n = 0 ∨ (n - 1) * W + bs.length < 256 ^ W then .ok (sealedNested e W bs n) else .err .parse := by
  induction n with
  | zero => simp [writeNested, sealedNested, hb]
  | succ n ih =>
    rw [writeNested, toBytes_write, ih]
    by_cases h : n * W + bs.length < 256 ^ W
    · have h' : n = 0 ∨ (n - 1) * W + bs.length < 256 ^ W := by
        refine .inr (Nat.lt_of_le_of_lt ?_ h)
        exact Nat.add_le_add_right (Nat.mul_le_mul_right _ (Nat.sub_le _ _)) _
      rw [if_pos h', if_pos (.inr (by simpa using h))]
      dsimp only
      rw [length_sealedNested, if_pos h, sealedNested]
    · rw [if_neg (c := n + 1 = 0 ∨ _) (by simpa using h)]
      by_cases h' : n = 0 ∨ (n - 1) * W + bs.length < 256 ^ W
      · rw [if_pos h']
        dsimp only
        rw [length_sealedNested, if_neg h]
      · rw [if_neg h']

theorem readNested_sealed (native e : Endian) {W : Nat} (hW : 1 ≤ W) (h7 : W ≤ 7) {inner : M Reader α}
    {judge : Except DekuError α → Except DekuError α} {bs : List Byte} {v : α} (hv : tryFrom inner bs = .ok v)
    (hj : judge (.ok v) = .ok v) (n : Nat) (h : n = 0 ∨ (n - 1) * W + bs.length < 256 ^ W) :
    tryFrom (readNested native W e inner judge n) (sealedNested e W bs n) = .ok v := by
  induction n with
  | zero => exact hv
  | succ n ih =>
    have h1 : n * W + bs.length < 256 ^ W := by simpa using h
    have h2 : n = 0 ∨ (n - 1) * W + bs.length < 256 ^ W :=
      .inr (Nat.lt_of_le_of_lt (Nat.add_le_add_right (Nat.mul_le_mul_right _ (Nat.sub_le _ _)) _) h1)
    refine tryFrom_of_fromBytes ?_
    rw [readNested, fromBytes_read native e hW h7]
    have := verdict_sealed (e := e) (W := W) (bs := sealedNested e W bs n)
      (answer := fun b => handed judge (tryFrom (readNested native W e inner judge n) b)) (v := v)
      (by rw [length_sealedNested]; exact h1) (by rw [ih h2]; exact handed_ok hj) []
    rw [List.append_nil] at this
    exact this

/-! ### Receiving -/

theorem Complete.append {e : Endian} {W : Nat} {a : List Byte} (h : Complete e W a) (b : List Byte) :
    announced e W (a ++ b) = announced e W a ∧ Complete e W (a ++ b) ∧ payload e W (a ++ b) = payload e W a ∧
      behind e W (a ++ b) = behind e W a ++ b := by
  have hn : announced e W (a ++ b) = announced e W a := by
    unfold announced; rw [List.take_append_of_le_length h.1]
  obtain ⟨h1, h2⟩ := h
  refine ⟨hn, ?_, ?_, ?_⟩
  · unfold Complete; rw [hn, List.length_append]; omega
  · unfold payload
    rw [hn, List.drop_append_of_le_length h1, List.take_append_of_le_length (by rw [List.length_drop]; omega)]
  · unfold behind; rw [hn, List.drop_append_of_le_length h2]

theorem verdict_append {e : Endian} {W : Nat} (answer : List Byte → Res β) {a : List Byte} (h : Complete e W a)
    (b : List Byte) : verdict e W answer (a ++ b) = match verdict e W answer a with
      | .ok (y, v) => .ok ((y.1 ++ b, y.2), v)
      | .err x => .err x
      | .panic => .panic := by
  obtain ⟨_, h2, h3, h4⟩ := h.append b
  unfold verdict
  rw [if_pos h, if_pos h2, h3, h4]
  cases answer (payload e W a) <;> rfl

/-- `from_bytes`, at the start of a byte; nobody asks for more. -/
def parse0 (e : Endian) (W : Nat) (answer : List Byte → Res β) (data : List Byte) (off : Nat) :
    Res ((List Byte × Nat) × β) := if off = 0 then verdict e W answer data else .panic

theorem verdict_ok {e : Endian} {W : Nat} {answer : List Byte → Res β} {data rest : List Byte} {bit : Nat} {v : β}
    (h : verdict e W answer data = .ok ((rest, bit), v)) :
    Complete e W data ∧ answer (payload e W data) = .ok v ∧ rest = behind e W data ∧ bit = 0 := by
  unfold verdict at h
  split at h
  · rename_i hc
    split at h
    · rename_i w hw
      cases h
      exact ⟨hc, hw, rfl, rfl⟩
    · cases h
    · cases h
  · cases h

theorem verdict_waits {e : Endian} {W : Nat} (answer : List Byte → Res β) {data : List Byte} (h : ¬ Complete e W data) :
    ∃ n, verdict e W answer data = .err (.incomplete n) := by
  unfold verdict
  rw [if_neg h]
  exact ⟨_, rfl⟩

theorem parse0_cuts (e : Endian) (W : Nat) (answer : List Byte → Res β) :
    Cuts (fun _ => True) (parse0 e W answer) where
  mono _ _ := trivial
  cut a b off _ _ := by
    unfold parse0
    by_cases h0 : off = 0
    · rw [if_pos h0, if_pos h0]
      by_cases hc : Complete e W a
      · rw [verdict_append answer hc]
        rcases verdict e W answer a with ⟨⟨⟨rest, bit⟩, v⟩⟩ | x | _
        · exact .inr (.inl ⟨rest, bit, v, rfl, rfl⟩)
        · exact .inr (.inr (.inl ⟨x, rfl, rfl⟩))
        · exact .inr (.inr (.inr ⟨rfl, rfl⟩))
      · exact .inl (verdict_waits answer hc)
    · rw [if_neg h0, if_neg h0]
      exact .inr (.inr (.inr ⟨rfl, rfl⟩))
  rest := by
    intro data off rest bit v h
    unfold parse0 at h
    split at h
    · obtain ⟨_, _, rfl, rfl⟩ := verdict_ok h
      exact ⟨by simp [behind], by decide, fun h => absurd rfl h⟩
    · cases h

theorem parse0_eats {e : Endian} {W : Nat} (hW : 1 ≤ W) {answer : List Byte → Res β} (data : List Byte) (off : Nat)
    (rest : List Byte) (bit : Nat) (v : β) (h : parse0 e W answer data off = .ok ((rest, bit), v)) :
    bit < 8 ∧ 8 * rest.length - bit < 8 * data.length - off := by
  unfold parse0 at h
  split at h
  · obtain ⟨hc, _, rfl, rfl⟩ := verdict_ok h
    have := hc.1
    simp only [behind, List.length_drop]
    omega
  · cases h

theorem parse0_sent {e : Endian} {W : Nat} (hW : 1 ≤ W) {answer : List Byte → Res β} {bs : List Byte} {v : β}
    (h : bs.length < 256 ^ W) (hv : answer bs = .ok v) : Sent (parse0 e W answer) atNextByte (sealed e W bs) v where
  nonempty hn := by
    have := congrArg List.length hn
    rw [length_sealed, List.length_nil] at this
    omega
  whole extra := ⟨(extra, 0), verdict_sealed h hv extra, rfl⟩
  part a b hab hb := by
    refine verdict_waits answer fun hc => ?_
    have h1 := (hc.append b).1
    rw [← hab, ← List.append_nil (sealed e W bs), announced_sealed h] at h1
    have h2 := hc.2
    have h3 := congrArg List.length hab
    rw [length_sealed, List.length_append] at h3
    have := List.length_pos_iff.2 hb
    omega

end Envelope

section
variable {parse parse' : List Byte → Nat → Res ((List Byte × Nat) × α)}

theorem atNextByte_off (y : List Byte × Nat) : (atNextByte y).2 = 0 := by
  unfold atNextByte
  split
  · assumption
  · rfl

/-- A program that starts at a byte and goes on at the next byte only asks there. -/
theorem Drains.congr (h : ∀ data, parse data 0 = parse' data 0) {x : List Byte × Nat} {vs : List α} {s : Status}
    (d : Drains parse atNextByte x vs s) (h0 : x.2 = 0) :
    Drains parse' atNextByte x vs s ∧ ∀ buf off, s = .waiting buf off → off = 0 := by
  induction d with
  | message e _ ih =>
    obtain ⟨i1, i2⟩ := ih (atNextByte_off _)
    refine ⟨.message ?_ i1, i2⟩
    rw [h0] at e ⊢
    rw [← h, e]
  | @wait x n e =>
    refine ⟨.wait (n := n) ?_, fun buf off hs => by cases hs; exact h0⟩
    rw [h0] at e ⊢
    rw [← h, e]
  | fail e he =>
    refine ⟨.fail ?_ he, nofun⟩
    rw [h0] at e ⊢
    rw [← h, e]
  | panic e =>
    refine ⟨.panic ?_, nofun⟩
    rw [h0] at e ⊢
    rw [← h, e]

theorem Gets.congr (h : ∀ data, parse data 0 = parse' data 0) {x : List Byte × Nat} {cs : List (List Byte)}
    {vss : List (List α)} {s : Status} (g : Gets parse atNextByte x cs vss s) (h0 : x.2 = 0) :
    Gets parse' atNextByte x cs vss s := by
  induction g with
  | nil => exact .nil
  | piece d _ ih =>
    obtain ⟨d', hw⟩ := d.congr h h0
    exact .piece d' (ih (hw _ _ rfl))
  | stop d hs => exact .stop (d.congr h h0).1 hs
end

end Deku
