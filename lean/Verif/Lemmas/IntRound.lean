import Verif.Lemmas.IntWrite

/-! # Field values and field bits are inverse; signed writes -/

namespace Deku

namespace Prim

open Writer

/-! ### decoding what was encoded -/

theorem leGroups_leBits (n v : Nat) : leGroups (leBits n v) = v % 2 ^ n := by
  induction n using Nat.strongRecOn generalizing v with
  | _ n ih =>
    by_cases h : n ≤ 8
    · rw [leBits_short h, leGroups_short (by simpa using h), ofBits_bitsBE]
    · rw [leBits_long (by omega), leGroups_append 1 _ _ (by simp), leGroups_short (by simp),
        ih _ (by omega), ofBits_bitsBE, show n = 8 + (n - 8) by omega, Nat.pow_add,
        Nat.mod_mul, show 8 + (n - 8) - 8 = n - 8 by omega]

/-- The combinations for which a field value of every `n`-bit string of bits is a number below `2^n`:
all but a big endian Lsb0 field of more than one byte that does not fill whole bytes. -/
def Dense (e : Endian) (n : Nat) (o : Order) : Prop := o = .lsb0 → e = .big → n ≤ 8 ∨ n % 8 = 0

theorem Sound.dense {W : Nat} {e : Endian} {n : Nat} {o : Order} (h : Sound W e n o) :
    Dense e n o := fun h1 h2 => (h h1 h2).imp id (by omega)

theorem beGroups_short {l : List Bool} (h : l.length ≤ 8) : beGroups 0 l = ofBits l.reverse := by
  by_cases hl : l = []
  · subst hl; rw [beGroups_nil]; rfl
  · rw [beGroups_cons hl, List.take_of_length_le h, List.drop_eq_nil_of_le (as := l) h, beGroups_nil]
    simp

theorem fieldValue_fieldBits {e : Endian} {n : Nat} {o : Order} (h : Dense e n o) (v : Nat) :
    fieldValue e o (fieldBits e o n v) = v % 2 ^ n := by
  cases o <;> cases e
  · exact leGroups_leBits n v
  · exact ofBits_bitsBE n v
  · simp only [fieldValue, fieldBits, List.reverse_reverse, ofBits_bitsBE]
  · rcases h rfl rfl with h | h
    · rw [fieldBits_be_lsb_short h]
      simp only [fieldValue]
      rw [beGroups_short (by simpa using h), List.reverse_reverse, ofBits_bitsBE]
    · obtain ⟨k, rfl⟩ : ∃ k, n = 8 * k := ⟨n / 8, by omega⟩
      rw [fieldBits_be_lsb_full]
      simp only [fieldValue]
      rw [beGroups_bytes, beNat_toBE, Nat.zero_mul, Nat.zero_add, pow256]

/-! ### encoding what was decoded -/

theorem leBits_leGroups (l : List Bool) : leBits l.length (leGroups l) = l := by
  generalize hn : l.length = n
  induction n using Nat.strongRecOn generalizing l with
  | _ n ih =>
    by_cases h : n ≤ 8
    · rw [leBits_short h, leGroups_short (by omega), bitsBE_ofBits' _ _ hn]
    · have ht : (l.take 8).length = 8 := by simp; omega
      have hlt : ofBits (l.take 8) < 256 := by
        have := ofBits_lt (l.take 8)
        rwa [ht] at this
      rw [leBits_long (by omega), leGroups_long (by omega)]
      have h1 : (ofBits (l.take 8) + 256 * leGroups (l.drop 8)) / 256 = leGroups (l.drop 8) := by
        omega
      have h2 : bitsBE 8 (ofBits (l.take 8) + 256 * leGroups (l.drop 8)) = l.take 8 := by
        rw [bitsBE_congr 8 _ (ofBits (l.take 8)) (by omega), bitsBE_ofBits' _ _ ht]
      rw [h1, h2, ih (n - 8) (by omega) _ (by simp; omega), List.take_append_drop]

theorem fieldBits_fieldValue {e : Endian} {o : Order} {l : List Bool} (h : Dense e l.length o) :
    fieldBits e o l.length (fieldValue e o l) = l := by
  cases o <;> cases e
  · exact leBits_leGroups l
  · exact bitsBE_ofBits l
  · simp only [fieldValue, fieldBits]
    rw [← List.length_reverse, bitsBE_ofBits, List.reverse_reverse]
  · rcases h rfl rfl with h | h
    · rw [fieldBits_be_lsb_short h]
      simp only [fieldValue]
      rw [beGroups_short h, ← List.length_reverse, bitsBE_ofBits, List.reverse_reverse]
    · have ho := orderBits_bytesOf .lsb0 l h
      simp only [orderBits] at ho
      generalize bytesOf .lsb0 l = bs at ho
      subst ho
      simp only [fieldValue]
      rw [beGroups_bytes]
      simp only [length_bytesBitsLsb]
      rw [fieldBits_be_lsb_full]
      simp only [Nat.zero_mul, Nat.zero_add]
      rw [toBE_beNat]

theorem fieldValue_dense_lt {e : Endian} {o : Order} {l : List Bool} (h : Dense e l.length o) :
    fieldValue e o l < 2 ^ l.length := by
  have h1 := fieldBits_fieldValue h
  have h2 := fieldValue_fieldBits h (fieldValue e o l)
  rw [h1] at h2
  rw [h2]
  exact Nat.mod_lt _ (Nat.two_pow_pos _)

theorem fieldBits_mod {e : Endian} {o : Order} {n : Nat} (h : Dense e n o) (v : Nat) :
    fieldBits e o n (v % 2 ^ n) = fieldBits e o n v := by
  have hl := length_fieldBits e o n v
  have h1 := fieldBits_fieldValue (l := fieldBits e o n v) (by rw [hl]; exact h)
  rw [hl, fieldValue_fieldBits h] at h1
  exact h1

/-! ### two's complement -/

theorem pattern_nonneg {W : Nat} {v : Int} (h0 : 0 ≤ v) (h : v < (256 ^ W : Nat)) :
    (pattern W v : Int) = v := by
  rw [pattern, Int.emod_eq_of_lt h0 h]; omega

theorem pattern_neg {W : Nat} {v : Int} (h0 : v < 0) (h : -(256 ^ W : Nat) ≤ v) :
    (pattern W v : Int) = v + (256 ^ W : Nat) := by
  have h1 : v % (256 ^ W : Nat) = v + (256 ^ W : Nat) := by
    rw [← Int.add_emod_right]
    exact Int.emod_eq_of_lt (by omega) (by omega)
  rw [pattern, h1]; omega

theorem pattern_lt (W : Nat) (v : Int) : pattern W v < 256 ^ W := by
  have h : 0 < 256 ^ W := Nat.pow_pos (by omega)
  have h1 := Int.emod_lt_of_pos v (show (0 : Int) < (256 ^ W : Nat) by omega)
  have h2 := Int.emod_nonneg v (show ((256 ^ W : Nat) : Int) ≠ 0 by omega)
  rw [pattern]; omega

theorem two_pow_pred {n : Nat} (h : 1 ≤ n) : 2 ^ n = 2 * 2 ^ (n - 1) := by
  rw [← Nat.pow_succ']; congr 1; omega

/-- The range of a signed type. -/
theorem inRange_bounds {n : Nat} {v : Int} (h1 : 1 ≤ n) (h : InRange n v) :
    -(2 ^ n : Nat) ≤ 2 * v ∧ 2 * v < (2 ^ n : Nat) := by
  have := two_pow_pred h1
  obtain ⟨h2, h3⟩ := h
  omega

theorem inRange_iff {n : Nat} {v : Int} (h1 : 1 ≤ n) :
    InRange n v ↔ -(2 ^ n : Nat) ≤ 2 * v ∧ 2 * v < (2 ^ n : Nat) := by
  have := two_pow_pred h1
  simp only [InRange]
  omega

theorem twosComplement_inRange {n p : Nat} (h1 : 1 ≤ n) (hp : p < 2 ^ n) :
    InRange n (twosComplement n p) := by
  rw [inRange_iff h1, twosComplement]
  split <;> omega

/-- Truncating the bit pattern of a value in range to `n` bits and sign-extending gives it back. -/
theorem twosComplement_pattern {W n : Nat} {v : Int} (h1 : 1 ≤ n) (hW : n ≤ 8 * W)
    (h : InRange n v) : twosComplement n (pattern W v % 2 ^ n) = v := by
  obtain ⟨hl, hu⟩ := inRange_bounds h1 h
  have hle : 2 ^ n ≤ 256 ^ W := two_pow_le_pow hW
  obtain ⟨k, hk⟩ : 2 ^ n ∣ 256 ^ W := by
    rw [pow256]; exact Nat.pow_dvd_pow 2 hW
  rw [twosComplement]
  by_cases h0 : 0 ≤ v
  · have hp := pattern_nonneg (W := W) h0 (by omega)
    have : pattern W v % 2 ^ n = pattern W v := Nat.mod_eq_of_lt (by omega)
    rw [this]
    rw [if_pos (by omega), hp]
  · have hp := pattern_neg (W := W) (show v < 0 by omega) (by omega)
    have hk1 : 1 ≤ k := by
      rcases Nat.eq_zero_or_pos k with h | h
      · subst h
        have : 0 < 256 ^ W := Nat.pow_pos (by omega)
        omega
      · exact h
    have hq : pattern W v = (v + (2 ^ n : Nat)).toNat + 2 ^ n * (k - 1) := by
      have h3 : 2 ^ n * k = 2 ^ n * (k - 1) + 2 ^ n := by
        rw [← Nat.mul_succ]; congr 1; omega
      omega
    have : pattern W v % 2 ^ n = (v + (2 ^ n : Nat)).toNat := by
      rw [hq, Nat.add_mul_mod_self_left]
      exact Nat.mod_eq_of_lt (by omega)
    rw [this]
    rw [if_neg (by omega)]
    omega

/-- Conversely the bit pattern of a decoded value. -/
theorem pattern_twosComplement {W n p : Nat} (hW : n ≤ 8 * W) (hp : p < 2 ^ n) :
    pattern W (twosComplement n p) % 2 ^ n = p := by
  obtain ⟨k, hk⟩ : 2 ^ n ∣ 256 ^ W := by
    rw [pow256]; exact Nat.pow_dvd_pow 2 hW
  have hpos : 0 < 256 ^ W := Nat.pow_pos (by omega)
  have hint : ((pattern W (twosComplement n p) : Nat) : Int) =
      twosComplement n p % (256 ^ W : Nat) := by
    have := Int.emod_nonneg (twosComplement n p) (show ((256 ^ W : Nat) : Int) ≠ 0 by omega)
    rw [pattern]; omega
  have h2 : ((pattern W (twosComplement n p) % 2 ^ n : Nat) : Int) = (p : Int) % (2 ^ n : Nat) := by
    rw [Int.natCast_emod, hint, hk]
    rw [Int.natCast_mul, Int.emod_emod_of_dvd _ ⟨(k : Int), rfl⟩, twosComplement]
    split
    · rfl
    · rw [Int.sub_emod_right]
  rw [Int.emod_eq_of_lt (by omega) (by omega)] at h2
  omega

/-! ### the signed range checks -/

theorem firstZero_check {N n v : Nat} (h : n ≤ N) (hv : v < 2 ^ N) :
    (∃ f, firstZero (bitsBE N v) = some f ∧ N - n > f) ↔ v + 2 ^ n < 2 ^ N := by
  rw [firstZero]
  have := findIdx?_lt_iff (!·) (bitsBE N v) (N - n)
  have hd : 2 ^ N = 2 ^ (N - n) * 2 ^ n := by rw [← Nat.pow_add]; congr 1; omega
  have hlt : v / 2 ^ n < 2 ^ (N - n) := by
    rw [Nat.div_lt_iff_lt_mul (Nat.two_pow_pos n), ← hd]; exact hv
  rw [show (∃ f, List.findIdx? (!·) (bitsBE N v) = some f ∧ N - n > f) ↔ _ from this,
    any_not_iff_ofBits, take_bitsBE _ _ _ (by omega), ofBits_bitsBE, show N - (N - n) = n by omega,
    Nat.mod_eq_of_lt hlt, length_bitsBE]
  have hpos := Nat.two_pow_pos n
  constructor
  · intro hne
    have h1 : v / 2 ^ n + 1 < 2 ^ (N - n) := by
      generalize v / 2 ^ n = q at hlt hne ⊢
      generalize 2 ^ (N - n) = M at hlt hne ⊢
      omega
    have h2 := Nat.lt_mul_div_succ v hpos
    have h3 : (v / 2 ^ n + 2) * 2 ^ n ≤ 2 ^ (N - n) * 2 ^ n := Nat.mul_le_mul_right _ (by omega)
    rw [← hd] at h3
    have h4 : (v / 2 ^ n + 2) * 2 ^ n = 2 ^ n * (v / 2 ^ n + 1) + 2 ^ n := by
      rw [Nat.mul_comm, ← Nat.mul_succ]
    omega
  · intro hlt' heq
    have h2 : 2 ^ n * (v / 2 ^ n) ≤ v := Nat.mul_div_le v _
    rw [heq, Nat.mul_sub, Nat.mul_comm, ← hd] at h2
    omega

theorem last_check {p : Bool → Bool} {l : List Bool} {n : Nat} (h : n ≤ l.length) :
    (∃ f, (l.reverse.findIdx? p).map (fun i => l.length - 1 - i) = some f ∧ f + 1 > n) ↔
      ∃ f, l.reverse.findIdx? p = some f ∧ l.length - n > f := by
  constructor
  · rintro ⟨f, h1, h2⟩
    obtain ⟨i, h3, h4⟩ := Option.map_eq_some_iff.1 h1
    have := findIdx?_lt_length h3
    simp at this
    exact ⟨i, h3, by omega⟩
  · rintro ⟨i, h1, h2⟩
    exact ⟨l.length - 1 - i, by rw [h1]; rfl, by omega⟩

/-- The bits that decide whether a signed value fits. -/
theorem signedFirst_check {W n : Nat} {v : Int} (h1 : 1 ≤ n) (hW : n ≤ 8 * W)
    (hv : InRange (8 * W) v) :
    (∃ f, (if 0 ≤ v then firstOne (bitsBE (8 * W) (pattern W v))
      else firstZero (bitsBE (8 * W) (pattern W v))) = some f ∧ 8 * W - n + 1 > f) ↔
      ¬ InRange n v := by
  have hlt := pattern_lt W v
  rw [pow256] at hlt
  obtain ⟨hl, hu⟩ := inRange_bounds (by omega) hv
  have he : 8 * W - n + 1 = 8 * W - (n - 1) := by omega
  have h2 := two_pow_pred h1
  by_cases h0 : 0 ≤ v
  · have hp := pattern_nonneg (W := W) h0 (by rw [pow256]; omega)
    rw [if_pos h0, he, firstOne_check (by omega) hlt, inRange_iff h1]
    omega
  · have hp := pattern_neg (W := W) (show v < 0 by omega) (by rw [pow256]; omega)
    rw [if_neg h0, he, firstZero_check (by omega) hlt, inRange_iff h1]
    rw [pow256] at hp
    omega

theorem checkFirst_run {max : Nat} {o : Option Nat} {w : Writer} {k : M Writer Unit} (c : Prop)
    [Decidable c] (h : (∃ f, o = some f ∧ max > f) ↔ ¬ c) :
    (checkFirst max o >>= fun _ => k) w = if c then k w else (.err .invalidParam, w) := by
  cases o with
  | none => rw [if_pos (Classical.not_not.1 (fun hc => by simpa using h.2 hc))]; rfl
  | some f =>
    by_cases hlt : max > f
    · rw [if_neg (h.1 ⟨f, rfl, hlt⟩)]
      simp only [checkFirst, if_pos hlt]; rfl
    · rw [if_pos (Classical.not_not.1 (fun hc => by
        obtain ⟨f', h1, h2⟩ := h.2 hc
        cases h1; omega))]
      simp only [checkFirst, if_neg hlt]; rfl

theorem checkLast_run {extra max : Nat} {o : Option Nat} {w : Writer} {k : M Writer Unit} (c : Prop)
    [Decidable c] (h : (∃ f, o = some f ∧ f + extra > max) ↔ ¬ c) :
    (checkLast extra max o >>= fun _ => k) w = if c then k w else (.err .invalidParam, w) := by
  cases o with
  | none => rw [if_pos (Classical.not_not.1 (fun hc => by simpa using h.2 hc))]; rfl
  | some f =>
    by_cases hlt : f + extra > max
    · rw [if_neg (h.1 ⟨f, rfl, hlt⟩)]
      simp only [checkLast, if_pos hlt]; rfl
    · rw [if_pos (Classical.not_not.1 (fun hc => by
        obtain ⟨f', h1, h2⟩ := h.2 hc
        cases h1; omega))]
      simp only [checkLast, if_neg hlt]; rfl

instance (n : Nat) (v : Int) : Decidable (InRange n v) := by unfold InRange; infer_instance

/-- A signed bit field (no bit order given): refused when out of range, otherwise the low `n` bits of
the bit pattern. -/
theorem writeSignedBits_run {W n : Nat} {e : Endian} {v : Int} {w : Writer} (h1 : 1 ≤ n)
    (hW : n ≤ 8 * W) (hv : InRange (8 * W) v) :
    writeSignedBits W e n v w =
      if InRange n v then
        match e with
        | .little => writeLoop .msb0 (toLE W (pattern W v)) n w
        | .big => Writer.writeBits (bitsBE n (pattern W v)) w
      else (.err .invalidParam, w) := by
  have hlen : (bytesBits (endianBytes W e (pattern W v))).length = 8 * W := by
    cases e <;> simp [endianBytes]
  simp only [writeSignedBits, hlen]
  rw [if_neg (by omega)]
  have hc := signedFirst_check h1 hW hv
  cases e
  · simp only [endianBytes]
    refine checkLast_run (InRange n v) ?_
    rw [← hc]
    have hl : (bytesBitsLsb (toLE W (pattern W v))).length = 8 * W := by simp
    have h2 : ∀ o : Option Nat, (∃ f, o = some f ∧ f + 2 > n) ↔ ∃ f, o = some f ∧ f + 1 > n - 1 := by
      intro o
      constructor <;> rintro ⟨f, h3, h4⟩ <;> exact ⟨f, h3, by omega⟩
    rw [h2]
    have hr : (bytesBitsLsb (toLE W (pattern W v))).reverse = bitsBE (8 * W) (pattern W v) := by
      rw [bytesBitsLsb_toLE, List.reverse_reverse]
    by_cases h0 : 0 ≤ v
    · rw [if_pos h0, if_pos h0, lastOne, last_check (by omega), hl, hr,
        show 8 * W - (n - 1) = 8 * W - n + 1 by omega]
      rfl
    · rw [if_neg h0, if_neg h0, lastZero, last_check (by omega), hl, hr,
        show 8 * W - (n - 1) = 8 * W - n + 1 by omega]
      rfl
  · simp only [endianBytes, bytesBits_toBE]
    rw [checkFirst_run (InRange n v) hc, drop_bitsBE, show 8 * W - (8 * W - n) = n by omega]

theorem writeSignedBits_refuses {W n : Nat} (e : Endian) {v : Int} (w : Writer)
    (hv : InRange (8 * W) v) (h : 8 * W < n ∨ (1 ≤ n ∧ ¬ InRange n v)) :
    writeSignedBits W e n v w = (.err .invalidParam, w) := by
  by_cases hn : 8 * W < n
  · have hlen : (bytesBits (endianBytes W e (pattern W v))).length = 8 * W := by
      cases e <;> simp [endianBytes]
    simp only [writeSignedBits, hlen]
    rw [if_pos hn]; rfl
  · have h' := h.resolve_left hn
    rw [writeSignedBits_run h'.1 (by omega) hv, if_neg h'.2]

theorem writeSignedBits_done {W n : Nat} {e : Endian} {v : Int} {w : Writer} (hw : w.WF)
    (hr : w.tag = .msb0) (h1 : 1 ≤ n) (hW : n ≤ 8 * W) (hv : InRange (8 * W) v)
    (hn : InRange n v) :
    Done .msb0 (fieldBits e .msb0 n (pattern W v)) .msb0 w (writeSignedBits W e n v w) := by
  rw [writeSignedBits_run h1 hW hv, if_pos hn]
  cases e
  · simp only
    rw [← loopBits_le .msb0 _ hW]
    exact writeLoop_done hw _ _ (.inl hr)
  · exact writeBitsOrder_done hw .msb0 _ (.inl hr)

end Prim

end Deku
