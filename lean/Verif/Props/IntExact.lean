import Verif.Lemmas.Sint
import Verif.Props.Int

/-!
# What comes back where C17, C18, C19, C22 and C24 are false

The counterexamples in `Props.Int` show that some fields do not come back as written. Here it is determined
for every accepted value what comes back, and so exactly which fields and values round-trip.
-/

namespace Deku

open Prim Writer Reader

/-! ## C18, C19, C24: signed fields -/

theorem twosComplement_dvd (n p : Nat) : ((2 ^ n : Nat) : Int) ∣ twosComplement n p - p := by
  unfold twosComplement
  split
  · simp
  · exact ⟨-1, by omega⟩

theorem pattern_dvd (W : Nat) (v : Int) : ((2 ^ (8 * W) : Nat) : Int) ∣ pattern W v - v := by
  have h : ((pattern W v : Nat) : Int) = v % ((2 ^ (8 * W) : Nat) : Int) := by
    unfold pattern
    rw [Prim.pow256]
    have := Int.emod_nonneg v (b := ((2 ^ (8 * W) : Nat) : Int)) (by
      have := Nat.two_pow_pos (8 * W); omega)
    omega
  rw [h]
  exact ⟨-(v / ((2 ^ (8 * W) : Nat) : Int)), by have := Int.mul_ediv_add_emod v ((2 ^ (8 * W) : Nat) : Int); rw [Int.mul_neg]; omega⟩

theorem natCast_two_pow_dvd {n N : Nat} (h : n ≤ N) : ((2 ^ n : Nat) : Int) ∣ ((2 ^ N : Nat) : Int) := by
  exact_mod_cast Nat.pow_dvd_pow 2 h

theorem mod_dvd (n p : Nat) : ((2 ^ n : Nat) : Int) ∣ ((p % 2 ^ n : Nat) : Int) - p := by
  refine ⟨-((p / 2 ^ n : Nat) : Int), ?_⟩
  have := Nat.div_add_mod p (2 ^ n)
  rw [Int.mul_neg]
  have h : (((2 ^ n) * (p / 2 ^ n) + p % 2 ^ n : Nat) : Int) = p := by rw [this]
  rw [Int.natCast_add, Int.natCast_mul] at h
  omega

/-- What the reader makes of the bits of an accepted signed value: the number with the same `n` low bits that
is in the range the reader uses, two's complement if it extends the sign or the field fills its type, and
non-negative otherwise. -/
theorem signed_back {native e : Endian} {W n p : Nat} {o : Order} {ctx : IntCtx} {v : Int} (hW : 1 ≤ W)
    (hs : ctx.sshape native W = (e, n, o)) (h1 : 1 ≤ n) (hn : n ≤ 8 * W) (hv : InRange (8 * W) v)
    (ha : ctx.Accepts W n v) (hc : Compatible native W ctx p) :
    ∃ bits u, bits.length = n ∧ Writes o p (writeSigned native W ctx v) bits ∧
      Reads o p (readSigned native W ctx) bits u ∧ ((2 ^ n : Nat) : Int) ∣ u - v ∧
      (if ctx.extends = true ∨ n = 8 * W then InRange n u else 0 ≤ u ∧ u < (2 ^ n : Nat)) := by
  have hd := sshape_dense hs hc
  have hr := (readSigned_delivers hW hs h1 hn).reads (length_fieldBits e o n (pattern W v)) p
  rw [fieldValue_fieldBits hd, Nat.mod_mod] at hr
  refine ⟨_, _, length_fieldBits .., writeSigned_writes hs h1 hn hv ha hc, hr, ?_, ?_⟩
  · have h2 : ((2 ^ n : Nat) : Int) ∣ ((pattern W v % 2 ^ n : Nat) : Int) - v := by
      have := Int.dvd_add (mod_dvd n (pattern W v)) (Int.dvd_trans (natCast_two_pow_dvd hn) (pattern_dvd W v))
      rwa [show ((pattern W v % 2 ^ n : Nat) : Int) - (pattern W v : Nat) + ((pattern W v : Nat) - v) =
        ((pattern W v % 2 ^ n : Nat) : Int) - v by omega] at this
    split
    · have := Int.dvd_add (twosComplement_dvd n (pattern W v % 2 ^ n)) h2
      rwa [show ∀ a b c : Int, a - b + (b - c) = a - c by intros; omega] at this
    · have := Int.dvd_add (Int.dvd_trans (natCast_two_pow_dvd hn) (twosComplement_dvd (8 * W) (pattern W v % 2 ^ n))) h2
      rwa [show ∀ a b c : Int, a - b + (b - c) = a - c by intros; omega] at this
  · have hlt : pattern W v % 2 ^ n < 2 ^ n := Nat.mod_lt _ (Nat.two_pow_pos n)
    by_cases hx : ctx.extends = true
    · rw [if_pos (.inl hx), if_pos hx]
      exact twosComplement_inRange h1 hlt
    · rw [if_neg hx]
      by_cases hf : n = 8 * W
      · rw [if_pos (.inr hf), ← hf]
        exact twosComplement_inRange h1 hlt
      · rw [if_neg (by simp [hx, hf])]
        have hp : 2 * 2 ^ n ≤ 2 ^ (8 * W) := by
          rw [← Nat.pow_succ']; exact Nat.pow_le_pow_right (by omega) (by omega)
        unfold twosComplement
        rw [if_pos (by omega)]
        constructor <;> omega

/-- Two numbers of one range with the same low bits are equal. -/
theorem eq_of_dvd_of_range {n : Nat} {u v lo : Int} (hd : ((2 ^ n : Nat) : Int) ∣ u - v)
    (hu : lo ≤ u ∧ u < lo + (2 ^ n : Nat)) (hv : lo ≤ v ∧ v < lo + (2 ^ n : Nat)) : u = v := by
  obtain ⟨k, hk⟩ := hd
  have hp : (0 : Int) < (2 ^ n : Nat) := by have := Nat.two_pow_pos n; omega
  have : k = 0 := by
    rcases Int.lt_trichotomy k 0 with h | h | h
    · have : ((2 ^ n : Nat) : Int) * k ≤ ((2 ^ n : Nat) : Int) * (-1) :=
        Int.mul_le_mul_of_nonneg_left (by omega) (by omega)
      omega
    · exact h
    · have : ((2 ^ n : Nat) : Int) * 1 ≤ ((2 ^ n : Nat) : Int) * k :=
        Int.mul_le_mul_of_nonneg_left (by omega) (by omega)
      omega
  subst this
  omega

theorem inRange_lo {n : Nat} {v : Int} (h1 : 1 ≤ n) :
    InRange n v ↔ -((2 ^ (n - 1) : Nat) : Int) ≤ v ∧ v < -((2 ^ (n - 1) : Nat) : Int) + (2 ^ n : Nat) := by
  have := two_pow_pred h1
  unfold InRange
  omega

/-- **C18**, completely: every value in range is accepted, and what comes back has the same `n` low bits. It is
the value itself, except when the size is a multiple of 8 below the size of the type and no endianness is given:
then it is non-negative, so every negative value comes back as another one. -/
theorem C18_what_comes_back (native e : Endian) (W n : Nat) (ctx : IntCtx) (v : Int) (hW : 1 ≤ W)
    (hs : ctx.signedBits native = some (e, n)) (h1 : 1 ≤ n) (hn : n ≤ 8 * W) (hv : InRange n v) (p : Nat) :
    ∃ bits u, bits.length = n ∧ Writes .msb0 p (writeSigned native W ctx v) bits ∧
      Reads .msb0 p (readSigned native W ctx) bits u ∧
      ((SignExtends W ctx ∨ 0 ≤ v) → u = v) ∧
      (¬ SignExtends W ctx → v < 0 → u = v + (2 ^ n : Nat)) := by
  have hshape : ctx.sshape native W = (e, n, .msb0) := by
    cases ctx <;> simp [IntCtx.signedBits] at hs <;> obtain ⟨rfl, rfl⟩ := hs <;> rfl
  have ha : ctx.Accepts W n v := by
    cases ctx <;> simp [IntCtx.signedBits] at hs <;> intro _ <;> exact hv
  have hc : Compatible native W ctx p := by
    cases ctx <;> simp [IntCtx.signedBits] at hs <;> simp [Compatible, IntCtx.isBits, IntCtx.shape, Prim.Sound]
  obtain ⟨bits, u, hl, hw, hr, hd, hu⟩ := signed_back hW hshape h1 hn (hv.mono hn) ha hc
  refine ⟨bits, u, hl, hw, hr, ?_⟩
  have hx : (ctx.extends = true ∨ n = 8 * W) ↔ SignExtends W ctx := by
    cases ctx <;> simp [IntCtx.signedBits] at hs <;> simp [IntCtx.extends, SignExtends, hs.2]
  have hb := inRange_bounds h1 hv
  by_cases h : ctx.extends = true ∨ n = 8 * W
  · rw [if_pos h] at hu
    exact ⟨fun _ => eq_of_dvd_of_range hd ((inRange_lo h1).mp hu) ((inRange_lo h1).mp hv),
      fun h' => absurd (hx.mp h) h'⟩
  · rw [if_neg h] at hu
    refine ⟨fun h0 => ?_, fun _ h0 => ?_⟩
    · have h0 := h0.resolve_left (fun h' => h (hx.mpr h'))
      exact eq_of_dvd_of_range (lo := 0) hd (by omega) (by omega)
    · refine eq_of_dvd_of_range (n := n) (lo := 0) ?_ (by omega) (by omega)
      have := Int.dvd_sub hd (Int.dvd_refl _)
      rwa [show u - v - ((2 ^ n : Nat) : Int) = u - (v + (2 ^ n : Nat)) by omega] at this

/-- -1 in eight bits of an `i16` comes back as 255. -/
example : ¬ SignExtends 2 (.bits 8) ∧ InRange 8 (-1) ∧ (-1 : Int) + (2 ^ 8 : Nat) = 255 := by
  refine ⟨by simp [SignExtends], by decide, by decide⟩

/-- **C19**, completely, for fields narrower than their type: the values accepted are `0 ≤ v < 2 ^ n`
(`C19_ordered_signed_accepted_iff_unsigned`). Those of the upper half come back as `v - 2 ^ n` where the reader
extends the sign, and unchanged where it does not, which is when the size is a multiple of 8 and no endianness
is given. -/
theorem C19_what_comes_back (native e : Endian) (W n : Nat) (o : Order) (ctx : IntCtx) (v : Int)
    (hs : ctx.signedBitsOrder native = some (e, n, o)) (h1 : 1 ≤ n) (hn : n < 8 * W) (hv : 0 ≤ v ∧ v < (2 ^ n : Nat))
    (hc : o = .lsb0 → e = .big → n ≤ 8) (p : Nat) :
    ∃ bits u, bits.length = n ∧ Writes o p (writeSigned native W ctx v) bits ∧
      Reads o p (readSigned native W ctx) bits u ∧
      u = (if ctx.extends = true ∧ (2 ^ (n - 1) : Nat) ≤ v then v - (2 ^ n : Nat) else v) := by
  have hshape : ctx.sshape native W = (e, n, o) := by
    cases ctx <;> simp [IntCtx.signedBitsOrder] at hs <;> obtain ⟨rfl, rfl, rfl⟩ := hs <;> rfl
  have h2 := two_pow_pred h1
  have hp : 2 * 2 ^ n ≤ 2 ^ (8 * W) := by
    rw [← Nat.pow_succ']; exact Nat.pow_le_pow_right (by omega) (by omega)
  have h3 := two_pow_pred (n := 8 * W) (by omega)
  have hvW : InRange (8 * W) v := by unfold InRange; omega
  have ha : ctx.Accepts W n v := by
    have := (pattern_lt_iff h1 hn hvW).mpr hv
    cases ctx <;> simp [IntCtx.signedBitsOrder] at hs <;> intro _ <;> exact this
  have hc' : Compatible native W ctx p := by
    have hb : ctx.isBits = true := by cases ctx <;> simp [IntCtx.signedBitsOrder] at hs <;> rfl
    have hsh : ctx.shape native W = (e, n, o) := sshape_bits hb hshape
    simp only [Compatible, hb, hsh, if_true]
    exact fun h h' => .inl (hc h h')
  obtain ⟨bits, u, hl, hw, hr, hd, hu⟩ := signed_back (by omega) hshape h1 (by omega) hvW ha hc'
  refine ⟨bits, u, hl, hw, hr, ?_⟩
  by_cases hx : ctx.extends = true
  · rw [if_pos (.inl hx)] at hu
    by_cases hh : (2 ^ (n - 1) : Nat) ≤ v
    · rw [if_pos ⟨hx, hh⟩]
      refine eq_of_dvd_of_range (n := n) ?_ ((inRange_lo h1).mp hu) (by omega)
      have := Int.dvd_add hd (Int.dvd_refl _)
      rwa [show u - v + ((2 ^ n : Nat) : Int) = u - (v - (2 ^ n : Nat)) by omega] at this
    · rw [if_neg (by simp only [hx, true_and]; exact hh)]
      exact eq_of_dvd_of_range hd ((inRange_lo h1).mp hu) (by omega)
  · rw [if_neg (by simp only [not_or]; exact ⟨hx, by omega⟩)] at hu
    rw [if_neg (by simp [hx])]
    exact eq_of_dvd_of_range (lo := 0) hd (by omega) (by omega)

example : (IntCtx.endianBitsOrder .little 4 .msb0).signedBitsOrder .little = some (.little, 4, .msb0) ∧
    (12 : Int) < (2 ^ 4 : Nat) ∧ (12 : Int) - (2 ^ 4 : Nat) = -4 := by decide

/-- **C24**, completely: a value of the type written as `k` bytes comes back as the number with the same
`8 * k` low bits that is in the range of the type if the field fills it, and in `0 ≤ u < 256 ^ k` otherwise. So with
fewer bytes than the type has, exactly the values in that range come back. -/
theorem C24_what_comes_back (native e : Endian) (W k : Nat) (v : Int) (ctx : IntCtx)
    (hs : ctx.byteSize native = some (e, k)) (h1 : 1 ≤ k) (hk : k < W) (hv : InRange (8 * W) v) (p : Nat) :
    ∃ bits u, bits.length = 8 * k ∧ Writes .msb0 p (writeSigned native W ctx v) bits ∧
      Reads .msb0 p (readSigned native W ctx) bits u ∧ u = v % (256 ^ k : Nat) ∧
      (u = v ↔ 0 ≤ v ∧ v < (256 ^ k : Nat)) := by
  have hshape : ctx.sshape native W = (e, 8 * k, .msb0) := by
    cases ctx <;> simp [IntCtx.byteSize] at hs <;> obtain ⟨rfl, rfl⟩ := hs <;> rfl
  have ha : ctx.Accepts W (8 * k) v := by
    cases ctx <;> simp [IntCtx.byteSize] at hs <;> simp [IntCtx.Accepts, IntCtx.isBits]
  have hc : Compatible native W ctx p := by
    cases ctx <;> simp [IntCtx.byteSize] at hs <;> simp [Compatible, IntCtx.isBits, IntCtx.shape]
  have hx : ctx.extends = false := by cases ctx <;> simp [IntCtx.byteSize] at hs <;> rfl
  obtain ⟨bits, u, hl, hw, hr, hd, hu⟩ := signed_back (by omega) hshape (by omega) (by omega) hv ha hc
  rw [if_neg (by simp only [hx, Bool.false_eq_true, false_or]; omega)] at hu
  have hp : (0 : Int) < (2 ^ (8 * k) : Nat) := by have := Nat.two_pow_pos (8 * k); omega
  have hum : u = v % (256 ^ k : Nat) := by
    rw [Prim.pow256]
    refine eq_of_dvd_of_range (n := 8 * k) (lo := 0) ?_ (by omega)
      ⟨Int.emod_nonneg _ (by omega), by have := Int.emod_lt_of_pos v hp; omega⟩
    have h2 : ((2 ^ (8 * k) : Nat) : Int) ∣ v - v % (2 ^ (8 * k) : Nat) := by
      exact ⟨v / (2 ^ (8 * k) : Nat), by have := Int.mul_ediv_add_emod v ((2 ^ (8 * k) : Nat) : Int); omega⟩
    have := Int.dvd_add hd h2
    rwa [show ∀ a b c : Int, a - b + (b - c) = a - c by intros; omega] at this
  refine ⟨bits, u, hl, hw, hr, hum, ?_⟩
  have hpos : (0 : Int) < (256 ^ k : Nat) := by rw [Prim.pow256]; exact hp
  constructor
  · intro h
    have h1 := Int.emod_nonneg v (b := ((256 ^ k : Nat) : Int)) (by omega)
    have h2 := Int.emod_lt_of_pos v hpos
    rw [← hum, h] at h1 h2
    exact ⟨h1, h2⟩
  · intro h; rw [hum]; exact Int.emod_eq_of_lt h.1 h.2

example : (IntCtx.endianBytes .little 1).byteSize .little = some (.little, 1) ∧ InRange (8 * 4) (-1) ∧
    (-1 : Int) % (256 ^ 1 : Nat) = 255 := by decide

/-! ## C22 -/

theorem byteSized_reads {native e : Endian} {W k v : Nat} {ctx : IntCtx}
    (h1 : 1 ≤ W) (hs : ctx.byteSize native = some (e, k)) (hk : k ≤ W) (hW : W ≠ 1 ∨ k = 1)
    (hv : v < 256 ^ k) (p : Nat) :
    Reads .msb0 p (readUnsigned native W ctx) (bytesBits (wireBytes e k v)) v := by
  rw [bytesBits_wireBytes]
  have hr : Reads .msb0 p (readUBytesOrd W e k .msb0) (fieldBits e .msb0 (8 * k) v) v := by
    by_cases h0 : k = 0
    · subst h0
      have hW' : W ≠ 1 := hW.resolve_right (by omega)
      have hv0 : v = 0 := by simpa using hv
      subst hv0
      have he : fieldBits e .msb0 (8 * 0) 0 = [] := by
        apply List.eq_nil_of_length_eq_zero; rw [length_fieldBits]
      rw [he, readUBytesOrd, if_neg hW']
      exact readBytesOrd_zero W e .msb0 p
    · have := (readUBytesOrd_delivers (W := W) (k := k) e .msb0 (by omega) (fun _ => hk)).reads
        (bits := fieldBits e .msb0 (8 * k) v)
        (by rw [length_fieldBits]; split <;> rcases hW with h | h <;> omega) p
      rwa [fieldValue_fieldBits (dense_msb _ _), Nat.mod_eq_of_lt (by rwa [← Prim.pow256])] at this
  cases ctx <;> simp [IntCtx.byteSize] at hs
  case bytes => obtain ⟨rfl, rfl⟩ := hs; exact hr
  case endianBytes => obtain ⟨rfl, rfl⟩ := hs; exact hr

/-- **C22**, completely: every value of the type is accepted and comes back as its `k` low bytes. -/
theorem C22_what_comes_back (native e : Endian) (W k v : Nat) (ctx : IntCtx) (h1 : 1 ≤ W)
    (hs : ctx.byteSize native = some (e, k)) (hk : k ≤ W) (hW : W ≠ 1 ∨ k = 1) (p : Nat) :
    ∃ bits, bits.length = 8 * k ∧ Writes .msb0 p (writeUnsigned native W ctx v) bits ∧
      Reads .msb0 p (readUnsigned native W ctx) bits (v % 256 ^ k) := by
  have hw := C22_byte_sized_encoding native e W k v ctx hs hk hW p
  have he : bytesBits (wireBytes e k v) = bytesBits (wireBytes e k (v % 256 ^ k)) := by
    rw [bytesBits_wireBytes, bytesBits_wireBytes, Prim.pow256, fieldBits_mod (dense_msb _ _)]
  have hr := byteSized_reads h1 hs hk hW (Nat.mod_lt v (Nat.pow_pos (n := k) (show 0 < 256 by omega))) p
  refine ⟨_, ?_, hw, he ▸ hr⟩
  rw [bytesBits_wireBytes, length_fieldBits]

example : (IntCtx.endianBytes .big 2).byteSize .little = some (.big, 2) ∧ 0x123456 % 256 ^ 2 = 0x3456 := by
  decide

/-! ## C17 -/

/-- What becomes of `v` in a big endian Lsb0 field of `n` bits of a type of `W` bytes: the writer starts with the
most significant bytes of the *type*, so only the bits of `v` from there remain. -/
def lossy (W n v : Nat) : Nat :=
  if n % 8 = 0 then v / 256 ^ (W - n / 8)
  else v / 256 ^ (W - n / 8) * 256 + v / 256 ^ (W - n / 8 - 1) % 2 ^ (n % 8)

theorem toBE_succ (W v : Nat) : toBE (W + 1) v = BitVec.ofNat 8 (v / 256 ^ W) :: toBE W v := by
  induction W generalizing v with
  | zero => simp [toBE, toLE]
  | succ W ih =>
    have h : ∀ k v, toBE (k + 1) v = toBE k (v / 256) ++ [BitVec.ofNat 8 v] := by
      intro k v; simp [toBE, toLE]
    rw [h (W + 1), ih, h W, Nat.div_div_eq_div_mul, Nat.pow_succ, Nat.mul_comm 256]
    rfl

theorem beGroups_loopBits (W n v acc : Nat) (hn : n ≤ 8 * W) :
    beGroups acc (loopBits .lsb0 (toBE W v) n) =
      if n % 8 = 0 then acc * 256 ^ (n / 8) + v / 256 ^ (W - n / 8) % 256 ^ (n / 8)
      else (acc * 256 ^ (n / 8) + v / 256 ^ (W - n / 8) % 256 ^ (n / 8)) * 256 +
        v / 256 ^ (W - n / 8 - 1) % 2 ^ (n % 8) := by
  induction W generalizing n acc with
  | zero =>
    have : n = 0 := by omega
    subst this
    simp [toBE, toLE, loopBits, beGroups_nil, Nat.mod_one]
  | succ W ih =>
    rw [toBE_succ]
    simp only [loopBits, byteBits_ofNat, present]
    by_cases h8 : n < 8
    · rw [if_pos h8, drop_bitsBE, show 8 - (8 - n) = n by omega, Nat.div_eq_of_lt h8, Nat.mod_eq_of_lt h8]
      by_cases h0 : n = 0
      · subst h0; simp [bitsBE, beGroups_nil, Nat.mod_one]
      · have hne : (bitsBE n (v / 256 ^ W)).reverse ≠ [] := by
          intro h; have := congrArg List.length h; simp at this; omega
        rw [if_neg h0, beGroups_cons hne, List.take_of_length_le (by simp; omega),
          List.drop_eq_nil_of_le (by simp; omega), beGroups_nil, List.reverse_reverse, ofBits_bitsBE]
        simp [Nat.mod_one]
    · rw [if_neg h8]
      have hne : (bitsBE 8 (v / 256 ^ W)).reverse ++ loopBits .lsb0 (toBE W v) (n - 8) ≠ [] := by
        intro h; have := congrArg List.length h; simp at this
      rw [beGroups_cons hne, List.take_append_of_le_length (by simp), List.take_of_length_le (by simp),
        List.drop_append_of_le_length (by simp), List.drop_eq_nil_of_le (by simp), List.nil_append,
        List.reverse_reverse, ofBits_bitsBE, ih (n - 8) _ (by omega), show (n - 8) % 8 = n % 8 by omega]
      obtain ⟨q, hq⟩ : ∃ q, n / 8 = q + 1 := ⟨n / 8 - 1, by omega⟩
      rw [show (n - 8) / 8 = q by omega, hq, show W + 1 - (q + 1) = W - q by omega]
      have key : (acc * 256 + v / 256 ^ W % 2 ^ 8) * 256 ^ q + v / 256 ^ (W - q) % 256 ^ q =
          acc * 256 ^ (q + 1) + v / 256 ^ (W - q) % 256 ^ (q + 1) := by
        have hd : v / 256 ^ W = v / 256 ^ (W - q) / 256 ^ q := by
          rw [Nat.div_div_eq_div_mul, ← Nat.pow_add, show W - q + q = W by omega]
        rw [hd, show (2 : Nat) ^ 8 = 256 from rfl, Nat.pow_succ 256 q, Nat.mod_mul, Nat.add_mul, Nat.mul_assoc, Nat.mul_comm 256 (256 ^ q),
          Nat.mul_comm (256 ^ q) (v / 256 ^ (W - q) / 256 ^ q % 256)]
        omega
      rw [key]

theorem length_loopBits (o : Order) (bs : List Byte) (n : Nat) (hn : n ≤ 8 * bs.length) :
    (loopBits o bs n).length = n := by
  induction bs generalizing n with
  | nil => simp at hn; subst hn; rfl
  | cons c cs ih =>
    simp only [loopBits]
    by_cases h8 : n < 8
    · rw [if_pos h8]; cases o <;> simp [present] <;> omega
    · rw [if_neg h8, List.length_append, ih _ (by simp at hn; omega)]
      cases o <;> simp [present] <;> omega

theorem writeBitsOrd_lossy {W n v : Nat} {w : Writer} (hw : w.WF) (hr : w.Ready .lsb0) (h8 : 8 < n)
    (hW : n ≤ 8 * W) (hv : v < 2 ^ n) :
    Done .lsb0 (loopBits .lsb0 (toBE W v) n) .lsb0 w (writeBitsOrd W .big n .lsb0 v w) := by
  have hlen : (bytesBits (endianBytes W .big v)).length = 8 * W := by simp [endianBytes]
  have hvW : v < 2 ^ (8 * W) := Nat.lt_of_lt_of_le hv (Nat.pow_le_pow_right (by omega) hW)
  simp only [writeBitsOrd, hlen]
  rw [if_neg (by omega)]
  simp only [endianBytes, bytesBits_toBE]
  rw [firstCheck_run hW hvW, if_pos hv, if_neg (by omega)]
  exact writeLoop_done hw _ _ (Ready.loop hr (toBE_ne_nil (by omega)))

theorem lossy_bits {native : Endian} {W n v : Nat} {ctx : IntCtx} (hb : ctx.isBits = true)
    (hs : ctx.shape native W = (.big, n, .lsb0)) (h8 : 8 < n) (hn : n ≤ 8 * W) (hv : v < 2 ^ n) (p : Nat) :
    ∃ bits, bits.length = n ∧ Writes .lsb0 p (writeUnsigned native W ctx v) bits ∧
      Reads .lsb0 p (readUnsigned native W ctx) bits (lossy W n v) := by
  have hl : (loopBits .lsb0 (toBE W v) n).length = n := length_loopBits _ _ _ (by simpa using hn)
  refine ⟨loopBits .lsb0 (toBE W v) n, hl, ?_, ?_⟩
  · have hw : Writes .lsb0 p (writeUBitsOrd W .big n .lsb0 v) (loopBits .lsb0 (toBE W v) n) := by
      unfold writeUBitsOrd
      rw [if_neg (by omega)]
      exact Writer.Done.writes (fun w hw => writeBitsOrd_lossy hw.wf hw.ready h8 hn hv) rfl
    cases ctx <;> simp [IntCtx.isBits] at hb <;> simp [IntCtx.shape] at hs
    case bitsOrder => obtain ⟨rfl, rfl, rfl⟩ := hs; exact hw
    case endianBitsOrder => obtain ⟨rfl, rfl, rfl⟩ := hs; exact hw
  · have hr := readUnsigned_delivers native ctx (W := W) (by omega)
    rw [hs] at hr
    have hr := (hr (by omega) hn).reads hl p
    have he : fieldValue .big .lsb0 (loopBits .lsb0 (toBE W v) n) = lossy W n v := by
      have hm : v / 256 ^ (W - n / 8) % 256 ^ (n / 8) = v / 256 ^ (W - n / 8) := by
        apply Nat.mod_eq_of_lt
        rw [Nat.div_lt_iff_lt_mul (Nat.pow_pos (by omega)), ← Nat.pow_add, show n / 8 + (W - n / 8) = W by omega,
          Prim.pow256]
        exact Nat.lt_of_lt_of_le hv (Nat.pow_le_pow_right (by omega) hn)
      show beGroups 0 _ = _
      rw [beGroups_loopBits W n v 0 hn, lossy]
      simp only [Nat.zero_mul, Nat.zero_add, hm]
    rwa [he] at hr

/-- **C17**, what happens in between: every value of a big endian Lsb0 field of more than 8 bits is accepted if it
fits, takes `n` bits, and comes back as `lossy W n v`: the high bits of the type without those that do not fit. -/
theorem C17_what_comes_back (native : Endian) (W n v : Nat) (ctx : IntCtx) (hb : ctx.isBits = true)
    (hs : ctx.shape native W = (.big, n, .lsb0)) (h8 : 8 < n) (hn : n ≤ 8 * W) (hv : v < 2 ^ n) (p : Nat) :
    ∃ bits, bits.length = n ∧ Writes .lsb0 p (writeUnsigned native W ctx v) bits ∧
      Reads .lsb0 p (readUnsigned native W ctx) bits (lossy W n v) := lossy_bits hb hs h8 hn hv p

/-- The counterexample: 0xABC in 12 bits of a `u16`; and the low 16 bits of a `u32` are lost altogether. -/
example : (IntCtx.endianBitsOrder .big 12 .lsb0).shape .little 2 = (.big, 12, .lsb0) ∧ 0xABC < 2 ^ 12 ∧
    lossy 2 12 0xABC = 0xA0C ∧ lossy 4 16 0xABCD = 0 := by decide

/-- **C17**, completely: all values that fit come back, through `to_bytes` and `from_bytes`, exactly when the field
has at most 8 bits or fills its type. -/
theorem C17_round_trips_iff_short_or_full (native : Endian) (W n : Nat) (ctx : IntCtx) (hb : ctx.isBits = true)
    (hs : ctx.shape native W = (.big, n, .lsb0)) (h1 : 1 ≤ n) (hn : n ≤ 8 * W) :
    (∀ v, v < 2 ^ n → ∃ out r, toBytes (writeUnsigned native W ctx v) = .ok out ∧
      readUnsigned native W ctx (Reader.new { data := out }) = (.ok v, r)) ↔ (n ≤ 8 ∨ n = 8 * W) := by
  constructor
  · intro h
    apply Classical.byContradiction
    intro hc
    have hlt : 2 ^ (n % 8) < 2 ^ 8 := Nat.pow_lt_pow_right (by omega) (by omega)
    have hv : 2 ^ (n % 8) < 2 ^ n := Nat.pow_lt_pow_right (by omega) (by omega)
    obtain ⟨out, r, ho, hr⟩ := h (2 ^ (n % 8)) hv
    obtain ⟨bits, _, hw, hrd⟩ := lossy_bits hb hs (by omega) hn hv 0
    obtain ⟨out', ho', hbits⟩ := hw.toBytes
    obtain ⟨r', hr', _⟩ := hrd.fromBytes hbits
    rw [ho] at ho'
    simp only [Res.ok.injEq] at ho'
    subst ho'
    rw [hr] at hr'
    simp only [Prod.mk.injEq, Res.ok.injEq] at hr'
    have hz : ∀ k, 1 ≤ k → 2 ^ (n % 8) / 256 ^ k = 0 := by
      intro k hk
      apply Nat.div_eq_of_lt
      exact Nat.lt_of_lt_of_le hlt (by simpa using Nat.pow_le_pow_right (n := 256) (by omega) hk)
    have := hr'.1
    rw [lossy, hz _ (by omega)] at this
    by_cases h0 : n % 8 = 0
    · rw [if_pos h0, h0] at this; omega
    · rw [if_neg h0] at this
      by_cases h9 : W - n / 8 - 1 = 0
      · rw [h9, Nat.pow_zero, Nat.div_one, Nat.mod_self] at this
        have := Nat.two_pow_pos (n % 8); omega
      · rw [hz _ (by omega), Nat.zero_mod] at this
        have := Nat.two_pow_pos (n % 8); omega
  · intro h v hv
    obtain ⟨hw, hr⟩ := round_trip (p := 0) (by omega) hs h1 hn hv (by
      simp only [Compatible, hb, hs, if_true]; exact fun _ _ => h)
    obtain ⟨out, ho, hbits⟩ := hw.toBytes
    obtain ⟨r, hr', _⟩ := hr.fromBytes hbits
    exact ⟨out, r, ho, hr'⟩

example : (IntCtx.endianBitsOrder .big 24 .lsb0).isBits = true ∧
    (IntCtx.endianBitsOrder .big 24 .lsb0).shape .little 4 = (.big, 24, .lsb0) ∧ ¬ (24 ≤ 8 ∨ 24 = 8 * 4) := by
  decide

end Deku
