import Verif.Bits

/-! # Lemmas about bits, bytes and numbers -/

namespace Deku

@[simp] theorem length_bitsBE (n v : Nat) : (bitsBE n v).length = n := by
  induction n with
  | zero => rfl
  | succ n ih => simp [bitsBE, ih]

@[simp] theorem length_byteBits (b : Byte) : (byteBits b).length = 8 := by simp [byteBits]

theorem ofBits_lt (l : List Bool) : ofBits l < 2 ^ l.length := by
  induction l with
  | nil => simp [ofBits]
  | cons b l ih =>
    simp only [ofBits, List.length_cons, Nat.pow_succ]
    cases b <;> simp <;> omega

theorem ofBits_append (a b : List Bool) :
    ofBits (a ++ b) = ofBits a * 2 ^ b.length + ofBits b := by
  induction a with
  | nil => simp [ofBits]
  | cons x a ih =>
    simp only [List.cons_append, ofBits, ih, List.length_append, Nat.pow_add]
    rw [Nat.add_mul, Nat.mul_assoc]; omega

theorem ofBits_bitsBE (n v : Nat) : ofBits (bitsBE n v) = v % 2 ^ n := by
  induction n with
  | zero => simp [bitsBE, ofBits, Nat.mod_one]
  | succ n ih =>
    rw [bitsBE, ofBits, ih, length_bitsBE, Nat.mod_pow_succ, Nat.testBit_eq_decide_div_mod_eq]
    have : v / 2 ^ n % 2 = 0 ∨ v / 2 ^ n % 2 = 1 := by omega
    rcases this with h | h <;> simp [h] <;> omega

theorem bitsBE_congr (n v w : Nat) (h : v % 2 ^ n = w % 2 ^ n) : bitsBE n v = bitsBE n w := by
  induction n with
  | zero => rfl
  | succ n ih =>
    rw [bitsBE, bitsBE]
    have h1 : v.testBit n = w.testBit n := by
      have := congrArg (fun x => x.testBit n) h
      simpa [Nat.testBit_mod_two_pow] using this
    have h2 : v % 2 ^ n = w % 2 ^ n := by
      have := congrArg (fun x => x % 2 ^ n) h
      simpa [Nat.mod_mod_of_dvd _ (Nat.pow_dvd_pow 2 (Nat.le_succ n))] using this
    rw [h1, ih h2]

theorem bitsBE_mod (n v : Nat) : bitsBE n (v % 2 ^ n) = bitsBE n v :=
  bitsBE_congr _ _ _ (by simp)

theorem bitsBE_ofBits (l : List Bool) : bitsBE l.length (ofBits l) = l := by
  induction l with
  | nil => rfl
  | cons b l ih =>
    have hl := ofBits_lt l
    rw [List.length_cons, bitsBE]
    congr 1
    · rw [ofBits, Nat.testBit_eq_decide_div_mod_eq, Nat.mul_comm,
        Nat.mul_add_div (Nat.two_pow_pos _), Nat.div_eq_of_lt hl]
      cases b <;> simp
    · rw [← ih]
      rw [length_bitsBE]
      apply bitsBE_congr
      rw [ih, ofBits, Nat.mul_comm, Nat.mul_add_mod]

theorem bitsBE_ofBits' (l : List Bool) (n : Nat) (h : l.length = n) :
    bitsBE n (ofBits l) = l := by subst h; exact bitsBE_ofBits l

theorem ofBits_inj (a b : List Bool) (hl : a.length = b.length) (h : ofBits a = ofBits b) :
    a = b := by
  rw [← bitsBE_ofBits a, ← bitsBE_ofBits b, hl, h]

theorem bitsBE_add (m n v : Nat) : bitsBE (m + n) v = bitsBE m (v / 2 ^ n) ++ bitsBE n v := by
  induction m with
  | zero => simp [bitsBE]
  | succ m ih =>
    rw [Nat.succ_add, bitsBE, bitsBE, ih, List.cons_append, Nat.testBit_div_two_pow, Nat.add_comm m n]

theorem bitsBE_split (n a b : Nat) (h : b ≤ n) (ha : a = n - b) (v : Nat) :
    bitsBE n v = bitsBE a (v / 2 ^ b) ++ bitsBE b v := by
  rw [← bitsBE_add]; congr 1; omega

theorem take_bitsBE (n k v : Nat) (h : k ≤ n) : (bitsBE n v).take k = bitsBE k (v / 2 ^ (n - k)) := by
  rw [bitsBE_split n k (n - k) (by omega) (by omega)]
  rw [List.take_left' (by simp)]

theorem drop_bitsBE (n k v : Nat) : (bitsBE n v).drop k = bitsBE (n - k) v := by
  by_cases h : k ≤ n
  · rw [bitsBE_split n k (n - k) (by omega) (by omega)]
    rw [List.drop_left' (by simp)]
  · rw [List.drop_eq_nil_of_le (by simp; omega)]
    have : n - k = 0 := by omega
    rw [this]; rfl

theorem bitsBE_of_small {n v : Nat} (m : Nat) (h : v < 2 ^ n) :
    bitsBE (m + n) v = List.replicate m false ++ bitsBE n v := by
  rw [bitsBE_add, Nat.div_eq_of_lt h]
  congr 1
  induction m with
  | zero => rfl
  | succ m ih => rw [bitsBE, ih, List.replicate_succ]; simp

theorem ofBits_replicate_false (n : Nat) : ofBits (List.replicate n false) = 0 := by
  induction n with
  | zero => rfl
  | succ n ih => simp [List.replicate_succ, ofBits, ih]

/-! ### bytes -/

theorem toNat_byteOf (l : List Bool) (h : l.length = 8) : (byteOf l).toNat = ofBits l := by
  have := ofBits_lt l
  rw [h] at this
  simp only [byteOf, BitVec.toNat_ofNat]
  exact Nat.mod_eq_of_lt this

@[simp] theorem byteBits_byteOf (l : List Bool) (h : l.length = 8) : byteBits (byteOf l) = l := by
  rw [byteBits, toNat_byteOf l h]
  exact bitsBE_ofBits' l 8 h

theorem ofBits_byteBits (b : Byte) : ofBits (byteBits b) = b.toNat := by
  rw [byteBits, ofBits_bitsBE]
  exact Nat.mod_eq_of_lt b.isLt

@[simp] theorem byteOf_byteBits (b : Byte) : byteOf (byteBits b) = b := by
  apply BitVec.eq_of_toNat_eq
  rw [toNat_byteOf _ (by simp), ofBits_byteBits]

theorem byteBits_inj {a b : Byte} (h : byteBits a = byteBits b) : a = b := by
  rw [← byteOf_byteBits a, h, byteOf_byteBits]

@[simp] theorem bytesBits_nil : bytesBits [] = [] := rfl
@[simp] theorem bytesBits_cons (b : Byte) (bs : List Byte) :
    bytesBits (b :: bs) = byteBits b ++ bytesBits bs := rfl

@[simp] theorem bytesBits_append (a b : List Byte) :
    bytesBits (a ++ b) = bytesBits a ++ bytesBits b := by
  induction a with
  | nil => rfl
  | cons x a ih => simp [ih]

@[simp] theorem length_bytesBits (bs : List Byte) : (bytesBits bs).length = 8 * bs.length := by
  induction bs with
  | nil => rfl
  | cons x a ih => simp [ih]; omega

@[simp] theorem bytesBitsLsb_nil : bytesBitsLsb [] = [] := rfl
@[simp] theorem bytesBitsLsb_cons (b : Byte) (bs : List Byte) :
    bytesBitsLsb (b :: bs) = (byteBits b).reverse ++ bytesBitsLsb bs := rfl

@[simp] theorem bytesBitsLsb_append (a b : List Byte) :
    bytesBitsLsb (a ++ b) = bytesBitsLsb a ++ bytesBitsLsb b := by
  induction a with
  | nil => rfl
  | cons x a ih => simp [ih]

@[simp] theorem length_bytesBitsLsb (bs : List Byte) : (bytesBitsLsb bs).length = 8 * bs.length := by
  induction bs with
  | nil => rfl
  | cons x a ih => simp [ih]; omega

theorem bytesBitsLsb_eq (bs : List Byte) : bytesBitsLsb bs = (bytesBits bs.reverse).reverse := by
  induction bs with
  | nil => rfl
  | cons x a ih => simp [ih]

theorem bytesBits_inj {a b : List Byte} (h : bytesBits a = bytesBits b) : a = b := by
  induction a generalizing b with
  | nil =>
    have := congrArg List.length h
    simp only [bytesBits_nil, List.length_nil, length_bytesBits] at this
    exact (List.length_eq_zero_iff.mp (by omega)).symm
  | cons x a ih =>
    cases b with
    | nil =>
      have := congrArg List.length h
      simp at this
    | cons y b =>
      simp only [bytesBits_cons] at h
      have := List.append_inj h (by simp)
      rw [byteBits_inj this.1, ih this.2]

theorem bytesBitsLsb_inj {a b : List Byte} (h : bytesBitsLsb a = bytesBitsLsb b) : a = b := by
  rw [bytesBitsLsb_eq, bytesBitsLsb_eq] at h
  exact List.reverse_inj.mp (bytesBits_inj (List.reverse_inj.mp h))

theorem drop_bytesBits (k : Nat) (bs : List Byte) :
    (bytesBits bs).drop (8 * k) = bytesBits (bs.drop k) := by
  induction k generalizing bs with
  | zero => rfl
  | succ k ih =>
    cases bs with
    | nil => simp
    | cons x bs =>
      rw [bytesBits_cons, List.drop_succ_cons, ← ih, show 8 * (k + 1) = 8 + 8 * k by omega,
        ← List.drop_drop, List.drop_left' (by simp)]

theorem take_bytesBits (k : Nat) (bs : List Byte) :
    (bytesBits bs).take (8 * k) = bytesBits (bs.take k) := by
  induction k generalizing bs with
  | zero => rfl
  | succ k ih =>
    cases bs with
    | nil => simp
    | cons x bs =>
      rw [bytesBits_cons, List.take_succ_cons, show 8 * (k + 1) = 8 + 8 * k by omega,
        List.take_add, List.take_left' (by simp), List.drop_left' (by simp), ih, bytesBits_cons]

theorem drop_bytesBitsLsb (k : Nat) (bs : List Byte) :
    (bytesBitsLsb bs).drop (8 * k) = bytesBitsLsb (bs.drop k) := by
  induction k generalizing bs with
  | zero => rfl
  | succ k ih =>
    cases bs with
    | nil => simp
    | cons x bs =>
      rw [bytesBitsLsb_cons, List.drop_succ_cons, ← ih, show 8 * (k + 1) = 8 + 8 * k by omega,
        ← List.drop_drop, List.drop_left' (by simp)]

theorem take_bytesBitsLsb (k : Nat) (bs : List Byte) :
    (bytesBitsLsb bs).take (8 * k) = bytesBitsLsb (bs.take k) := by
  induction k generalizing bs with
  | zero => rfl
  | succ k ih =>
    cases bs with
    | nil => simp
    | cons x bs =>
      rw [bytesBitsLsb_cons, List.take_succ_cons, show 8 * (k + 1) = 8 + 8 * k by omega,
        List.take_add, List.take_left' (by simp), List.drop_left' (by simp), ih, bytesBitsLsb_cons]

/-! ### numbers as byte strings -/

theorem ofBits_bytesBits (bs : List Byte) : ofBits (bytesBits bs) = beNat bs := by
  induction bs with
  | nil => rfl
  | cons b bs ih =>
    rw [bytesBits_cons, ofBits_append, ofBits_byteBits, ih, beNat, length_bytesBits, Nat.pow_mul]

theorem beNat_lt (bs : List Byte) : beNat bs < 256 ^ bs.length := by
  have := ofBits_lt (bytesBits bs)
  rwa [ofBits_bytesBits, length_bytesBits, Nat.pow_mul] at this

@[simp] theorem length_toLE (w v : Nat) : (toLE w v).length = w := by
  induction w generalizing v with
  | zero => rfl
  | succ w ih => simp [toLE, ih]

@[simp] theorem length_toBE (w v : Nat) : (toBE w v).length = w := by simp [toBE]

theorem leNat_toLE (w v : Nat) : leNat (toLE w v) = v % 256 ^ w := by
  induction w generalizing v with
  | zero => simp [toLE, leNat, Nat.mod_one]
  | succ w ih =>
    rw [toLE, leNat, ih, BitVec.toNat_ofNat, show (256:Nat) ^ (w+1) = 256 * 256 ^ w from Nat.pow_succ', Nat.mod_mul (a := 256)]

theorem leNat_lt (bs : List Byte) : leNat bs < 256 ^ bs.length := by
  induction bs with
  | nil => simp [leNat]
  | cons b bs ih =>
    have := b.isLt
    rw [leNat, List.length_cons, Nat.pow_succ]; omega

theorem toLE_leNat (bs : List Byte) : toLE bs.length (leNat bs) = bs := by
  induction bs with
  | nil => rfl
  | cons b bs ih =>
    have hb := b.isLt
    rw [List.length_cons, toLE, leNat]
    congr 1
    · apply BitVec.eq_of_toNat_eq
      rw [BitVec.toNat_ofNat]; omega
    · rw [show (b.toNat + 256 * leNat bs) / 256 = leNat bs by omega, ih]

theorem leNat_append (a b : List Byte) : leNat (a ++ b) = leNat a + 256 ^ a.length * leNat b := by
  induction a with
  | nil => simp [leNat]
  | cons x a ih =>
    rw [List.cons_append, leNat, ih, leNat, List.length_cons, Nat.pow_succ', Nat.mul_add,
      Nat.mul_assoc, Nat.add_assoc]

theorem leNat_reverse (bs : List Byte) : leNat bs.reverse = beNat bs := by
  induction bs with
  | nil => rfl
  | cons b bs ih =>
    rw [List.reverse_cons, leNat_append, ih, beNat, List.length_reverse]
    simp [leNat]
    rw [Nat.mul_comm, Nat.add_comm]

theorem beNat_reverse (bs : List Byte) : beNat bs.reverse = leNat bs := by
  rw [← leNat_reverse, List.reverse_reverse]

theorem beNat_toBE (w v : Nat) : beNat (toBE w v) = v % 256 ^ w := by
  rw [toBE, beNat_reverse, leNat_toLE]

theorem toBE_beNat (bs : List Byte) : toBE bs.length (beNat bs) = bs := by
  rw [toBE, ← leNat_reverse, ← List.length_reverse, toLE_leNat, List.reverse_reverse]

theorem leNat_replicate_zero (n : Nat) : leNat (List.replicate n (0 : Byte)) = 0 := by
  induction n with
  | zero => rfl
  | succ n ih => rw [List.replicate_succ, leNat, ih]; rfl

theorem bytesBits_toBE (w v : Nat) : bytesBits (toBE w v) = bitsBE (8 * w) v := by
  apply ofBits_inj
  · simp
  · rw [ofBits_bytesBits, beNat_toBE, ofBits_bitsBE, Nat.pow_mul]

/-! ### chunks -/

@[simp] theorem length_chunks8 (k : Nat) (l : List Bool) : (chunks8 k l).length = k := by
  induction k generalizing l with
  | zero => rfl
  | succ k ih => simp [chunks8, ih]

theorem bytesBits_chunks8 (k : Nat) (l : List Bool) (h : 8 * k ≤ l.length) :
    bytesBits ((chunks8 k l).map byteOf) = l.take (8 * k) := by
  induction k generalizing l with
  | zero => rfl
  | succ k ih =>
    rw [chunks8, List.map_cons, bytesBits_cons, byteBits_byteOf _ (by simp; omega),
      ih _ (by simp; omega), show 8 * (k + 1) = 8 + 8 * k by omega, List.take_add]

theorem rchunks8_eq (k : Nat) (l : List Bool) (h : 8 * k ≤ l.length) :
    bytesBits ((rchunks8 k l).map byteOf).reverse = l.drop (l.length - 8 * k) := by
  induction k generalizing l with
  | zero => simp [rchunks8]
  | succ k ih =>
    rw [rchunks8, List.map_cons, List.reverse_cons, bytesBits_append, bytesBits_cons,
      byteBits_byteOf _ (by simp; omega), ih _ (by simp; omega), bytesBits_nil, List.append_nil,
      List.length_take, List.drop_take, Nat.min_eq_left (by omega)]
    have h2 : l.length - 8 - 8 * k = l.length - 8 * (k + 1) := by omega
    have h3 : l.length - 8 - (l.length - 8 * (k + 1)) = 8 * k := by omega
    rw [h2, h3]
    have : l.drop (l.length - 8) = (l.drop (l.length - 8 * (k + 1))).drop (8 * k) := by
      rw [List.drop_drop]; congr 1; omega
    rw [this, List.take_append_drop]

theorem bytesBitsLsb_rchunks8 (k : Nat) (l : List Bool) (h : 8 * k ≤ l.length) :
    bytesBitsLsb ((rchunks8 k l).map byteOf) = (l.drop (l.length - 8 * k)).reverse := by
  rw [bytesBitsLsb_eq, rchunks8_eq k l h]

end Deku
