import Verif.Spec.Int
import Verif.Lemmas.Writer

/-! # Integers: values of bit strings, and what the primitive readers and writers do with them -/

namespace Deku

/-! ### groups of bits -/

theorem leGroups_short {l : List Bool} (h : l.length ≤ 8) : leGroups l = ofBits l := by
  rw [leGroups, if_pos h]

theorem leGroups_long {l : List Bool} (h : 8 ≤ l.length) :
    leGroups l = ofBits (l.take 8) + 256 * leGroups (l.drop 8) := by
  by_cases h8 : l.length = 8
  · rw [leGroups_short (by omega), List.take_of_length_le (by omega),
      List.drop_eq_nil_of_le (by omega), leGroups_short (by simp)]
    simp [ofBits]
  · rw [leGroups, if_neg (by omega)]

theorem leGroups_append (k : Nat) (a b : List Bool) (h : a.length = 8 * k) :
    leGroups (a ++ b) = leGroups a + 256 ^ k * leGroups b := by
  induction k generalizing a with
  | zero =>
    have : a = [] := List.length_eq_zero_iff.mp (by omega)
    subst this
    simp [leGroups_short, ofBits]
  | succ k ih =>
    rw [leGroups_long (l := a ++ b) (by simp; omega), leGroups_long (l := a) (by omega),
      List.take_append_of_le_length (by omega), List.drop_append_of_le_length (by omega),
      ih _ (by simp; omega), Nat.pow_succ, Nat.mul_add, ← Nat.mul_assoc,
      Nat.mul_comm 256 (256 ^ k), Nat.add_assoc]

theorem leGroups_zeros (n : Nat) : leGroups (List.replicate n false) = 0 := by
  induction n using Nat.strongRecOn with
  | _ n ih =>
    by_cases h : n ≤ 8
    · rw [leGroups_short (by simpa using h), ofBits_replicate_false]
    · rw [leGroups_long (by simp; omega), List.take_replicate, List.drop_replicate,
        ofBits_replicate_false, ih _ (by omega)]

theorem leGroups_lt (l : List Bool) : leGroups l < 2 ^ l.length := by
  generalize hn : l.length = n
  induction n using Nat.strongRecOn generalizing l with
  | _ n ih =>
    by_cases h : l.length ≤ 8
    · rw [leGroups_short h, ← hn]; exact ofBits_lt l
    · rw [leGroups_long (by omega)]
      have h1 := ofBits_lt (l.take 8)
      have h2 := ih (n - 8) (by omega) (l.drop 8) (by simp; omega)
      rw [List.length_take, Nat.min_eq_left (by omega)] at h1
      have : 2 ^ n = 256 * 2 ^ (n - 8) := by
        rw [show 256 = 2 ^ 8 by rfl, ← Nat.pow_add]; congr 1; omega
      omega

theorem beNat_packBytes (W : Nat) (l : List Bool) (h : l.length = 8 * W) :
    beNat (Reader.packBytes W l) = ofBits l := by
  rw [← ofBits_bytesBits, Reader.packBytes, bytesBits_chunks8 _ _ (by omega),
    List.take_of_length_le (by omega)]

theorem leNat_packBytes (W : Nat) (l : List Bool) (h : l.length = 8 * W) :
    leNat (Reader.packBytes W l) = leGroups l := by
  induction W generalizing l with
  | zero =>
    have : l = [] := List.length_eq_zero_iff.mp (by omega)
    subst this
    simp [Reader.packBytes, chunks8, leNat, leGroups_short, ofBits]
  | succ W ih =>
    rw [leGroups_long (by omega), ← ih _ (by simp; omega)]
    simp only [Reader.packBytes, chunks8, List.map_cons, leNat]
    rw [toNat_byteOf _ (by simp; omega)]

theorem leNat_eq_leGroups (bs : List Byte) : leNat bs = leGroups (bytesBits bs) := by
  induction bs with
  | nil => simp [leNat, leGroups_short, ofBits]
  | cons b bs ih =>
    rw [leNat, bytesBits_cons, leGroups_append 1 _ _ (by simp), leGroups_short (by simp),
      ofBits_byteBits, ih, Nat.pow_one]

theorem leNat_eq_lsb (bs : List Byte) : leNat bs = ofBits (bytesBitsLsb bs).reverse := by
  rw [bytesBitsLsb_eq, List.reverse_reverse, ofBits_bytesBits, beNat_reverse]

theorem beGroups_nil (acc : Nat) : beGroups acc [] = acc := by rw [beGroups]; simp

theorem beGroups_cons {acc : Nat} {l : List Bool} (h : l ≠ []) :
    beGroups acc l = beGroups (acc * 256 + ofBits (l.take 8).reverse) (l.drop 8) := by
  have : l.length ≠ 0 := fun h' => h (List.length_eq_zero_iff.mp h')
  rw [beGroups, if_neg this]

theorem beGroups_bytes (acc : Nat) (bs : List Byte) :
    beGroups acc (bytesBitsLsb bs) = acc * 256 ^ bs.length + beNat bs := by
  induction bs generalizing acc with
  | nil => simp [beGroups_nil, beNat]
  | cons b bs ih =>
    rw [bytesBitsLsb_cons, beGroups_cons (by
      intro h; have := congrArg List.length h; simp at this),
      List.take_left' (by simp), List.drop_left' (by simp), ih, List.reverse_reverse,
      ofBits_byteBits, beNat, List.length_cons, Nat.pow_succ, Nat.add_mul]
    rw [Nat.mul_assoc, Nat.mul_comm 256]; omega

/-- Zero bits behind the last group do not matter. -/
theorem beGroups_pad (acc : Nat) (l : List Bool) (p : Nat) (h : (l.length + p) % 8 = 0) (hp : p < 8) :
    beGroups acc (l ++ List.replicate p false) = beGroups acc l := by
  generalize hn : l.length = n
  induction n using Nat.strongRecOn generalizing l acc with
  | _ n ih =>
    by_cases h0 : l = []
    · subst h0
      have : p = 0 := by simp at h; omega
      subst this; simp
    · have hl : 0 < l.length := List.length_pos_iff.mpr h0
      rw [beGroups_cons (by simp [h0]), beGroups_cons h0]
      by_cases h8 : 8 ≤ l.length
      · rw [List.take_append_of_le_length h8, List.drop_append_of_le_length h8]
        exact ih (n - 8) (by omega) _ (l.drop 8) (by simp; omega) (by simp; omega)
      · have hlp : l.length + p = 8 := by omega
        rw [List.take_of_length_le (by simp; omega), List.take_of_length_le (l := l) (by omega),
          List.drop_eq_nil_of_le (as := l) (by omega), List.drop_eq_nil_of_le (by simp; omega)]
        congr 2
        rw [List.reverse_append, List.reverse_replicate, ofBits_append, ofBits_replicate_false]
        simp

theorem ofBits_zeros_append (p : Nat) (l : List Bool) :
    ofBits (List.replicate p false ++ l) = ofBits l := by
  rw [ofBits_append, ofBits_replicate_false]; simp

theorem ofBits_append_one (l : List Bool) (b : Bool) : ofBits (l ++ [b]) = 2 * ofBits l + b.toNat := by
  rw [ofBits_append]; simp [ofBits]; omega

/-! ### reading -/

namespace Prim

open Reader

theorem insertZeros_run (cap index k : Nat) (l : List Bool) (r : Reader)
    (hc : l.length + k ≤ cap) (hi : k = 0 ∨ index < l.length) :
    insertZeros cap index k l r =
      (.ok (l.take index ++ List.replicate k false ++ l.drop index), r) := by
  induction k generalizing l with
  | zero => simp [insertZeros]
  | succ k ih =>
    have hi' : index < l.length := by omega
    have h1 : l.length < cap := by omega
    simp only [insertZeros, h1, hi', decide_true, M.assert_true_bind_run]
    rw [ih _ (by simp; omega) (by simp; omega)]
    have hl : (l.take index).length = index := by simp; omega
    rw [List.take_append_of_le_length (by omega), List.take_of_length_le (by omega),
      List.drop_append_of_le_length (by omega), List.drop_eq_nil_of_le (by omega)]
    simp [List.replicate_succ']

theorem endianNat_pack (W : Nat) (e : Endian) (l : List Bool) (h : l.length = 8 * W) :
    endianNat e (packBytes W l) = fieldValue e .msb0 l := by
  cases e
  · exact leNat_packBytes W l h
  · exact beNat_packBytes W l h

theorem le_padded (W : Nat) (l : List Bool) (h1 : 1 ≤ l.length) (hW : l.length ≤ 8 * W) :
    let pad := 8 * ((l.length + 7) / 8) - l.length
    let full := l.take (l.length - (8 - pad)) ++ List.replicate pad false ++
      l.drop (l.length - (8 - pad))
    leNat (packBytes W (full ++ List.replicate (8 * W - full.length) false)) = leGroups l := by
  intro pad full
  have hpad : pad = 8 * ((l.length + 7) / 8) - l.length := rfl
  have hfl : full.length = l.length + pad := by simp [full]; omega
  rw [leNat_packBytes _ _ (by simp only [List.length_append, List.length_replicate]; omega),
    leGroups_append ((l.length + 7) / 8) _ _ (by omega), leGroups_zeros]
  simp only [Nat.mul_zero, Nat.add_zero, full]
  have hidx : l.length - (8 - pad) = 8 * ((l.length - 1) / 8) := by omega
  rw [hidx, List.append_assoc, leGroups_append ((l.length - 1) / 8) _ _ (by simp; omega),
    leGroups_short (l := List.replicate pad false ++ _) (by simp; omega), ofBits_zeros_append,
    ← leGroups_short (by simp; omega),
    ← leGroups_append ((l.length - 1) / 8) _ _ (by simp; omega), List.take_append_drop]

theorem readSlice_run {W : Nat} {e : Endian} {l : List Bool} (r : Reader) (h1 : 1 ≤ l.length)
    (hW : l.length ≤ 8 * W) : readSlice W e l r = (.ok (fieldValue e .msb0 l), r) := by
  simp only [readSlice]
  by_cases hf : 8 * ((l.length + 7) / 8) - l.length = 0 ∧ l.length = 8 * W
  · rw [if_pos hf, endianNat_pack _ _ _ hf.2]; rfl
  · rw [if_neg hf]
    cases e
    · simp only [reduceCtorEq, false_and, if_false]
      have hp : ¬ l.length < 8 - (8 * ((l.length + 7) / 8) - l.length) := by omega
      simp only [if_neg hp, M.pure_bind_run]
      rw [M.bind_ok (insertZeros_run _ _ _ _ _ (by omega) (by omega))]
      simp only [M.pure_bind_run, M.pure_run]
      rw [show ∀ x, fieldValue .little .msb0 x = leGroups x from fun _ => rfl,
        ← le_padded W l h1 hW]
      rfl
    · rw [if_pos ⟨rfl, h1⟩]; rfl

theorem lsb_slots (l : List Bool) (p : Nat) (h : (l.length + p) % 8 = 0) :
    bytesBitsLsb ((rchunks8 ((l.length + p) / 8) (List.replicate p false ++ l)).map byteOf) =
      l.reverse ++ List.replicate p false := by
  rw [bytesBitsLsb_rchunks8 _ _ (by simp; omega),
    show (List.replicate p false ++ l).length - 8 * ((l.length + p) / 8) = 0 by simp; omega]
  simp

theorem readSliceOrd_run {W : Nat} {e : Endian} {o : Order} {l : List Bool} (r : Reader)
    (h1 : 1 ≤ l.length) (hW : l.length ≤ 8 * W) :
    readSliceOrd W e o l r = (.ok (fieldValue e o (present o l)), r) := by
  simp only [readSliceOrd]
  have ha : l.length + (8 * ((l.length + 7) / 8) - l.length) ≤ 8 * W := by omega
  simp only [ha, decide_true, M.assert_true_bind_run]
  cases o
  · simp only [present]
    by_cases hf : 8 * ((l.length + 7) / 8) - l.length = 0 ∧ l.length = 8 * W
    · rw [if_pos ⟨hf.1, hf.2, by simp⟩, endianNat_pack _ _ _ hf.2]; rfl
    · rw [if_neg (fun h => hf ⟨h.1, h.2.1⟩)]
      cases e
      · simp only [reduceCtorEq, false_and, if_false]
        have hp : ¬ l.length < 8 - (8 * ((l.length + 7) / 8) - l.length) := by omega
        simp only [if_neg hp, M.pure_bind_run]
        rw [M.bind_ok (insertZeros_run _ _ _ _ _ (by omega) (by omega))]
        simp only [M.pure_bind_run, M.pure_run]
        rw [show ∀ x, fieldValue .little .msb0 x = leGroups x from fun _ => rfl,
          ← le_padded W l h1 hW]
        rfl
      · rw [if_pos ⟨rfl, trivial, h1⟩]; rfl
  · rw [if_neg (by simp), if_neg (by simp)]
    simp only [present]
    rw [M.bind_ok (insertZeros_run _ _ _ _ _ (by omega) (by omega))]
    simp only [M.pure_run, List.take_zero, List.nil_append, List.drop_zero]
    generalize hp : 8 * ((l.length + 7) / 8) - l.length = p
    have hlen : (List.replicate p false ++ l).length = l.length + p := by simp; omega
    rw [hlen]
    have hs := lsb_slots l p (by omega)
    generalize hsl : (rchunks8 ((l.length + p) / 8) (List.replicate p false ++ l)).map byteOf =
      slots at hs
    have hslen : slots.length = (l.length + p) / 8 := by rw [← hsl]; simp
    cases e
    · simp only [endianNat, fieldValue, List.replicate_zero, List.nil_append]
      rw [List.take_append, List.take_of_length_le (by omega), List.take_replicate, leNat_append,
        leNat_replicate_zero, leNat_eq_lsb, hs]
      simp [ofBits_zeros_append]
    · simp only [endianNat, fieldValue]
      rw [List.take_append_of_le_length (by simp; omega), List.take_of_length_le (by simp; omega)]
      have hb := beGroups_bytes 0 slots
      rw [hs, beGroups_pad 0 _ _ (by simp; omega) (by omega)] at hb
      rw [hb]
      have := beGroups_bytes 0 (List.replicate (W - (l.length + 7) / 8) 0 ++ slots)
      rw [← leNat_reverse, List.reverse_append, leNat_append, List.reverse_replicate,
        leNat_replicate_zero, leNat_reverse]
      simp

theorem fieldValue_lt (e : Endian) (l : List Bool) : fieldValue e .msb0 l < 2 ^ l.length := by
  cases e
  · exact leGroups_lt l
  · exact ofBits_lt l

/-- The reader delivers the number held by the next `n` bits. -/
def Delivers {α : Type} (o : Order) (n : Nat) (f : M Reader α) (val : List Bool → α) : Prop :=
  ∀ r : Reader, r.Healthy → r.WF →
    (n ≤ (r.unread o).length → ∃ r', f r = (.ok (val ((r.unread o).take n)), r') ∧ Step o n r r') ∧
    (¬ n ≤ (r.unread o).length → ∃ k r', f r = (.err (.incomplete k), r') ∧ n ≤ k + 8 ∧
      (r.NoPeek → k = n) ∧ Fail r r')

theorem readBitsInto_delivers (n : Nat) (o : Order) :
    Delivers o n (readBitsInto n o) (present o) := by
  intro r hf hw
  refine ⟨fun h => readBitsInto_ok o hf hw h, fun h => ?_⟩
  obtain ⟨r', h1, h2⟩ := readBitsInto_short o hf hw h
  exact ⟨n, r', h1, by omega, fun _ => rfl, h2⟩

theorem readUint_delivers {n : Nat} (h1 : 1 ≤ n) (h64 : n ≤ 64) :
    Delivers .msb0 n (readBitsUintMsb0 n) ofBits := by
  intro r hf hw
  refine ⟨fun h => uint_ok hf hw h1 h64 h, fun h => ?_⟩
  obtain ⟨r', h1, h2⟩ := uint_short hf h1 h64 h
  exact ⟨n, r', h1, by omega, fun _ => rfl, h2⟩

/-- The bytes whose bits, in consumption order, are `l`. -/
def bytesOf (o : Order) (l : List Bool) : List Byte :=
  match o with
  | .msb0 => packBytes (l.length / 8) l
  | .lsb0 => (packBytes (l.length / 8) l.reverse).reverse

theorem orderBits_bytesOf (o : Order) (l : List Bool) (h : l.length % 8 = 0) :
    orderBits o (bytesOf o l) = l := by
  have := packed o (l.length / 8) l (by omega)
  cases o <;> exact this

theorem bytesOf_orderBits (o : Order) (bs : List Byte) : bytesOf o (orderBits o bs) = bs :=
  orderBits_inj o (orderBits_bytesOf o _ (by simp))

theorem readBytes_delivers {k : Nat} (o : Order) (h1 : 1 ≤ k) :
    Delivers o (8 * k) (readBytes k o) (bytesOf o) := by
  intro r hf hw
  constructor
  · intro h
    obtain ⟨bs, r', h1, h2, h3⟩ := readBytes_ok o hf hw (.inr h1) h
    exact ⟨r', by rw [h1, ← h2, bytesOf_orderBits], h3⟩
  · intro h
    obtain ⟨j, r', h2, h3, h4, h5⟩ := readBytes_short o hf hw h
    refine ⟨j, r', h2, ?_, h3, h5.1, h5.2.1, h5.2.2.1, h5.2.2.2⟩
    by_cases hp : r.NoPeek
    · rw [h3 hp]; omega
    · rw [h4 hp]; omega

theorem Delivers.map {α β : Type} {o : Order} {n : Nat} {f : M Reader α} {val : List Bool → α}
    (h : Delivers o n f val) {g : α → M Reader β} {val' : List Bool → β}
    (hg : ∀ l r, l.length = n → g (val l) r = (.ok (val' l), r)) :
    Delivers o n (f >>= g) val' := by
  intro r hf hw
  constructor
  · intro hn
    obtain ⟨r', h1, h2⟩ := (h r hf hw).1 hn
    exact ⟨r', by rw [M.bind_ok h1]; exact hg _ _ (by simp; omega), h2⟩
  · intro hn
    obtain ⟨k, r', h1, h2⟩ := (h r hf hw).2 hn
    exact ⟨k, r', by rw [M.bind_err h1], h2⟩

theorem Delivers.congr {α : Type} {o : Order} {n : Nat} {f : M Reader α}
    {val val' : List Bool → α} (h : Delivers o n f val)
    (hv : ∀ l, l.length = n → val l = val' l) : Delivers o n f val' := by
  intro r hf hw
  refine ⟨fun hn => ?_, (h r hf hw).2⟩
  obtain ⟨r', h1, h2⟩ := (h r hf hw).1 hn
  exact ⟨r', by rw [h1, hv _ (by simp; omega)], h2⟩

theorem bufNat_eq (W : Nat) (e : Endian) (bs : List Byte) : bufNat W e bs = endianNat e bs := by
  cases e
  · simp only [bufNat, endianNat, leNat_append, leNat_replicate_zero]; simp
  · simp only [bufNat, endianNat]
    rw [← leNat_reverse, List.reverse_append, leNat_append, List.reverse_replicate,
      leNat_replicate_zero, leNat_reverse]; simp

theorem endianNat_bytesOf (e : Endian) (o : Order) (l : List Bool) (h : l.length % 8 = 0) :
    endianNat e (bytesOf o l) = fieldValue e o l := by
  have hb := orderBits_bytesOf o l h
  cases o <;> cases e <;> simp only [endianNat, fieldValue] <;> simp only [orderBits] at hb
  · rw [leNat_eq_leGroups, hb]
  · rw [← ofBits_bytesBits, hb]
  · rw [leNat_eq_lsb, hb]
  · have := beGroups_bytes 0 (bytesOf .lsb0 l)
    rw [hb] at this
    omega

theorem two_pow_le_pow {n W : Nat} (h : n ≤ 8 * W) : 2 ^ n ≤ 256 ^ W := by
  rw [show 256 = 2 ^ 8 by rfl, ← Nat.pow_mul]
  exact Nat.pow_le_pow_right (by omega) h

theorem readBits_delivers {W n : Nat} (e : Endian) (h1 : 1 ≤ n) (hW : n ≤ 8 * W) :
    Delivers .msb0 n (readBits W e n) (fieldValue e .msb0) := by
  unfold readBits
  rw [if_neg (by omega)]
  by_cases h : e = .big ∧ 0 < n ∧ n ≤ 64
  · rw [if_pos h]
    refine (readUint_delivers h1 h.2.2).map (fun l r hl => ?_)
    rw [Nat.mod_eq_of_lt (Nat.lt_of_lt_of_le (ofBits_lt l) (hl ▸ two_pow_le_pow hW))]
    rw [h.1]; rfl
  · rw [if_neg h]
    exact (readBitsInto_delivers n .msb0).map
      (fun l r hl => readSlice_run r (by simp [present, hl, h1]) (by simp [present, hl, hW]))

theorem readBitsOrd_delivers {W n : Nat} (e : Endian) (o : Order) (h1 : 1 ≤ n) (hW : n ≤ 8 * W) :
    Delivers o n (readBitsOrd W e n o) (fieldValue e o) := by
  unfold readBitsOrd
  rw [if_neg (by omega)]
  by_cases h : e = .big ∧ o = .msb0 ∧ 0 < n ∧ n ≤ 64
  · rw [if_pos h]
    obtain ⟨rfl, rfl, _, h64⟩ := h
    refine (readUint_delivers h1 h64).map (fun l r hl => ?_)
    rw [Nat.mod_eq_of_lt (Nat.lt_of_lt_of_le (ofBits_lt l) (hl ▸ two_pow_le_pow hW))]
    rfl
  · rw [if_neg h]
    refine (readBitsInto_delivers n o).map (fun l r hl => ?_)
    have hp : (present o l).length = n := by cases o <;> simp [present, hl]
    rw [readSliceOrd_run r (by omega) (by omega)]
    cases o <;> simp [present]

theorem readUBytesOrd_delivers {W k : Nat} (e : Endian) (o : Order) (hk : W ≠ 1 → 1 ≤ k)
    (hW : W ≠ 1 → k ≤ W) :
    Delivers o (if W = 1 then 8 else 8 * k) (readUBytesOrd W e k o) (fieldValue e o) := by
  unfold readUBytesOrd
  by_cases h : W = 1
  · rw [if_pos h, if_pos h]
    unfold readU8Bytes
    rw [readBytesConstInto_eq]
    refine (readBytes_delivers (k := 1) o (by omega)).map (fun l r hl => ?_)
    have := endianNat_bytesOf .big o l (by omega)
    simp only [endianNat] at this
    rw [this, M.pure_run]
    cases o <;> cases e <;> simp only [fieldValue]
    · rw [leGroups_short (by omega)]
    · rw [beGroups_cons (by intro h; simp [h] at hl), List.drop_eq_nil_of_le (by omega),
        beGroups_nil, List.take_of_length_le (by omega)]
      simp
  · rw [if_neg h, if_neg h]
    unfold readBytesOrd
    have := hW h
    rw [if_neg (by omega)]
    refine (readBytes_delivers o (hk h)).map (fun l r hl => ?_)
    rw [bufNat_eq, endianNat_bytesOf _ _ _ (by omega)]; rfl

theorem readWhole_delivers {W : Nat} (e : Endian) (hW : 1 ≤ W) :
    Delivers .msb0 (8 * W) (readWhole W e) (fieldValue e .msb0) := by
  unfold readWhole
  rw [readBytesConstInto_eq]
  refine (readBytes_delivers .msb0 hW).map (fun l r hl => ?_)
  rw [endianNat_bytesOf _ _ _ (by omega)]; rfl

/-- Every way of reading an unsigned integer delivers the value of the next bits. -/
theorem readUnsigned_delivers (native : Endian) {W : Nat} (ctx : IntCtx) (hW : 1 ≤ W) :
    let (e, n, o) := ctx.shape native W
    1 ≤ n → n ≤ 8 * W → Delivers o n (readUnsigned native W ctx) (fieldValue e o) := by
  cases ctx with
  | unit => exact fun _ _ => readWhole_delivers native hW
  | endian e => exact fun _ _ => readWhole_delivers e hW
  | bits n =>
    intro h1 h2
    simp only [readUnsigned]
    by_cases h : n % 8 = 0
    · rw [if_pos h]
      have := readUBytesOrd_delivers (W := W) (k := n / 8) native .msb0 (by omega) (by omega)
      rwa [show (if W = 1 then 8 else 8 * (n / 8)) = n by split <;> omega] at this
    · rw [if_neg h]; exact readBits_delivers native h1 h2
  | bytes k =>
    intro h1 h2
    refine readUBytesOrd_delivers native .msb0 ?_ ?_ <;> intro h <;> simp only [if_neg h] at h1 h2 <;> omega
  | order o =>
    intro h1 h2
    have := readUBytesOrd_delivers (W := W) (k := W) native o (by omega) (by omega)
    rwa [show (if W = 1 then 8 else 8 * W) = 8 * W by split <;> omega] at this
  | endianOrder e o =>
    intro h1 h2
    have := readUBytesOrd_delivers (W := W) (k := W) e o (by omega) (by omega)
    rwa [show (if W = 1 then 8 else 8 * W) = 8 * W by split <;> omega] at this
  | endianBits e n => exact fun h1 h2 => readBits_delivers e h1 h2
  | endianBytes e k =>
    intro h1 h2
    refine readUBytesOrd_delivers e .msb0 ?_ ?_ <;> intro h <;> simp only [if_neg h] at h1 h2 <;> omega
  | bitsOrder n o =>
    intro h1 h2
    simp only [readUnsigned]
    by_cases h : n % 8 = 0
    · rw [if_pos h]
      have := readUBytesOrd_delivers (W := W) (k := n / 8) native o (by omega) (by omega)
      rwa [show (if W = 1 then 8 else 8 * (n / 8)) = n by split <;> omega] at this
    · rw [if_neg h]; exact readBitsOrd_delivers native o h1 h2
  | endianBitsOrder e n o => exact fun h1 h2 => readBitsOrd_delivers e o h1 h2
  | endianBytesOrder e k o =>
    intro h1 h2
    refine readUBytesOrd_delivers e o ?_ ?_ <;> intro h <;> simp only [if_neg h] at h1 h2 <;> omega

/-! ### signed reads -/

theorem signExtend_eq {W n p : Nat} (hW : n ≤ 8 * W) :
    signExtend W n p = twosComplement n (p % 2 ^ n) := by
  have hpow : 256 ^ W = 2 ^ n * 2 ^ (8 * W - n) := by
    rw [← Nat.pow_add, show n + (8 * W - n) = 8 * W by omega, Nat.pow_mul]
  have hs : 0 < 2 ^ (8 * W - n) := Nat.two_pow_pos _
  simp only [signExtend, twosComplement, signed, hpow]
  generalize 2 ^ (8 * W - n) = s at *
  simp only [Nat.mul_mod_mul_right]
  generalize p % 2 ^ n = q
  generalize 2 ^ n = N
  have hc : 2 * (q * s) < N * s ↔ 2 * q < N := by
    rw [← Nat.mul_assoc]; exact Nat.mul_lt_mul_right hs
  have hs' : (s : Int) ≠ 0 := by omega
  by_cases h : 2 * q < N
  · rw [if_pos (hc.2 h), if_pos h]
    push_cast
    exact Int.mul_ediv_cancel _ hs'
  · rw [if_neg (fun h' => h (hc.1 h')), if_neg h]
    push_cast
    rw [← Int.sub_mul]
    exact Int.mul_ediv_cancel _ hs'

theorem signed_eq (W p : Nat) : signed W p = twosComplement (8 * W) p := by
  simp only [signed, twosComplement, show 256 ^ W = 2 ^ (8 * W) by rw [Nat.pow_mul]]

theorem readSignedBitsOrd_delivers {W n : Nat} (e : Endian) (o : Order) (h1 : 1 ≤ n)
    (hW : n ≤ 8 * W) :
    Delivers o n (readSignedBitsOrd W e n o)
      (fun l => twosComplement n (fieldValue e o l % 2 ^ n)) := by
  unfold readSignedBitsOrd
  rw [if_neg (by omega)]
  refine (readBitsInto_delivers n o).map (fun l r hl => ?_)
  have hp : (present o l).length = n := by cases o <;> simp [present, hl]
  unfold readSliceSigned
  rw [M.bind_ok (readSliceOrd_run r (by omega) (by omega)), if_neg (by omega), M.pure_run, hp,
    signExtend_eq hW]
  cases o <;> simp [present]

theorem readSignedBytesOrd_delivers {W k : Nat} (e : Endian) (o : Order) (h1 : 1 ≤ k)
    (hW : k ≤ W) :
    Delivers o (8 * k) (readSignedBytesOrd W e k o)
      (fun l => twosComplement (8 * W) (fieldValue e o l)) := by
  unfold readSignedBytesOrd
  rw [if_neg (by omega)]
  refine (readBytes_delivers o h1).map (fun l r hl => ?_)
  rw [bufNat_eq, endianNat_bytesOf _ _ _ (by omega), signed_eq]; rfl

theorem readSignedWhole_delivers {W : Nat} (e : Endian) (hW : 1 ≤ W) :
    Delivers .msb0 (8 * W) (readSignedWhole W e)
      (fun l => twosComplement (8 * W) (fieldValue e .msb0 l)) := by
  unfold readSignedWhole
  rw [readBytesConstInto_eq]
  refine (readBytes_delivers .msb0 hW).map (fun l r hl => ?_)
  rw [endianNat_bytesOf _ _ _ (by omega), signed_eq]; rfl

end Prim

/-! ### the range checks of the writers -/

theorem findIdx?_lt_iff {α : Type} (p : α → Bool) (l : List α) (m : Nat) :
    (∃ f, l.findIdx? p = some f ∧ f < m) ↔ (l.take m).any p = true := by
  induction l generalizing m with
  | nil => simp
  | cons a l ih =>
    cases m with
    | zero => simp
    | succ m =>
      rw [List.findIdx?_cons, List.take_succ_cons, List.any_cons]
      cases hp : p a
      · simp only [Bool.false_eq_true, if_false, Bool.false_or, ← ih m, Option.map_eq_some_iff]
        constructor
        · rintro ⟨f, ⟨a, h1, rfl⟩, h2⟩; exact ⟨a, h1, by omega⟩
        · rintro ⟨a, h1, h2⟩; exact ⟨a + 1, ⟨a, h1, rfl⟩, by omega⟩
      · simp

theorem any_iff_ofBits (l : List Bool) : l.any id = true ↔ ofBits l ≠ 0 := by
  induction l with
  | nil => simp [ofBits]
  | cons b l ih =>
    rw [List.any_cons, ofBits]
    cases b
    · simpa using ih
    · simp

theorem any_not_iff_ofBits (l : List Bool) : l.any (!·) = true ↔ ofBits l ≠ 2 ^ l.length - 1 := by
  induction l with
  | nil => simp [ofBits]
  | cons b l ih =>
    have h := ofBits_lt l
    rw [List.any_cons, ofBits, List.length_cons, Nat.pow_succ]
    cases b
    · simp; omega
    · simp only [Bool.not_true, Bool.false_or, ih]
      have : (true.toNat) * 2 ^ l.length = 2 ^ l.length := by simp
      omega

theorem firstOne_check {N n v : Nat} (h : n ≤ N) (hv : v < 2 ^ N) :
    (∃ f, firstOne (bitsBE N v) = some f ∧ N - n > f) ↔ 2 ^ n ≤ v := by
  rw [firstOne]
  have := findIdx?_lt_iff id (bitsBE N v) (N - n)
  rw [show (∃ f, List.findIdx? id (bitsBE N v) = some f ∧ N - n > f) ↔ _ from this,
    any_iff_ofBits, take_bitsBE _ _ _ (by omega), ofBits_bitsBE, show N - (N - n) = n by omega,
    Nat.mod_eq_of_lt]
  · rw [Nat.div_ne_zero_iff]
    have := Nat.two_pow_pos n
    omega
  · rw [Nat.div_lt_iff_lt_mul (Nat.two_pow_pos n), ← Nat.pow_add]
    rwa [show N - n + n = N by omega]

theorem findIdx?_lt_length {α : Type} {p : α → Bool} {l : List α} {f : Nat}
    (h : l.findIdx? p = some f) : f < l.length := by
  have := (List.findIdx?_eq_some_iff_findIdx_eq.mp h).1
  exact this

theorem bytesBitsLsb_toLE (W v : Nat) : bytesBitsLsb (toLE W v) = (bitsBE (8 * W) v).reverse := by
  rw [bytesBitsLsb_eq, ← bytesBits_toBE, toBE]

theorem lastOne_check {W n v : Nat} (h : n ≤ 8 * W) (hv : v < 256 ^ W) :
    (∃ f, lastOne (bytesBitsLsb (toLE W v)) = some f ∧ f + 1 > n) ↔ 2 ^ n ≤ v := by
  rw [← firstOne_check h (by rwa [Nat.pow_mul]), lastOne, bytesBitsLsb_toLE, List.reverse_reverse]
  simp only [firstOne, List.length_reverse, length_bitsBE, Option.map_eq_some_iff]
  constructor
  · rintro ⟨f, ⟨a, h1, rfl⟩, h2⟩
    have := findIdx?_lt_length h1
    rw [length_bitsBE] at this
    exact ⟨a, h1, by omega⟩
  · rintro ⟨a, h1, h2⟩
    have := findIdx?_lt_length h1
    rw [length_bitsBE] at this
    exact ⟨_, ⟨a, h1, rfl⟩, by omega⟩

theorem takeWhile_zeros (l : List Bool) (h : ofBits l ≠ 0) (n : Nat) :
    l.length - (l.takeWhile (!·)).length > n ↔ 2 ^ n ≤ ofBits l := by
  induction l with
  | nil => simp [ofBits] at h
  | cons b l ih =>
    rw [ofBits] at *
    cases b
    · rw [List.takeWhile_cons_of_pos (by rfl)]
      simp only [List.length_cons, Nat.add_sub_add_right, Bool.toNat_false, Nat.zero_mul,
        Nat.zero_add] at *
      exact ih h
    · rw [List.takeWhile_cons_of_neg (by simp)]
      simp only [List.length_cons, List.length_nil, Nat.sub_zero, Bool.toNat_true, Nat.one_mul]
      have hl := ofBits_lt l
      constructor
      · intro hn
        have := Nat.pow_le_pow_right (n := 2) (by omega) (show n ≤ l.length by omega)
        omega
      · intro hn
        by_cases hc : n ≤ l.length
        · omega
        · have := Nat.pow_le_pow_right (n := 2) (by omega) (show l.length + 1 ≤ n by omega)
          rw [Nat.pow_succ] at this
          omega

theorem significant_check (bs : List Byte) (n : Nat) :
    Prim.significant bs > n ↔ 2 ^ n ≤ beNat bs := by
  induction bs with
  | nil =>
    have := Nat.two_pow_pos n
    simp [Prim.significant, beNat]
  | cons b bs ih =>
    by_cases hb : b = 0
    · subst hb
      rw [show beNat (0 :: bs) = beNat bs by simp [beNat], ← ih]
      simp only [Prim.significant, List.findIdx?_cons, ne_eq, not_true_eq_false, decide_false,
        Bool.false_eq_true, if_false]
      cases h : bs.findIdx? (fun x => decide (x ≠ 0)) with
      | none => simp
      | some i => simp
    · simp only [Prim.significant, List.findIdx?_cons, ne_eq, hb, not_false_eq_true, decide_true,
        if_true, List.getD_cons_zero, Nat.sub_zero, List.length_cons]
      have hnz : ofBits (byteBits b) ≠ 0 := by
        rw [ofBits_byteBits]
        intro h
        exact hb (BitVec.eq_of_toNat_eq (by simpa using h))
      have hlt := beNat_lt bs
      have key := takeWhile_zeros (byteBits b)  hnz
      rw [ofBits_byteBits, length_byteBits] at key
      rw [beNat]
      have hpow : 256 ^ bs.length = 2 ^ (8 * bs.length) := by rw [Nat.pow_mul]
      rw [hpow] at hlt ⊢
      have hpos : 0 < b.toNat := by rw [ofBits_byteBits] at hnz; omega
      have hlz : (List.takeWhile (!·) (byteBits b)).length < 8 := by
        have := (key 0).2 (by rw [Nat.pow_zero]; exact hpos)
        omega
      by_cases hn : n < 8 * bs.length
      · have h1 := Nat.pow_le_pow_right (n := 2) (by omega) (show n ≤ 8 * bs.length by omega)
        have h2 : 1 * 2 ^ (8 * bs.length) ≤ b.toNat * 2 ^ (8 * bs.length) :=
          Nat.mul_le_mul_right _ hpos
        constructor
        · intro _; omega
        · intro _; omega
      · obtain ⟨m, rfl⟩ : ∃ m, n = m + 8 * bs.length := ⟨n - 8 * bs.length, by omega⟩
        rw [Nat.pow_add]
        have k1 := key m
        constructor
        · intro h
          have := Nat.mul_le_mul_right (2 ^ (8 * bs.length)) (k1.1 (by omega))
          omega
        · intro h
          have : 2 ^ m ≤ b.toNat := by
            apply Classical.byContradiction
            intro hc
            have := Nat.mul_le_mul_right (2 ^ (8 * bs.length)) (show b.toNat + 1 ≤ 2 ^ m by omega)
            rw [Nat.add_mul] at this
            omega
          have := k1.2 this
          omega

end Deku
