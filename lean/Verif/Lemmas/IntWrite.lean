import Verif.Lemmas.Int

/-! # What the integer writers produce -/

namespace Deku

namespace Writer

theorem Done.bind {o : Order} {a b : List Bool} {t t' : Order} {w : Writer} {x y : M Writer Unit}
    (hw : w.WF) (h : Done o a t w (x w))
    (h' : ∀ w', x w = (.ok (), w') → Wrote o a w w' → w'.tag = t → Done o b t' w' (y w')) :
    Done o (a ++ b) t' w ((x >>= fun _ => y) w) := by
  rcases h with ⟨w', hx, h1, ht⟩ | ⟨e, w', hx, h1⟩
  · rw [M.bind_ok hx]
    rcases h' w' hx h1 ht with ⟨w'', hy, h2, ht'⟩ | ⟨e, w'', hy, h2⟩
    · exact .inl ⟨w'', hy, h1.trans h2, ht'⟩
    · exact .inr ⟨e, w'', hy, by rw [List.length_append]; exact h1.broke hw h2⟩
  · rw [M.bind_err hx]
    exact .inr ⟨e, w', rfl, h1.mono (by simp)⟩

theorem Done.pure {o : Order} {w : Writer} (hw : w.WF) :
    Done o [] w.tag w ((Pure.pure () : M Writer Unit) w) :=
  .inl ⟨w, rfl, Wrote.refl o hw, rfl⟩

theorem Ready.start {o : Order} {w : Writer} (h : w.Ready o) (bits : List Bool)
    (hb : bits.length ≤ 8) : w.tag = o ∨ (w.leftover = [] ∧ bits.length ≤ 8) := by
  cases o
  · exact .inl h
  · rcases h with h | h
    · exact .inl h
    · exact .inr ⟨h, hb⟩

end Writer

namespace Prim

open Writer

/-- What `writeLoop` produces. -/
def loopBits (o : Order) : List Byte → Nat → List Bool
  | [], _ => []
  | c :: cs, n =>
    if n < 8 then present o ((byteBits c).drop (8 - n))
    else present o (byteBits c) ++ loopBits o cs (n - 8)

theorem writeLoop_done {o : Order} {w : Writer} (hw : w.WF) (bs : List Byte) (n : Nat)
    (h : w.tag = o ∨ (w.leftover = [] ∧ bs ≠ [])) :
    Done o (loopBits o bs n) o w (writeLoop o bs n w) := by
  induction bs generalizing w n with
  | nil =>
    simp at h
    subst h
    exact Done.pure hw
  | cons c cs ih =>
    have hs : ∀ l : List Bool, l.length ≤ 8 → w.tag = o ∨ (w.leftover = [] ∧ l.length ≤ 8) := by
      intro l hl
      rcases h with h | h
      · exact .inl h
      · exact .inr ⟨h.1, hl⟩
    simp only [writeLoop, loopBits]
    by_cases hn : n < 8
    · rw [if_pos hn, if_pos hn]
      exact writeBitsOrder_done hw o _ (hs _ (by simp))
    · rw [if_neg hn, if_neg hn]
      exact Done.bind hw (writeBitsOrder_done hw o _ (hs _ (by simp)))
        (fun w' _ h1 ht => ih h1.wf _ (.inl ht))

theorem byteBits_ofNat (v : Nat) : byteBits (BitVec.ofNat 8 v) = bitsBE 8 v := by
  rw [byteBits, BitVec.toNat_ofNat, bitsBE_mod]

theorem leBits_short {n v : Nat} (h : n ≤ 8) : leBits n v = bitsBE n v := by rw [leBits, if_pos h]

theorem leBits_long {n v : Nat} (h : 8 ≤ n) :
    leBits n v = bitsBE 8 v ++ leBits (n - 8) (v / 256) := by
  by_cases h8 : n = 8
  · subst h8; simp [leBits_short, bitsBE]
  · rw [leBits, if_neg (by omega)]

theorem length_leBits (n v : Nat) : (leBits n v).length = n := by
  induction n using Nat.strongRecOn generalizing v with
  | _ n ih =>
    by_cases h : n ≤ 8
    · rw [leBits_short h]; simp
    · rw [leBits_long (by omega), List.length_append, ih _ (by omega)]; simp; omega

theorem loopBits_le (o : Order) {W n : Nat} (v : Nat) (h : n ≤ 8 * W) :
    loopBits o (toLE W v) n = fieldBits .little o n v := by
  induction W generalizing n v with
  | zero =>
    have : n = 0 := by omega
    subst this
    cases o <;> simp [loopBits, toLE, fieldBits, bitsBE, leBits_short]
  | succ W ih =>
    simp only [toLE, loopBits, byteBits_ofNat]
    by_cases hn : n < 8
    · rw [if_pos hn, drop_bitsBE, show 8 - (8 - n) = n by omega]
      cases o
      · simp [present, fieldBits, leBits_short (show n ≤ 8 by omega)]
      · simp [present, fieldBits]
    · rw [if_neg hn, ih _ (by omega)]
      cases o
      · simp only [present, fieldBits]; rw [← leBits_long (by omega)]
      · simp only [present, fieldBits]
        rw [bitsBE_split n (n - 8) 8 (by omega) (by omega), List.reverse_append]

theorem loopBits_full (o : Order) (bs : List Byte) :
    loopBits o bs (8 * bs.length) = orderBits o bs := by
  induction bs with
  | nil => cases o <;> rfl
  | cons c cs ih =>
    simp only [loopBits, List.length_cons]
    rw [if_neg (by omega), show 8 * (cs.length + 1) - 8 = 8 * cs.length by omega, ih]
    cases o <;> rfl

theorem toLE_ne_nil {W v : Nat} (h : 1 ≤ W) : toLE W v ≠ [] := by
  intro h'; have := congrArg List.length h'; simp at this; omega

theorem toBE_ne_nil {W v : Nat} (h : 1 ≤ W) : toBE W v ≠ [] := by
  intro h'; have := congrArg List.length h'; simp at this; omega

theorem Ready.loop {o : Order} {w : Writer} (h : w.Ready o) {bs : List Byte} (hb : bs ≠ []) :
    w.tag = o ∨ (w.leftover = [] ∧ bs ≠ []) := by
  cases o
  · exact .inl h
  · rcases h with h | h
    · exact .inl h
    · exact .inr ⟨h, hb⟩

/-- The combinations for which the writer produces what the reader expects. -/
def Sound (W : Nat) (e : Endian) (n : Nat) (o : Order) : Prop :=
  o = .lsb0 → e = .big → n ≤ 8 ∨ n = 8 * W

theorem fieldBits_be_lsb_short {n v : Nat} (h : n ≤ 8) :
    fieldBits .big .lsb0 n v = (bitsBE n v).reverse := by
  simp only [fieldBits]
  by_cases h0 : n = 0
  · subst h0; simp [bitsBE]
  · rw [show (n + 7) / 8 = 1 by omega]
    simp only [toBE, toLE, List.reverse_cons, List.reverse_nil, List.nil_append, bytesBitsLsb_cons,
      bytesBitsLsb_nil, List.append_nil, byteBits_ofNat]
    rw [List.take_reverse, length_bitsBE, drop_bitsBE, show 8 - (8 - n) = n by omega]

theorem fieldBits_be_lsb_full (W v : Nat) :
    fieldBits .big .lsb0 (8 * W) v = bytesBitsLsb (toBE W v) := by
  simp only [fieldBits]
  rw [show (8 * W + 7) / 8 = W by omega, List.take_of_length_le (by simp)]

theorem length_fieldBits (e : Endian) (o : Order) (n v : Nat) : (fieldBits e o n v).length = n := by
  cases o <;> cases e <;> simp [fieldBits, length_leBits]
  omega

theorem firstCheck_run {N n v : Nat} {w : Writer} {k : M Writer Unit} (h : n ≤ N) (hv : v < 2 ^ N) :
    (checkFirst (N - n) (firstOne (bitsBE N v)) >>= fun _ => k) w =
    if v < 2 ^ n then k w else (.err .invalidParam, w) := by
  have hc := firstOne_check h hv
  cases hf : firstOne (bitsBE N v) with
  | none =>
    rw [if_pos (by
      apply Classical.byContradiction
      intro hn
      obtain ⟨f, h1, _⟩ := hc.2 (by omega)
      rw [hf] at h1; simp at h1)]
    rfl
  | some f =>
    by_cases hlt : N - n > f
    · have := hc.1 ⟨f, hf, hlt⟩
      rw [if_neg (by omega)]
      simp only [checkFirst, if_pos hlt]; rfl
    · rw [if_pos (by
        apply Classical.byContradiction
        intro hn
        obtain ⟨f', h1, h2⟩ := hc.2 (by omega)
        rw [hf] at h1; simp at h1; omega)]
      simp only [checkFirst, if_neg hlt]; rfl

theorem lastCheck_run {W n v : Nat} {w : Writer} {k : M Writer Unit} (h : n ≤ 8 * W)
    (hv : v < 256 ^ W) :
    (checkLast 1 n (lastOne (bytesBitsLsb (toLE W v))) >>= fun _ => k) w =
    if v < 2 ^ n then k w else (.err .invalidParam, w) := by
  have hc := lastOne_check h hv
  cases hf : lastOne (bytesBitsLsb (toLE W v)) with
  | none =>
    rw [if_pos (by
      apply Classical.byContradiction
      intro hn
      obtain ⟨f, h1, _⟩ := hc.2 (by omega)
      rw [hf] at h1; simp at h1)]
    rfl
  | some f =>
    by_cases hlt : f + 1 > n
    · have := hc.1 ⟨f, hf, hlt⟩
      rw [if_neg (by omega)]
      simp only [checkLast, if_pos hlt]; rfl
    · rw [if_pos (by
        apply Classical.byContradiction
        intro hn
        obtain ⟨f', h1, h2⟩ := hc.2 (by omega)
        rw [hf] at h1; simp at h1; omega)]
      simp only [checkLast, if_neg hlt]; rfl

theorem pow256 (W : Nat) : 256 ^ W = 2 ^ (8 * W) := by rw [Nat.pow_mul]

theorem beNat_drop_toBE (W v : Nat) (k : Nat) :
    beNat ((toBE W v).drop (W - k)) = v % 256 ^ (min k W) := by
  rw [← ofBits_bytesBits, ← drop_bytesBits, bytesBits_toBE, drop_bitsBE, ofBits_bitsBE, pow256]
  congr 2; omega

/-- `(Endian, BitSize, Order)` of all unsigned types but `u8`, on a value that does not fit. -/
theorem writeBitsOrd_refuses {W n v : Nat} (e : Endian) (o : Order) (w : Writer)
    (hv : v < 256 ^ W) (h : 8 * W < n ∨ 2 ^ n ≤ v) :
    writeBitsOrd W e n o v w = (.err .invalidParam, w) := by
  have hlen : (bytesBits (endianBytes W e v)).length = 8 * W := by
    cases e <;> simp [endianBytes]
  simp only [writeBitsOrd, hlen]
  by_cases hn : n > 8 * W
  · rw [if_pos hn]; rfl
  · rw [if_neg hn]
    have hle : n ≤ 8 * W := by omega
    have h2 : ¬ v < 2 ^ n := by omega
    cases e
    · simp only [endianBytes]
      rw [lastCheck_run hle hv, if_neg h2]
    · cases o
      · simp only [M.get_bind_run]
        rw [show endianBytes W .big v = toBE W v from rfl]
        by_cases hf : n ≤ 64 ∧ w.tag = .msb0
        · rw [if_pos hf, if_pos ((significant_check _ _).2 (by
            rw [beNat_toBE, Nat.mod_eq_of_lt hv]; omega))]
          rfl
        · rw [if_neg hf, bytesBits_toBE, firstCheck_run hle (by rwa [← pow256]), if_neg h2]
      · simp only [endianBytes, bytesBits_toBE]
        rw [firstCheck_run hle (by rwa [← pow256]), if_neg h2]

/-- `(Endian, BitSize, Order)` of all unsigned types but `u8`, on a value that fits. -/
theorem writeBitsOrd_done {W n v : Nat} {e : Endian} {o : Order} {w : Writer} (hw : w.WF)
    (hr : w.Ready o) (h1 : 1 ≤ n) (hW : n ≤ 8 * W) (hv : v < 2 ^ n) (hs : Sound W e n o) :
    Done o (fieldBits e o n v) o w (writeBitsOrd W e n o v w) := by
  have hlen : (bytesBits (endianBytes W e v)).length = 8 * W := by
    cases e <;> simp [endianBytes]
  have hvW : v < 256 ^ W := Nat.lt_of_lt_of_le hv (two_pow_le_pow hW)
  simp only [writeBitsOrd, hlen]
  rw [if_neg (by omega)]
  cases e
  · simp only [endianBytes]
    rw [lastCheck_run hW hvW, if_pos hv, ← loopBits_le o v hW]
    exact writeLoop_done hw _ _ (Ready.loop hr (toLE_ne_nil (by omega)))
  · cases o
    · simp only [M.get_bind_run]
      rw [show endianBytes W .big v = toBE W v from rfl]
      by_cases hf : n ≤ 64 ∧ w.tag = .msb0
      · rw [if_pos hf, if_neg (fun h => by
          have := (significant_check _ _).1 h
          rw [beNat_toBE, Nat.mod_eq_of_lt hvW] at this; omega)]
        have := writeBitsUintMsb0_done hw hf.2 (beNat ((toBE W v).drop ((toBE W v).length - 8))) n
          h1 hf.1
        rw [length_toBE, beNat_drop_toBE] at this
        rw [length_toBE, beNat_drop_toBE]
        have he : v % 256 ^ min 8 W = v := by
          apply Nat.mod_eq_of_lt
          refine Nat.lt_of_lt_of_le hv (two_pow_le_pow ?_)
          omega
        rw [he] at this ⊢
        exact this
      · rw [if_neg hf, bytesBits_toBE, firstCheck_run hW (by rwa [← pow256]), if_pos hv,
          drop_bitsBE, show 8 * W - (8 * W - n) = n by omega]
        exact writeBitsOrder_done hw .msb0 _ (.inl hr)
    · simp only [endianBytes, bytesBits_toBE]
      rw [firstCheck_run hW (by rwa [← pow256]), if_pos hv]
      by_cases h8 : n ≤ 8
      · rw [if_pos h8, drop_bitsBE, show 8 * W - (8 * W - n) = n by omega,
          fieldBits_be_lsb_short h8]
        exact writeBitsOrder_done hw .lsb0 _ (Ready.start hr _ (by simp; omega))
      · rw [if_neg h8]
        have hn : n = 8 * W := (hs rfl rfl).resolve_left h8
        subst hn
        rw [fieldBits_be_lsb_full, show bytesBitsLsb (toBE W v) = orderBits .lsb0 (toBE W v) from rfl,
          ← loopBits_full, length_toBE]
        exact writeLoop_done hw _ _ (Ready.loop hr (toBE_ne_nil (by omega)))

theorem fieldBits_small {e : Endian} {n v : Nat} (o : Order) (h : n ≤ 8) :
    fieldBits e o n v = present o (bitsBE n v) := by
  cases o <;> cases e
  · simp [fieldBits, leBits_short h, present]
  · rfl
  · rfl
  · rw [fieldBits_be_lsb_short h]; rfl

theorem bytesBits_toLE1 (v : Nat) : bytesBits (toLE 1 v) = bitsBE 8 v := by
  simp [toLE, byteBits_ofNat]

theorem writeU8BitsOrd_refuses {n v : Nat} (o : Order) (w : Writer) (hv : v < 256)
    (h : 8 < n ∨ 2 ^ n ≤ v) : writeU8BitsOrd n o v w = (.err .invalidParam, w) := by
  simp only [writeU8BitsOrd, M.get_bind_run]
  by_cases hf : o = .msb0 ∧ w.tag = .msb0 ∧ n ≤ 8
  · have h2 : 2 ^ n ≤ v := by omega
    have hn : n < 8 := by
      apply Classical.byContradiction
      intro hc
      have : n = 8 := by omega
      subst this; omega
    rw [if_pos hf, if_pos ⟨hn, by
      rw [Nat.div_ne_zero_iff]; have := Nat.two_pow_pos n; omega⟩]
    rfl
  · rw [if_neg hf, bytesBits_toLE1, length_bitsBE]
    by_cases hn : n > 8
    · rw [if_pos hn]; rfl
    · rw [if_neg hn, firstCheck_run (by omega) (by omega), if_neg (by omega)]

theorem writeU8BitsOrd_done {n v : Nat} (e : Endian) {o : Order} {w : Writer} (hw : w.WF)
    (hr : w.Ready o) (h1 : 1 ≤ n) (h8 : n ≤ 8) (hv : v < 2 ^ n) :
    Done o (fieldBits e o n v) o w (writeU8BitsOrd n o v w) := by
  have hv8 : v < 2 ^ 8 := Nat.lt_of_lt_of_le hv (Nat.pow_le_pow_right (by omega) h8)
  simp only [writeU8BitsOrd, M.get_bind_run]
  rw [fieldBits_small o h8]
  by_cases hf : o = .msb0 ∧ w.tag = .msb0 ∧ n ≤ 8
  · obtain ⟨rfl, ht, _⟩ := hf
    rw [if_pos ⟨rfl, ht, h8⟩, if_neg (fun h => h.2 (Nat.div_eq_of_lt hv))]
    exact writeBitsUintMsb0_done hw ht v n h1 (by omega)
  · rw [if_neg hf, bytesBits_toLE1, length_bitsBE, if_neg (by omega),
      firstCheck_run h8 hv8, if_pos hv, drop_bitsBE, show 8 - (8 - n) = n by omega]
    exact writeBitsOrder_done hw o _ (Ready.start hr _ (by simp; omega))

theorem writeBits_refuses {W n v : Nat} (e : Endian) (w : Writer)
    (hv : v < 256 ^ W) (h : 8 * W < n ∨ 2 ^ n ≤ v) :
    writeBits W e n v w = (.err .invalidParam, w) := by
  have hlen : (bytesBits (endianBytes W e v)).length = 8 * W := by
    cases e <;> simp [endianBytes]
  simp only [writeBits, hlen]
  by_cases hn : n > 8 * W
  · rw [if_pos hn]; rfl
  · rw [if_neg hn]
    have hle : n ≤ 8 * W := by omega
    have h2 : ¬ v < 2 ^ n := by omega
    cases e
    · simp only [endianBytes]
      rw [lastCheck_run hle hv, if_neg h2]
    · simp only [endianBytes, bytesBits_toBE]
      rw [firstCheck_run hle (by rwa [← pow256]), if_neg h2]

/-- No lower bound on the number of bits here: no accumulator path. -/
theorem writeBits_done {W n v : Nat} {e : Endian} {w : Writer} (hw : w.WF) (hr : w.tag = .msb0)
    (hW : n ≤ 8 * W) (hv : v < 2 ^ n) :
    Done .msb0 (fieldBits e .msb0 n v) .msb0 w (writeBits W e n v w) := by
  have hlen : (bytesBits (endianBytes W e v)).length = 8 * W := by
    cases e <;> simp [endianBytes]
  have hvW : v < 256 ^ W := Nat.lt_of_lt_of_le hv (two_pow_le_pow hW)
  simp only [writeBits, hlen]
  rw [if_neg (by omega)]
  cases e
  · simp only [endianBytes]
    rw [lastCheck_run hW hvW, if_pos hv, ← loopBits_le .msb0 v hW]
    exact writeLoop_done hw _ _ (.inl hr)
  · simp only [endianBytes, bytesBits_toBE]
    rw [firstCheck_run hW (by rwa [← pow256]), if_pos hv, drop_bitsBE,
      show 8 * W - (8 * W - n) = n by omega]
    exact writeBitsOrder_done hw .msb0 _ (.inl hr)

theorem bytesBits_toLE (W v : Nat) : bytesBits (toLE W v) = leBits (8 * W) v := by
  have := loopBits_le .msb0 (W := W) (n := 8 * W) v (by omega)
  rw [show 8 * W = 8 * (toLE W v).length by simp, loopBits_full, length_toLE] at this
  exact this

theorem take_toLE (W k v : Nat) (h : k ≤ W) : (toLE W v).take k = toLE k v := by
  induction k generalizing W v with
  | zero => simp [toLE]
  | succ k ih =>
    obtain ⟨W, rfl⟩ : ∃ m, W = m + 1 := ⟨W - 1, by omega⟩
    simp only [toLE, List.take_succ_cons]
    rw [ih _ _ (by omega)]

theorem drop_toBE (W k v : Nat) (h : k ≤ W) : (toBE W v).drop (W - k) = toBE k v := by
  rw [toBE, List.drop_reverse, length_toLE, show W - (W - k) = k by omega, take_toLE _ _ _ h]; rfl

/-- The bytes a byte-sized write sends. -/
theorem writeBytes_eq {W k : Nat} (e : Endian) (v : Nat) (h : k ≤ W) :
    writeBytes W e k v = Writer.writeBytes (endianBytes k e v) := by
  simp only [writeBytes]
  rw [if_neg (by omega)]
  cases e
  · simp only [endianBytes]; rw [take_toLE _ _ _ h]
  · simp only [endianBytes]; rw [drop_toBE _ _ _ h]

theorem orderBits_endianBytes (e : Endian) (o : Order) (k v : Nat) :
    orderBits o (endianBytes k e v) = fieldBits e o (8 * k) v := by
  cases o <;> cases e <;> simp only [orderBits, endianBytes]
  · exact bytesBits_toLE k v
  · exact bytesBits_toBE k v
  · exact bytesBitsLsb_toLE k v
  · exact (fieldBits_be_lsb_full k v).symm

end Prim

end Deku
