import Verif.Lemmas.Yields
import Verif.Lemmas.IntRound

/-! # Integers of one byte on little and big endian machines -/

namespace Deku

open Reader

variable {σ α β : Type}

theorem M.bind_congr_ok {x : M σ α} {f g : α → M σ β} (h : ∀ s a s', x s = (.ok a, s') → f a s' = g a s') :
    x >>= f = x >>= g := by
  funext s
  rw [M.bind_def, M.bind_def]
  cases e : x s with
  | mk r s' =>
    cases r with
    | ok a => exact h s a s' e
    | err _ => rfl
    | panic => rfl

theorem Yields.congr {R : α → Prop} {x : M σ α} (hx : Yields R x) {f g : α → M σ β} (h : ∀ a, R a → f a = g a) :
    x >>= f = x >>= g :=
  M.bind_congr_ok fun s a s' e => by rw [h a (hx s a s' trivial e).2]

namespace Prim

theorem endianNat_one {bs : List Byte} (h : bs.length ≤ 1) (e e' : Endian) : endianNat e bs = endianNat e' bs := by
  have : leNat bs = beNat bs := by
    match bs, h with
    | [], _ => rfl
    | [b], _ => simp [leNat, beNat]
  cases e <;> cases e' <;> simp [endianNat, this]

theorem endianBytes_one (v : Nat) (e e' : Endian) : endianBytes 1 e v = endianBytes 1 e' v := by
  cases e <;> cases e' <;> rfl

theorem fieldValue_one (o : Order) {l : List Bool} (h1 : 1 ≤ l.length) (h : l.length ≤ 8) (e e' : Endian) :
    fieldValue e o l = fieldValue e' o l := by
  have : fieldValue .little o l = fieldValue .big o l := by
    cases o
    · exact leGroups_short h
    · have hn : l ≠ [] := by rintro rfl; simp at h1
      simp only [fieldValue]
      rw [beGroups_cons hn, List.take_of_length_le h, List.drop_eq_nil_of_le h, beGroups_nil]
      simp
  cases e <;> cases e' <;> simp [this]

theorem readSliceOrd_one (o : Order) {l : List Bool} (h1 : 1 ≤ l.length) (h : l.length ≤ 8) (e e' : Endian) :
    readSliceOrd 1 e o l = readSliceOrd 1 e' o l := by
  funext r
  rw [readSliceOrd_run r h1 (by omega), readSliceOrd_run r h1 (by omega),
    fieldValue_one o (by cases o <;> simpa [present] using h1) (by cases o <;> simpa [present] using h) e e']

theorem readSlice_one {l : List Bool} (h1 : 1 ≤ l.length) (h : l.length ≤ 8) (e e' : Endian) :
    readSlice 1 e l = readSlice 1 e' l := by
  funext r
  rw [readSlice_run r h1 (by omega), readSlice_run r h1 (by omega), fieldValue_one .msb0 h1 h e e']

/-- The fast path for a few bits does what the general one does, on every reader. -/
theorem readBitsUintMsb0_eq {n : Nat} (h1 : 1 ≤ n) (h : n ≤ 7) :
    readBitsUintMsb0 n = (do let l ← readBitsInto n .msb0; pure (ofBits l)) := by
  funext r
  have ha : (decide (1 ≤ n) && decide (n ≤ 64)) = true := by simp; omega
  simp only [readBitsUintMsb0, ha, M.assert_true_bind_run, M.get_bind_run, M.modify_bind_run]
  rw [M.bind_def (readBitsInto n .msb0)]
  unfold readBitsInto
  rw [if_neg (by omega)]
  simp only [M.get_bind_run, M.modify_bind_run]
  generalize leftoverBits r.leftover = lo
  have hstop : ∀ (k acc : Nat) (q : Reader) (m : Nat), n ≤ m → uintLoop n k acc m q = (.ok (acc, m), q) := by
    intro k acc q m hm
    cases k with
    | zero => rfl
    | succ k => rw [uintLoop, if_neg (by omega)]; rfl
  by_cases h2 : n < lo.length
  · rw [M.bind_ok (hstop _ _ _ _ (by omega)), if_pos h2]
    have hr : lo.length - n ≠ 0 := by omega
    have hd : bitsBE (lo.length - n) (ofBits lo) = lo.drop n := by rw [← drop_bitsBE, bitsBE_ofBits]
    have ht : ofBits lo / 2 ^ (lo.length - n) % 2 ^ n = ofBits (lo.take n) := by
      rw [← ofBits_bitsBE, ← take_bitsBE _ _ _ (by omega), bitsBE_ofBits]
    simp only [if_pos hr, hd, ht, M.modify_bind_run, M.pure_bind_run, M.pure_run]
  · rw [if_neg h2]
    by_cases h3 : n = lo.length
    · rw [M.bind_ok (hstop _ _ _ _ (by omega)), if_pos h3]
      have ht : ofBits lo % 2 ^ lo.length = ofBits lo := Nat.mod_eq_of_lt (ofBits_lt lo)
      simp [h3, ht]
    · rw [if_neg h3]
      have hq : (n - lo.length) / 8 = 0 := by omega
      have hm : (n - lo.length) % 8 = n - lo.length := by omega
      obtain ⟨k, rfl⟩ : ∃ k, n = k + 1 := ⟨n - 1, by omega⟩
      rw [hq, hm]
      simp only [uintLoop, readSlots, M.pure_bind_run, readPartial, if_neg (show ¬ k + 1 - lo.length = 0 by omega),
        if_pos (show lo.length < k + 1 by omega)]
      generalize ({ r with leftover := none } : Reader) = q
      cases e : ioRead 1 q with
      | mk x q' =>
        cases x with
        | ok x =>
          cases x with
          | ok bs =>
            rw [M.bind_ok (a := (ofBits lo * 256 + (bs.headD 0).toNat, lo.length + 8)) (s' := q') (by
              rw [M.bind_ok e]; exact hstop _ _ _ _ (by omega))]
            have hb : ofBits lo * 256 + (bs.headD 0).toNat = ofBits (lo ++ byteBits (bs.headD 0)) := by
              rw [ofBits_append, ofBits_byteBits, length_byteBits]
            have hl : (lo ++ byteBits (bs.headD 0)).length = lo.length + 8 := by
              rw [List.length_append, length_byteBits]
            have hr : lo.length + 8 - (k + 1) ≠ 0 := by omega
            have hd : bitsBE (lo.length + 8 - (k + 1)) (ofBits (lo ++ byteBits (bs.headD 0))) =
                (byteBits (bs.headD 0)).drop (k + 1 - lo.length) := by
              rw [← drop_bitsBE, ← hl, bitsBE_ofBits, List.drop_append, List.drop_eq_nil_of_le (by omega),
                List.nil_append]
            have ht : ofBits (lo ++ byteBits (bs.headD 0)) / 2 ^ (lo.length + 8 - (k + 1)) % 2 ^ (k + 1) =
                ofBits (lo ++ (byteBits (bs.headD 0)).take (k + 1 - lo.length)) := by
              rw [← ofBits_bitsBE, ← take_bitsBE _ _ _ (by omega), ← hl, bitsBE_ofBits, List.take_append,
                List.take_of_length_le (by omega)]
            simp only [if_pos hr, hb, hd, ht, M.bind_def, e, bytesBits, List.append_nil, M.modify, pure]
            rfl
          | error er => cases er <;> simp [M.bind_def, e, M.throw]
        | err _ => simp [M.bind_def, e]
        | panic => simp [M.bind_def, e]

theorem readWhole_one (e e' : Endian) : readWhole 1 e = readWhole 1 e' :=
  (readBytesConstInto_yields 1 .msb0).congr fun bs h => by rw [endianNat_one (Nat.le_of_eq h) e e']

theorem readSignedWhole_one (e e' : Endian) : readSignedWhole 1 e = readSignedWhole 1 e' :=
  (readBytesConstInto_yields 1 .msb0).congr fun bs h => by rw [endianNat_one (Nat.le_of_eq h) e e']

theorem readSignedBytesOrd_one (k : Nat) (o : Order) (e e' : Endian) :
    readSignedBytesOrd 1 e k o = readSignedBytesOrd 1 e' k o := by
  unfold readSignedBytesOrd
  split
  · rfl
  · exact (readBytes_yields k o).congr fun bs h => by
      rw [bufNat_eq, bufNat_eq, endianNat_one (by omega) e e']

theorem readBits_one {n : Nat} (h : n % 8 ≠ 0) (e e' : Endian) : readBits 1 e n = readBits 1 e' n := by
  have key : readBits 1 .big n = readBits 1 .little n := by
    unfold readBits
    split
    · rfl
    · rw [if_pos ⟨rfl, by omega, by omega⟩, if_neg (by simp), readBitsUintMsb0_eq (by omega) (by omega)]
      funext r
      rw [M.bind_assoc_run]
      refine congrFun ((readBitsInto_yields n .msb0).congr fun l hl => ?_) r
      funext r
      rw [readSlice_run r (by omega) (by omega), M.pure_bind_run, Nat.mod_eq_of_lt]
      · simp only [fieldValue]
        rw [leGroups_short (by omega)]
        rfl
      · exact Nat.lt_of_lt_of_le (ofBits_lt l) (two_pow_le_pow (by omega))
  cases e <;> cases e' <;> simp [key]

theorem readBitsOrd_one {n : Nat} (o : Order) (h : n % 8 ≠ 0) (e e' : Endian) :
    readBitsOrd 1 e n o = readBitsOrd 1 e' n o := by
  have key : readBitsOrd 1 .big n o = readBitsOrd 1 .little n o := by
    unfold readBitsOrd
    split
    · rfl
    · cases o with
      | lsb0 =>
        rw [if_neg (by simp), if_neg (by simp)]
        exact (readBitsInto_yields n .lsb0).congr fun l hl => readSliceOrd_one _ (by omega) (by omega) _ _
      | msb0 =>
        rw [if_pos ⟨rfl, rfl, by omega, by omega⟩, if_neg (by simp), readBitsUintMsb0_eq (by omega) (by omega)]
        funext r
        rw [M.bind_assoc_run]
        refine congrFun ((readBitsInto_yields n .msb0).congr fun l hl => ?_) r
        funext r
        rw [readSliceOrd_run r (by omega) (by omega), M.pure_bind_run, Nat.mod_eq_of_lt]
        · simp only [fieldValue, present]
          rw [leGroups_short (by omega)]
          rfl
        · exact Nat.lt_of_lt_of_le (ofBits_lt l) (two_pow_le_pow (by omega))
  cases e <;> cases e' <;> simp [key]

theorem readSignedBitsOrd_one {n : Nat} (o : Order) (h : n % 8 ≠ 0) (e e' : Endian) :
    readSignedBitsOrd 1 e n o = readSignedBitsOrd 1 e' n o := by
  unfold readSignedBitsOrd
  split
  · rfl
  · refine (readBitsInto_yields n o).congr fun l hl => ?_
    rw [readSliceSigned, readSliceSigned, readSliceOrd_one o (by omega) (by omega) e e']

/-- A `u8` is read alike on all machines, with any context. -/
theorem readUnsigned_one (ctx : IntCtx) (e e' : Endian) : readUnsigned e 1 ctx = readUnsigned e' 1 ctx := by
  cases ctx with
  | unit => exact readWhole_one e e'
  | bits n =>
    simp only [readUnsigned]
    split
    · rfl
    · exact readBits_one (by assumption) e e'
  | bitsOrder n o =>
    simp only [readUnsigned]
    split
    · rfl
    · exact readBitsOrd_one o (by assumption) e e'
  | _ => rfl

theorem readSigned_one (ctx : IntCtx) (e e' : Endian) : readSigned e 1 ctx = readSigned e' 1 ctx := by
  cases ctx with
  | unit => exact readSignedWhole_one e e'
  | bits n =>
    simp only [readSigned]
    split
    · exact readSignedBytesOrd_one _ _ e e'
    · exact readSignedBitsOrd_one .msb0 (by assumption) e e'
  | bitsOrder n o =>
    simp only [readSigned]
    split
    · exact readSignedBytesOrd_one _ _ e e'
    · exact readSignedBitsOrd_one o (by assumption) e e'
  | bytes k => exact readSignedBytesOrd_one k .msb0 e e'
  | order o => exact readSignedBytesOrd_one 1 o e e'
  | _ => rfl

/-! ### writing -/

theorem writeUnsigned_one (ctx : IntCtx) (e e' : Endian) : writeUnsigned e 1 ctx = writeUnsigned e' 1 ctx := by
  cases ctx with
  | unit => funext v; simp only [writeUnsigned, writeWhole, endianBytes_one v e e']
  | _ => funext v; simp only [writeUnsigned, writeUBits, writeUBytes, writeUBitsOrd, if_true]

theorem writeBytes_one (k v : Nat) (e e' : Endian) : writeBytes 1 e k v = writeBytes 1 e' k v := by
  have key : writeBytes 1 .big k v = writeBytes 1 .little k v := by
    unfold writeBytes
    rw [endianBytes_one v .big .little]
    split
    · rfl
    · rcases (by omega : k = 0 ∨ k = 1) with rfl | rfl <;> simp [endianBytes, toLE]
  cases e <;> cases e' <;> simp [key]

theorem writeLoop_one (c : Byte) {n : Nat} (h : n ≤ 8) :
    writeLoop .msb0 [c] n = Writer.writeBits ((byteBits c).drop (8 - n)) := by
  rw [writeLoop]
  by_cases h8 : 8 > n
  · rw [if_pos h8]; rfl
  · rw [if_neg h8, show 8 - n = 0 by omega, List.drop_zero]
    funext w
    simp only [writeLoop, Writer.writeBits, M.bind_def]
    split <;> simp_all [pure, M.pure]

theorem last_first (p : Bool → Bool) (c : Byte) {n : Nat} (h : n ≤ 8) :
    checkLast 2 n (((bytesBitsLsb [c]).reverse.findIdx? p).map fun i => (bytesBitsLsb [c]).length - 1 - i) =
      checkFirst (8 - n + 1) ((bytesBits [c]).findIdx? p) := by
  have e1 : (bytesBitsLsb [c]).reverse = byteBits c := by simp [bytesBitsLsb]
  have e2 : bytesBits [c] = byteBits c := by simp [bytesBits]
  rw [e1, e2]
  cases hf : (byteBits c).findIdx? p with
  | none => rfl
  | some i =>
    have hi := findIdx?_lt_length hf
    rw [length_byteBits] at hi
    simp only [checkLast, checkFirst, Option.map_some, bytesBitsLsb, List.append_nil, List.length_reverse,
      length_byteBits]
    by_cases hc : 8 - n + 1 > i
    · rw [if_pos hc, if_pos (by omega)]
    · rw [if_neg hc, if_neg (by omega)]

theorem writeSignedBits_one (n : Nat) (v : Int) (e e' : Endian) : writeSignedBits 1 e n v = writeSignedBits 1 e' n v := by
  have key : writeSignedBits 1 .little n v = writeSignedBits 1 .big n v := by
    unfold writeSignedBits
    rw [endianBytes_one _ .big .little]
    obtain ⟨c, hc⟩ : ∃ c, endianBytes 1 .little (pattern 1 v) = [c] := ⟨_, rfl⟩
    have hl : (bytesBits [c]).length = 8 := by simp [bytesBits]
    rw [hc]
    simp only [hl]
    split
    · rfl
    · have hn : n ≤ 8 := by omega
      rw [writeLoop_one c hn, show bytesBits [c] = byteBits c by simp [bytesBits]]
      by_cases h0 : 0 ≤ v
      · rw [if_pos h0, if_pos h0, lastOne, last_first id c hn, firstOne]
        simp [bytesBits]
      · rw [if_neg h0, if_neg h0, lastZero, last_first (!·) c hn, firstZero]
        simp [bytesBits]
  cases e <;> cases e' <;> simp [key]

/-- A context with `bits` and `bit_order` but no endianness. -/
def _root_.Deku.IntCtx.isBitsOrder : IntCtx → Bool
  | .bitsOrder _ _ => true
  | _ => false

theorem writeSigned_one (ctx : IntCtx) (h : ctx.isBitsOrder = false) (e e' : Endian) :
    writeSigned e 1 ctx = writeSigned e' 1 ctx := by
  cases ctx with
  | unit => funext v; simp only [writeSigned, writeWhole, endianBytes_one _ e e']
  | bits n => funext v; exact writeSignedBits_one n v e e'
  | bytes k => funext v; rw [writeSigned, writeSigned]; exact writeBytes_one k _ e e'
  | order o => funext v; rw [writeSigned, writeSigned]; exact writeBytes_one 1 _ e e'
  | bitsOrder n o => cases h
  | _ => rfl

end Prim

end Deku
