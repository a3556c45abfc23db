import Verif.Lemmas.Codec
import Verif.Lemmas.WriterTotal

/-! # Integers as codecs, for every context argument -/

namespace Deku

namespace Prim

open Writer

/-- The condition under which the writer of a field produces what the reader expects: bit fields
must not be big endian Lsb0 of more than one byte and less than the type, byte fields must not be
Lsb0 in mid-byte. -/
def Compatible (native : Endian) (W : Nat) (ctx : IntCtx) (p : Nat) : Prop :=
  if ctx.isBits then Sound W (ctx.shape native W).1 (ctx.shape native W).2.1 (ctx.shape native W).2.2
  else (ctx.shape native W).2.2 = .lsb0 → p % 8 = 0

theorem writeWhole_writes {W v : Nat} (e : Endian) (p : Nat) :
    Writes .msb0 p (writeWhole W e v) (fieldBits e .msb0 (8 * W) v) := by
  have := writeBytes_writes (o := .msb0) (p := p) (endianBytes W e v) (by simp)
  rwa [orderBits_endianBytes] at this

theorem writeBytesInt_writes {W k v : Nat} (e : Endian) {o : Order} {p : Nat} (hk : k ≤ W)
    (h : o = .lsb0 → p % 8 = 0) : Writes o p (writeBytes W e k v) (fieldBits e o (8 * k) v) := by
  rw [writeBytes_eq e v hk]
  have := writeBytes_writes (o := o) (p := p) (endianBytes k e v) h
  rwa [orderBits_endianBytes] at this

theorem writeUBytes_writes {W k v : Nat} (e : Endian) {o : Order} {p : Nat} (hk : W ≠ 1 → k ≤ W)
    (h : o = .lsb0 → p % 8 = 0) :
    Writes o p (writeUBytes W e k v) (fieldBits e o (if W = 1 then 8 else 8 * k) v) := by
  unfold writeUBytes
  by_cases hW : W = 1
  · rw [if_pos hW, if_pos hW, writeU8Bytes]
    have := writeBytes_writes (o := o) (p := p) (toLE 1 v) h
    have h2 := orderBits_endianBytes .little o 1 v
    simp only [endianBytes] at h2
    rw [h2] at this
    rw [fieldBits_small o (by omega)] at this ⊢
    exact this
  · rw [if_neg hW, if_neg hW]
    exact writeBytesInt_writes e (hk hW) h

theorem writeUBitsOrd_writes {W n v : Nat} (e : Endian) {o : Order} (p : Nat) (h1 : 1 ≤ n)
    (hW : n ≤ 8 * W) (hv : v < 2 ^ n) (hs : Sound W e n o) :
    Writes o p (writeUBitsOrd W e n o v) (fieldBits e o n v) := by
  unfold writeUBitsOrd
  by_cases h : W = 1
  · rw [if_pos h]
    exact Writer.Done.writes (fun w hw => writeU8BitsOrd_done e hw.wf hw.ready h1 (by omega) hv) rfl
  · rw [if_neg h]
    exact Writer.Done.writes (fun w hw => writeBitsOrd_done hw.wf hw.ready h1 hW hv hs) rfl

theorem writeUBits_writes {W n v : Nat} (e : Endian) (p : Nat) (h1 : 1 ≤ n)
    (hW : n ≤ 8 * W) (hv : v < 2 ^ n) :
    Writes .msb0 p (writeUBits W e n v) (fieldBits e .msb0 n v) := by
  unfold writeUBits
  by_cases h : W = 1
  · rw [if_pos h]
    exact Writer.Done.writes (fun w hw => writeU8BitsOrd_done e hw.wf hw.ready h1 (by omega) hv) rfl
  · rw [if_neg h]
    exact Writer.Done.writes (fun w hw => writeBits_done hw.wf hw.ready hW hv) rfl

/-- Every way of writing an unsigned integer that fits. -/
theorem writeUnsigned_writes (native : Endian) {W : Nat} (ctx : IntCtx) {p v : Nat}
    (hc : Compatible native W ctx p) :
    let (e, n, o) := ctx.shape native W
    1 ≤ n → n ≤ 8 * W → v < 2 ^ n →
      Writes o p (writeUnsigned native W ctx v) (fieldBits e o n v) := by
  cases ctx with
  | unit => exact fun _ _ _ => writeWhole_writes native p
  | endian e => exact fun _ _ _ => writeWhole_writes e p
  | bits n => exact fun h1 h2 h3 => writeUBits_writes native p h1 h2 h3
  | bytes k =>
    intro h1 h2 _
    exact writeUBytes_writes native (fun h => by simp only [if_neg h] at h2; omega) (by simp)
  | order o =>
    intro h1 h2 _
    have := writeUBytes_writes (W := W) (k := W) (v := v) (o := o) (p := p) native (by omega) hc
    rwa [show (if W = 1 then 8 else 8 * W) = 8 * W by split <;> omega] at this
  | endianOrder e o =>
    intro h1 h2 _
    have := writeUBytes_writes (W := W) (k := W) (v := v) (o := o) (p := p) e (by omega) hc
    rwa [show (if W = 1 then 8 else 8 * W) = 8 * W by split <;> omega] at this
  | endianBits e n => exact fun h1 h2 h3 => writeUBits_writes e p h1 h2 h3
  | endianBytes e k =>
    intro h1 h2 _
    exact writeUBytes_writes e (fun h => by simp only [if_neg h] at h2; omega) (by simp)
  | bitsOrder n o => exact fun h1 h2 h3 => writeUBitsOrd_writes native p h1 h2 h3 hc
  | endianBitsOrder e n o => exact fun h1 h2 h3 => writeUBitsOrd_writes e p h1 h2 h3 hc
  | endianBytesOrder e k o =>
    intro h1 h2 _
    exact writeUBytes_writes e (fun h => by simp only [if_neg h] at h2; omega) hc

/-- Compatible fields are dense: what is written can be decoded. -/
theorem Compatible.dense {native : Endian} {W : Nat} {ctx : IntCtx} {p : Nat}
    (h : Compatible native W ctx p) :
    let (e, n, o) := ctx.shape native W
    Dense e n o := by
  cases ctx
  case bits => exact fun h1 => by simp at h1
  case endianBits => exact fun h1 => by simp at h1
  case bitsOrder n o => exact Sound.dense h
  case endianBitsOrder e n o => exact Sound.dense h
  all_goals
    intro _ _
    first
      | omega
      | (split <;> omega)

/-- An unsigned value that does not fit its bit field is refused. -/
theorem writeUnsigned_refuses (native : Endian) {W : Nat} (ctx : IntCtx) {v : Nat}
    (hb : ctx.isBits = true) (hv : v < 256 ^ W) :
    let (_, n, _) := ctx.shape native W
    8 * W < n ∨ 2 ^ n ≤ v → Refuses (writeUnsigned native W ctx v) .invalidParam := by
  have hu : ∀ e n, 8 * W < n ∨ 2 ^ n ≤ v → Refuses (writeUBits W e n v) .invalidParam := by
    intro e n h w
    unfold writeUBits
    by_cases hW : W = 1
    · subst hW; rw [if_pos rfl]; exact writeU8BitsOrd_refuses _ w (by simpa using hv) h
    · rw [if_neg hW]; exact writeBits_refuses e w hv h
  have ho : ∀ e n o, 8 * W < n ∨ 2 ^ n ≤ v → Refuses (writeUBitsOrd W e n o v) .invalidParam := by
    intro e n o h w
    unfold writeUBitsOrd
    by_cases hW : W = 1
    · subst hW; rw [if_pos rfl]; exact writeU8BitsOrd_refuses _ w (by simpa using hv) h
    · rw [if_neg hW]; exact writeBitsOrd_refuses e o w hv h
  cases ctx <;> simp [IntCtx.isBits] at hb
  case bits n => exact hu _ _
  case endianBits e n => exact hu _ _
  case bitsOrder n o => exact ho _ _ _
  case endianBitsOrder e n o => exact ho _ _ _

/-! ### accepted in every writer state -/

theorem writeLoop_took {o : Order} {w : Writer} (hw : w.WF) (hh : w.Healthy) (bs : List Byte)
    (n : Nat) (hn : n ≤ 8 * bs.length) : Took n w (writeLoop o bs n w) := by
  induction bs generalizing w n with
  | nil =>
    have : n = 0 := by simpa using hn
    subst this
    exact .inl ⟨w, rfl, Grew.refl hw⟩
  | cons c cs ih =>
    simp only [writeLoop]
    by_cases h8 : n < 8
    · rw [if_pos h8]
      have := writeBitsOrder_took hw o ((byteBits c).drop (8 - n))
      rwa [List.length_drop, length_byteBits, show 8 - (8 - n) = n by omega] at this
    · rw [if_neg h8]
      have := writeBitsOrder_took hw o (byteBits c)
      rw [length_byteBits] at this
      have h2 := Took.bind this (y := writeLoop o cs (n - 8)) (n := n - 8)
        (fun w' _ hg => ih hg.wf (hg.healthy hh) _ (by simp at hn; omega)) hh
      rwa [show 8 + (n - 8) = n by omega] at h2

theorem writeBitsOrd_took {W n v : Nat} (e : Endian) (o : Order) {w : Writer} (hw : w.WF)
    (hh : w.Healthy) (h1 : 1 ≤ n) (hW : n ≤ 8 * W) (hv : v < 2 ^ n) :
    Took n w (writeBitsOrd W e n o v w) := by
  have hlen : (bytesBits (endianBytes W e v)).length = 8 * W := by
    cases e <;> simp [endianBytes]
  have hvW : v < 256 ^ W := Nat.lt_of_lt_of_le hv (two_pow_le_pow hW)
  simp only [writeBitsOrd, hlen]
  rw [if_neg (by omega)]
  cases e
  · simp only [endianBytes]
    rw [lastCheck_run hW hvW, if_pos hv]
    exact writeLoop_took hw hh _ _ (by simpa using hW)
  · cases o
    · simp only [M.get_bind_run]
      rw [show endianBytes W .big v = toBE W v from rfl]
      by_cases hf : n ≤ 64 ∧ w.tag = .msb0
      · rw [if_pos hf, if_neg (fun h => by
          have := (significant_check _ _).1 h
          rw [beNat_toBE, Nat.mod_eq_of_lt hvW] at this; omega)]
        have := (writeBitsUintMsb0_done hw hf.2 (beNat ((toBE W v).drop ((toBE W v).length - 8))) n
          h1 hf.1).took hw
        rwa [length_bitsBE] at this
      · rw [if_neg hf, bytesBits_toBE, firstCheck_run hW (by rwa [← pow256]), if_pos hv,
          drop_bitsBE, show 8 * W - (8 * W - n) = n by omega]
        have := writeBitsOrder_took hw .msb0 (bitsBE n v)
        rwa [length_bitsBE] at this
    · simp only [endianBytes, bytesBits_toBE]
      rw [firstCheck_run hW (by rwa [← pow256]), if_pos hv]
      by_cases h8 : n ≤ 8
      · rw [if_pos h8, drop_bitsBE, show 8 * W - (8 * W - n) = n by omega]
        have := writeBitsOrder_took hw .lsb0 (bitsBE n v)
        rwa [length_bitsBE] at this
      · rw [if_neg h8]
        exact writeLoop_took hw hh _ _ (by simpa using hW)

theorem writeU8BitsOrd_took {n v : Nat} (o : Order) {w : Writer} (hw : w.WF)
    (h1 : 1 ≤ n) (h8 : n ≤ 8) (hv : v < 2 ^ n) : Took n w (writeU8BitsOrd n o v w) := by
  have hv8 : v < 2 ^ 8 := Nat.lt_of_lt_of_le hv (Nat.pow_le_pow_right (by omega) h8)
  simp only [writeU8BitsOrd, M.get_bind_run]
  by_cases hf : o = .msb0 ∧ w.tag = .msb0 ∧ n ≤ 8
  · obtain ⟨rfl, ht, _⟩ := hf
    rw [if_pos ⟨rfl, ht, h8⟩, if_neg (fun h => h.2 (Nat.div_eq_of_lt hv))]
    have := (writeBitsUintMsb0_done hw ht v n h1 (by omega)).took hw
    rwa [length_bitsBE] at this
  · rw [if_neg hf, bytesBits_toLE1, length_bitsBE, if_neg (by omega),
      firstCheck_run h8 hv8, if_pos hv, drop_bitsBE, show 8 - (8 - n) = n by omega]
    have := writeBitsOrder_took hw o (bitsBE n v)
    rwa [length_bitsBE] at this

theorem writeBits_took {W n v : Nat} (e : Endian) {w : Writer} (hw : w.WF) (hh : w.Healthy)
    (hW : n ≤ 8 * W) (hv : v < 2 ^ n) : Took n w (writeBits W e n v w) := by
  have hlen : (bytesBits (endianBytes W e v)).length = 8 * W := by
    cases e <;> simp [endianBytes]
  have hvW : v < 256 ^ W := Nat.lt_of_lt_of_le hv (two_pow_le_pow hW)
  simp only [writeBits, hlen]
  rw [if_neg (by omega)]
  cases e
  · simp only [endianBytes]
    rw [lastCheck_run hW hvW, if_pos hv]
    exact writeLoop_took hw hh _ _ (by simpa using hW)
  · simp only [endianBytes, bytesBits_toBE]
    rw [firstCheck_run hW (by rwa [← pow256]), if_pos hv, drop_bitsBE,
      show 8 * W - (8 * W - n) = n by omega]
    have := writeBitsOrder_took hw .msb0 (bitsBE n v)
    rwa [length_bitsBE] at this

theorem writeUnsigned_takes (native : Endian) {W : Nat} (ctx : IntCtx) {v : Nat} {w : Writer}
    (hw : w.WF) (hh : w.Healthy) :
    let (_, n, _) := ctx.shape native W
    1 ≤ n → n ≤ 8 * W → (ctx.isBits = true → v < 2 ^ n) → Took n w (writeUnsigned native W ctx v w) := by
  have hu : ∀ e n, 1 ≤ n → n ≤ 8 * W → v < 2 ^ n → Took n w (writeUBits W e n v w) := by
    intro e n h1 h2 h3
    unfold writeUBits
    by_cases hW : W = 1
    · rw [if_pos hW]; exact writeU8BitsOrd_took .msb0 hw h1 (by omega) h3
    · rw [if_neg hW]; exact writeBits_took e hw hh h2 h3
  have ho : ∀ e n o, 1 ≤ n → n ≤ 8 * W → v < 2 ^ n → Took n w (writeUBitsOrd W e n o v w) := by
    intro e n o h1 h2 h3
    unfold writeUBitsOrd
    by_cases hW : W = 1
    · rw [if_pos hW]; exact writeU8BitsOrd_took o hw h1 (by omega) h3
    · rw [if_neg hW]; exact writeBitsOrd_took e o hw hh h1 h2 h3
  have hwhole : ∀ e, Took (8 * W) w (writeWhole W e v w) := by
    intro e
    have := writeBytes_took hw (endianBytes W e v)
    rwa [show (endianBytes W e v).length = W by cases e <;> simp [endianBytes]] at this
  have hby : ∀ e k, (W ≠ 1 → k ≤ W) →
      Took (if W = 1 then 8 else 8 * k) w (writeUBytes W e k v w) := by
    intro e k hk
    unfold writeUBytes
    by_cases hW : W = 1
    · rw [if_pos hW, if_pos hW]
      have := writeBytes_took hw (toLE 1 v)
      rwa [length_toLE] at this
    · rw [if_neg hW, if_neg hW, writeBytes_eq e v (hk hW)]
      have := writeBytes_took hw (endianBytes k e v)
      rwa [show (endianBytes k e v).length = k by cases e <;> simp [endianBytes]] at this
  have hfull : ∀ e, Took (8 * W) w (writeUBytes W e W v w) := by
    intro e
    have := hby e W (fun _ => Nat.le_refl _)
    rwa [show (if W = 1 then 8 else 8 * W) = 8 * W by split <;> omega] at this
  cases ctx with
  | unit => exact fun _ _ _ => hwhole native
  | endian e => exact fun _ _ _ => hwhole e
  | bits n => exact fun h1 h2 h3 => hu native n h1 h2 (h3 rfl)
  | bytes k => exact fun h1 h2 _ => hby native k (fun h => by simp only [if_neg h] at h2; omega)
  | order o => exact fun _ _ _ => hfull native
  | endianOrder e o => exact fun _ _ _ => hfull e
  | endianBits e n => exact fun h1 h2 h3 => hu e n h1 h2 (h3 rfl)
  | endianBytes e k => exact fun h1 h2 _ => hby e k (fun h => by simp only [if_neg h] at h2; omega)
  | bitsOrder n o => exact fun h1 h2 h3 => ho native n o h1 h2 (h3 rfl)
  | endianBitsOrder e n o => exact fun h1 h2 h3 => ho e n o h1 h2 (h3 rfl)
  | endianBytesOrder e k o => exact fun h1 h2 _ => hby e k (fun h => by simp only [if_neg h] at h2; omega)

theorem writeUnsigned_took (native : Endian) {W : Nat} (ctx : IntCtx) {v : Nat} {w : Writer}
    (hw : w.WF) (hh : w.Healthy) :
    let (_, n, _) := ctx.shape native W
    1 ≤ n → n ≤ 8 * W → v < 2 ^ n → Took n w (writeUnsigned native W ctx v w) :=
  fun h1 h2 h3 => writeUnsigned_takes native ctx hw hh h1 h2 fun _ => h3

/-! ### signed integers -/

theorem writeSignedBits_took {W n : Nat} (e : Endian) {v : Int} {w : Writer} (hw : w.WF)
    (hh : w.Healthy) (h1 : 1 ≤ n) (hW : n ≤ 8 * W) (hv : InRange (8 * W) v) (hn : InRange n v) :
    Took n w (writeSignedBits W e n v w) := by
  rw [writeSignedBits_run h1 hW hv, if_pos hn]
  cases e
  · exact writeLoop_took hw hh _ _ (by simpa using hW)
  · have := writeBitsOrder_took hw .msb0 (bitsBE n (pattern W v))
    rwa [length_bitsBE] at this

theorem writeSignedBits_writes {W n : Nat} (e : Endian) {v : Int} (p : Nat) (h1 : 1 ≤ n)
    (hW : n ≤ 8 * W) (hv : InRange (8 * W) v) (hn : InRange n v) :
    Writes .msb0 p (writeSignedBits W e n v) (fieldBits e .msb0 n (pattern W v)) :=
  Writer.Done.writes (fun _ hw => writeSignedBits_done hw.wf hw.ready h1 hW hv hn) rfl

theorem dense_msb (e : Endian) (n : Nat) : Dense e n .msb0 := fun h => by simp at h

/-- The round trip of a signed bit field without a bit order, both with an endianness. -/
theorem signedBits_round_trip {W n : Nat} (e : Endian) {v : Int} (p : Nat) (h1 : 1 ≤ n)
    (hW : n ≤ 8 * W) (hv : InRange (8 * W) v) (hn : InRange n v) :
    Writes .msb0 p (writeSignedBits W e n v) (fieldBits e .msb0 n (pattern W v)) ∧
    Reads .msb0 p (readSignedBits W e n) (fieldBits e .msb0 n (pattern W v)) v := by
  refine ⟨writeSignedBits_writes e p h1 hW hv hn, ?_⟩
  have := (readSignedBitsOrd_delivers e .msb0 h1 hW).reads
    (length_fieldBits e .msb0 n (pattern W v)) p
  rw [fieldValue_fieldBits (dense_msb e n), Nat.mod_mod, twosComplement_pattern h1 hW hn] at this
  exact this

end Prim

end Deku
