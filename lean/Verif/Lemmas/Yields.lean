import Verif.Lemmas.Hoare
import Verif.Lemmas.CoreFits
import Verif.Lemmas.Canon

/-! # What integers and strings can be read as, whatever the source does -/

namespace Deku

open Reader Coll

variable {α β τ : Type}

/-- A success, from any state, has a result of `R`. -/
abbrev Yields (R : α → Prop) (f : M τ α) : Prop := Keeps (fun _ => True) R f

namespace Yields

theorem of {R : α → Prop} {f : M τ α} (h : ∀ r a r', f r = (.ok a, r') → R a) : Yields R f :=
  fun r a r' _ e => ⟨trivial, h r a r' e⟩

theorem any (f : M τ α) : Yields (fun _ => True) f := of fun _ _ _ _ => trivial

theorem after {R : β → Prop} {f : M τ α} {g : α → M τ β} (h : ∀ a, Yields R (g a)) : Yields R (f >>= g) :=
  (any f).bind fun a _ => h a

theorem ite {R : α → Prop} {p : Prop} [Decidable p] {f g : M τ α} (hf : p → Yields R f) (hg : ¬ p → Yields R g) :
    Yields R (if p then f else g) := by
  split
  · exact hf ‹_›
  · exact hg ‹_›

end Yields

/-! ### the reader -/

theorem ioRead_yields (n : Nat) : Yields (fun x => ∀ bs, x = .ok bs → bs.length = n) (ioRead n) := by
  refine Yields.of fun r x r' e bs hx => ?_
  subst hx
  simp only [ioRead, Src.readExact] at e
  cases h : r.inner.faults.fails r.inner.calls with
  | some p => simp [h] at e
  | none =>
    simp only [h] at e
    split at e
    · rename_i hn
      simp only [Prod.mk.injEq, Res.ok.injEq, Except.ok.injEq] at e
      rw [← e.1]
      simp
      omega
    · simp at e

theorem readSlots_yields (d k : Nat) : Yields (fun bs => bs.length = k) (readSlots d k) := by
  induction k with
  | zero => exact Keeps.pure rfl
  | succ k ih => exact Yields.after fun _ => ih.bind fun bs h => Keeps.pure (by simp [h])

theorem readBitsInto_yields (n : Nat) (o : Order) : Yields (fun l => l.length = n) (readBitsInto n o) := by
  unfold readBitsInto
  refine Yields.ite (fun h => Keeps.pure (by simp [h])) fun hn => Yields.after fun r => Yields.after fun _ => ?_
  have fin : ∀ l : List Bool, l.length = n → Yields (fun l => l.length = n) ((do
        let dst ← Pure.pure l
        M.modify (fun r => { r with bitsRead := r.bitsRead + n })
        Pure.pure dst) : M Reader (List Bool)) := fun l hl =>
    Keeps.bind (Keeps.pure (R := fun l => l.length = n) hl) fun l hl => Yields.after fun _ => Keeps.pure hl
  dsimp only
  generalize leftoverBits r.leftover = lo
  refine Yields.ite (fun h => ?_) fun h => Yields.ite (fun h => fin _ h.symm) fun h' => ?_
  · cases o with
    | lsb0 => exact Yields.after fun _ => fin _ (by simp; omega)
    | msb0 => exact Yields.after fun _ => fin _ (by simp; omega)
  · cases o with
    | lsb0 =>
      refine (readSlots_yields _ _).bind fun bs hbs => Yields.ite (fun h0 => fin _ ?_) fun h0 =>
        Yields.after fun b => Yields.after fun _ => fin _ ?_
      · simp [length_bytesBits, hbs]; omega
      · simp [length_bytesBits, hbs, length_byteBits]; omega
    | msb0 =>
      refine (readSlots_yields _ _).bind fun bs hbs => Yields.ite (fun h0 => fin _ ?_) fun h0 =>
        Yields.after fun b => Yields.after fun _ => fin _ ?_
      · simp [length_bytesBits, hbs]; omega
      · simp [length_bytesBits, hbs, length_byteBits]; omega

theorem length_packBytes (n : Nat) (l : List Bool) : (packBytes n l).length = n := by simp [packBytes]

theorem readBytesLeftover_yields (b : Byte) (n : Nat) :
    Yields (fun bs => bs.length = n) (readBytesLeftover b n) := by
  unfold readBytesLeftover
  refine Yields.ite (fun _ => Keeps.panic) fun hn => Yields.after fun _ => Yields.ite
    (fun h => Yields.after fun _ => Keeps.pure ?_) fun h => (ioRead_yields _).bind fun x hx => ?_
  · simp; omega
  · cases x with
    | ok bs => exact Yields.after fun _ => Keeps.pure (by simp [hx bs rfl]; omega)
    | error e => cases e <;> exact Keeps.throw

theorem readBytes_yields (n : Nat) (o : Order) : Yields (fun bs => bs.length = n) (readBytes n o) := by
  unfold readBytes
  refine Yields.after fun r => ?_
  cases r.leftover with
  | none =>
    refine (ioRead_yields _).bind fun x hx => ?_
    cases x with
    | ok bs => exact Yields.after fun _ => Keeps.pure (hx bs rfl)
    | error e => cases e <;> exact Keeps.throw
  | some l =>
    cases l with
    | byte b => exact readBytesLeftover_yields b n
    | bits l => exact Yields.after fun l => by cases o <;> exact Keeps.pure (by simp [length_packBytes])

theorem readBytesConstInto_yields (n : Nat) (o : Order) :
    Yields (fun bs => bs.length = n) (readBytesConstInto n o) := readBytes_yields n o

/-! ### integers -/

namespace Prim

theorem endianNat_lt (e : Endian) (bs : List Byte) : endianNat e bs < 256 ^ bs.length := by
  cases e
  · exact leNat_lt bs
  · exact beNat_lt bs

theorem readSlice_yields {W : Nat} (e : Endian) {l : List Bool} (h : l.length ≤ 8 * W) :
    Yields (· < 256 ^ W) (readSlice W e l) := by
  have hp : ∀ x, endianNat e (packBytes W x) < 256 ^ W := fun x => by
    have := endianNat_lt e (packBytes W x)
    rwa [length_packBytes] at this
  refine Yields.ite (fun _ => Keeps.pure (hp _)) fun _ => Yields.ite (fun _ => Keeps.pure ?_) fun _ => ?_
  rotate_left
  · cases e
    · dsimp only
      refine Yields.ite (fun _ => Yields.after fun _ => Yields.after fun _ => Yields.after fun _ => Keeps.pure (hp _))
        fun _ => Yields.after fun _ => Yields.after fun _ => Yields.after fun _ => Keeps.pure (hp _)
    · exact Yields.after fun _ => Yields.after fun _ => Yields.after fun _ => Keeps.pure (hp _)
  have : (256 : Nat) ^ W = 2 ^ (8 * W) := by rw [Nat.pow_mul]
  rw [this]
  exact Nat.lt_of_lt_of_le (ofBits_lt l) (Nat.pow_le_pow_right (by omega) h)

theorem readSliceOrd_yields {W : Nat} (e : Endian) (o : Order) {l : List Bool} (h : l.length ≤ 8 * W) :
    Yields (· < 256 ^ W) (readSliceOrd W e o l) := by
  have hp : ∀ x, endianNat e (packBytes W x) < 256 ^ W := fun x => by
    have := endianNat_lt e (packBytes W x)
    rwa [length_packBytes] at this
  refine Yields.after fun _ => Yields.ite (fun _ => Keeps.pure (hp _)) fun _ =>
    Yields.ite (fun _ => Keeps.pure ?_) fun _ => ?_
  · have : (256 : Nat) ^ W = 2 ^ (8 * W) := by rw [Nat.pow_mul]
    rw [this]
    exact Nat.lt_of_lt_of_le (ofBits_lt l) (Nat.pow_le_pow_right (by omega) h)
  · cases o with
    | msb0 =>
      cases e
      · dsimp only
        refine Yields.ite (fun _ => Yields.after fun _ => Yields.after fun _ => Yields.after fun _ =>
          Keeps.pure (hp _)) fun _ => Yields.after fun _ => Yields.after fun _ => Yields.after fun _ => Keeps.pure (hp _)
      · exact Yields.after fun _ => Yields.after fun _ => Yields.after fun _ => Keeps.pure (hp _)
    | lsb0 =>
      refine Yields.after fun x => Keeps.pure ?_
      refine Nat.lt_of_lt_of_le (endianNat_lt _ _) (Nat.pow_le_pow_right (by omega) ?_)
      simp
      omega

theorem readBits_yields (W : Nat) (e : Endian) (n : Nat) : Yields (· < 256 ^ W) (readBits W e n) :=
  Yields.ite (fun _ => Keeps.throw) fun h => Yields.ite
    (fun _ => Yields.after fun _ => Keeps.pure (Nat.mod_lt _ (Nat.pow_pos (by omega)))) fun _ =>
    (readBitsInto_yields n .msb0).bind fun l hl => readSlice_yields e (by omega)

theorem readBitsOrd_yields (W : Nat) (e : Endian) (n : Nat) (o : Order) :
    Yields (· < 256 ^ W) (readBitsOrd W e n o) :=
  Yields.ite (fun _ => Keeps.throw) fun h => Yields.ite
    (fun _ => Yields.after fun _ => Keeps.pure (Nat.mod_lt _ (Nat.pow_pos (by omega)))) fun _ =>
    (readBitsInto_yields n o).bind fun l hl => readSliceOrd_yields e o (by omega)

theorem bufNat_lt (W : Nat) (e : Endian) {bs : List Byte} (h : bs.length ≤ W) : bufNat W e bs < 256 ^ W := by
  cases e with
  | little =>
    refine Nat.lt_of_lt_of_le (leNat_lt _) (Nat.pow_le_pow_right (by omega) ?_)
    simp; omega
  | big =>
    refine Nat.lt_of_lt_of_le (beNat_lt _) (Nat.pow_le_pow_right (by omega) ?_)
    simp; omega

theorem readUBytesOrd_yields (W : Nat) (e : Endian) (k : Nat) (o : Order) :
    Yields (· < 256 ^ W) (readUBytesOrd W e k o) := by
  refine Yields.ite (fun h => ?_) fun _ => Yields.ite (fun _ => Keeps.throw) fun h =>
    (readBytes_yields k o).bind fun bs hbs => Keeps.pure (bufNat_lt W e (by omega))
  refine (readBytesConstInto_yields 1 o).bind fun bs hbs => Keeps.pure ?_
  have := beNat_lt bs
  rwa [hbs, ← h] at this

theorem readWhole_yields (W : Nat) (e : Endian) : Yields (· < 256 ^ W) (readWhole W e) :=
  (readBytesConstInto_yields W .msb0).bind fun bs hbs => Keeps.pure (hbs ▸ endianNat_lt e bs)

theorem readUnsigned_yields (native : Endian) (W : Nat) (ctx : IntCtx) :
    Yields (· < 256 ^ W) (readUnsigned native W ctx) := by
  cases ctx with
  | unit => exact readWhole_yields W _
  | endian e => exact readWhole_yields W _
  | bits n => exact Yields.ite (fun _ => readUBytesOrd_yields _ _ _ _) fun _ => readBits_yields _ _ _
  | bytes k => exact readUBytesOrd_yields _ _ _ _
  | order o => exact readUBytesOrd_yields _ _ _ _
  | endianOrder e o => exact readUBytesOrd_yields _ _ _ _
  | endianBits e n => exact readBits_yields _ _ _
  | endianBytes e k => exact readUBytesOrd_yields _ _ _ _
  | bitsOrder n o => exact Yields.ite (fun _ => readUBytesOrd_yields _ _ _ _) fun _ => readBitsOrd_yields _ _ _ _
  | endianBitsOrder e n o => exact readBitsOrd_yields _ _ _ _
  | endianBytesOrder e k o => exact readUBytesOrd_yields _ _ _ _

/-- The range of a signed type. -/
def Signed (W : Nat) (n : Int) : Prop := -(256 ^ W) ≤ 2 * n ∧ 2 * n < 256 ^ W

theorem signed_signed {W p : Nat} (h : p < 256 ^ W) : Signed W (signed W p) := by
  unfold signed Signed
  have hc : ((256 ^ W : Nat) : Int) = 256 ^ W := Int.natCast_pow 256 W
  rw [← hc]
  split <;> omega

theorem signExtend_signed (W n p : Nat) : Signed W (signExtend W n p) := by
  obtain ⟨h1, h2⟩ := signed_signed (W := W) (p := p * 2 ^ (8 * W - n) % 256 ^ W)
    (Nat.mod_lt _ (Nat.pow_pos (by omega)))
  unfold signExtend Signed
  generalize signed W _ = s at *
  have hk : (1 : Int) ≤ (2 ^ (8 * W - n) : Nat) := by exact_mod_cast Nat.pow_pos (by omega : 0 < 2)
  generalize ((2 ^ (8 * W - n) : Nat) : Int) = k at *
  have h3 : s / k * k ≤ s := Int.ediv_mul_le s (by omega)
  have h4 : s < (s / k + 1) * k := Int.lt_ediv_add_one_mul_self s (by omega)
  generalize s / k = q at *
  generalize (256 ^ W : Int) = B at *
  constructor
  · by_cases hq : q < 0
    · have : q * k ≤ q * 1 := Int.mul_le_mul_of_nonpos_left (by omega) hk
      have h5 : (q + 1) * k ≤ (q + 1) * 1 := Int.mul_le_mul_of_nonpos_left (by omega) hk
      omega
    · omega
  · by_cases hq : 0 ≤ q
    · have : q * 1 ≤ q * k := Int.mul_le_mul_of_nonneg_left hk hq
      omega
    · omega

theorem readSignedBitsOrd_yields (W : Nat) (e : Endian) (n : Nat) (o : Order) :
    Yields (Signed W) (readSignedBitsOrd W e n o) :=
  Yields.ite (fun _ => Keeps.throw) fun _ => Yields.after fun _ => Yields.after fun _ =>
    Yields.ite (fun _ => Keeps.panic) fun _ => Keeps.pure (signExtend_signed _ _ _)

theorem readSignedBytesOrd_yields (W : Nat) (e : Endian) (k : Nat) (o : Order) :
    Yields (Signed W) (readSignedBytesOrd W e k o) :=
  Yields.ite (fun _ => Keeps.throw) fun h => (readBytes_yields k o).bind fun bs hbs =>
    Keeps.pure (signed_signed (bufNat_lt W e (by omega)))

theorem readSignedWhole_yields (W : Nat) (e : Endian) : Yields (Signed W) (readSignedWhole W e) :=
  (readBytesConstInto_yields W .msb0).bind fun bs hbs => Keeps.pure (signed_signed (hbs ▸ endianNat_lt e bs))

theorem readSigned_yields (native : Endian) (W : Nat) (ctx : IntCtx) :
    Yields (Signed W) (readSigned native W ctx) := by
  cases ctx with
  | unit => exact readSignedWhole_yields W _
  | endian e => exact readSignedWhole_yields W _
  | bits n => exact Yields.ite (fun _ => readSignedBytesOrd_yields _ _ _ _) fun _ => readSignedBitsOrd_yields _ _ _ _
  | bytes k => exact readSignedBytesOrd_yields _ _ _ _
  | order o => exact readSignedBytesOrd_yields _ _ _ _
  | endianOrder e o => exact readSignedBytesOrd_yields _ _ _ _
  | endianBits e n => exact readSignedBitsOrd_yields _ _ _ _
  | endianBytes e k => exact readSignedBytesOrd_yields _ _ _ _
  | bitsOrder n o => exact Yields.ite (fun _ => readSignedBytesOrd_yields _ _ _ _) fun _ => readSignedBitsOrd_yields _ _ _ _
  | endianBitsOrder e n o => exact readSignedBitsOrd_yields _ _ _ _
  | endianBytesOrder e k o => exact readSignedBytesOrd_yields _ _ _ _

end Prim

/-! ### leaves -/

theorem uintCodec_yields (native : Endian) (W : Nat) (ctx : IntCtx) :
    Yields (fun v => ∃ n : Nat, v = .num n ∧ n < 256 ^ W) (uintCodec native W ctx).read :=
  (Prim.readUnsigned_yields native W ctx).bind fun n hn => Keeps.pure ⟨n, rfl, hn⟩

/-- The bytes of a string have no NUL. -/
theorem fromVecWithNul_no_nul {bs s : List Byte} (h : fromVecWithNul bs = some s) : ∀ b ∈ s, b ≠ 0 := by
  unfold fromVecWithNul at h
  cases hf : bs.findIdx? (fun x => decide (x = (0 : Byte))) with
  | none => rw [hf] at h; simp at h
  | some i =>
    rw [hf] at h
    dsimp only at h
    split at h
    · simp only [Option.some.injEq] at h
      subst h
      rw [List.findIdx?_eq_some_iff_getElem] at hf
      obtain ⟨h1, h2, h3⟩ := hf
      intro b hb
      rw [List.mem_take_iff_getElem] at hb
      obtain ⟨j, hj, rfl⟩ := hb
      have := h3 j (by omega)
      simpa using this
    · simp at h

theorem isCString_of {bs : List Byte} (h : ∀ b ∈ bs, b ≠ 0) : (Val.ofList (bs.map .ofByte)).isCString = true := by
  simp only [Val.isCString, isBytes_ofList, elems_ofList, Bool.true_and, List.all_eq_true, List.mem_map,
    decide_eq_true_iff]
  rintro v ⟨b, hb, rfl⟩ hv
  apply h b hb
  simp only [Val.ofByte, Val.num.injEq] at hv
  exact BitVec.eq_of_toNat_eq (by simpa using hv)

theorem cstringOf_yields (bs : List Byte) : Yields (fun s => ∀ b ∈ s, b ≠ 0) (cstringOf bs) := by
  unfold cstringOf
  cases h : fromVecWithNul bs with
  | none => exact Keeps.throw
  | some s => exact Keeps.pure (fromVecWithNul_no_nul h)

theorem pow_cast {W n : Nat} (h : n < 256 ^ W) : (n : Int) < 256 ^ W := by
  have hc : ((256 ^ W : Nat) : Int) = 256 ^ W := Int.natCast_pow 256 W
  rw [← hc]
  exact Int.ofNat_lt.mpr h

/-- What is read as a value of a type is a value of the type. -/
theorem Leaf.read_has (m : Machine) (l : Leaf) : Yields (fun v => l.has v = true) (l.codec m).read := by
  cases l with
  | uint W ctx =>
    refine (uintCodec_yields m.native W ctx).mono fun v ⟨n, hv, hn⟩ => ?_
    subst hv
    simp only [Leaf.has, decide_eq_true_iff]
    exact ⟨by omega, pow_cast hn⟩
  | sint W ctx =>
    exact (Prim.readSigned_yields m.native W ctx).bind fun n hn => Keeps.pure (by simpa [Leaf.has, Prim.Signed] using hn)
  | nonzero W ctx =>
    refine Keeps.bind (R := fun n => 0 < n ∧ n < 256 ^ W) ?_ fun n hn => Keeps.pure ?_
    · refine (Prim.readUnsigned_yields m.native W ctx).bind fun n hn =>
        Yields.ite (fun _ => Keeps.throw) fun h => Keeps.pure ⟨Nat.pos_of_ne_zero h, hn⟩
    · simp only [Leaf.has, decide_eq_true_iff]
      exact ⟨by omega, pow_cast hn.2⟩
  | nonzeroSigned W ctx =>
    refine Keeps.bind (R := fun n => n ≠ 0 ∧ Prim.Signed W n) ?_ fun n hn => Keeps.pure ?_
    · refine (Prim.readSigned_yields m.native W ctx).bind fun n hn =>
        Yields.ite (fun _ => Keeps.throw) fun h => Keeps.pure ⟨h, hn⟩
    · simpa [Leaf.has, Prim.Signed] using hn
  | bool ctx =>
    exact Yields.after fun b => Keeps.pure (by cases b <;> simp [Leaf.has])
  | cstring =>
    exact Keeps.bind (Yields.after fun bs => cstringOf_yields bs) fun s h => Keeps.pure (isCString_of h)
  | cstringSized n =>
    exact Keeps.bind (Yields.after fun bs => cstringOf_yields bs) fun s h => Keeps.pure (isCString_of h)
  | unit => exact Keeps.pure (by simp [Leaf.has])

end Deku
