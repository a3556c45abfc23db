import Verif.Lemmas.MixedInt
import Verif.Spec.Int

/-!
# Properties of integers in both bit orders: C110
-/

namespace Deku

open Writer Mixed

/-- The size is one that the type can have, the value fits the size, and the field is not one of those whose bits the writer drops:
Lsb0, big endian, of more than 8 bits and less than the type. -/
def IntField.Usual (native : Endian) (f : IntField) : Prop :=
  1 ≤ f.W ∧ 1 ≤ f.size native ∧ f.size native ≤ 8 * f.W ∧ f.v < 2 ^ f.size native ∧
    (f.ctx.isBits = true → Prim.Sound f.W (f.ctx.shape native f.W).1 (f.size native) (f.ctx.shape native f.W).2.2)

/-- The bits of the fields, most significant bits first whatever the bit orders are. -/
def plainBits (native : Endian) (fs : List IntField) : List Bool :=
  fs.flatMap fun f => fieldBits (f.ctx.shape native f.W).1 .msb0 (f.size native) f.v

theorem length_plainBits (native : Endian) (fs : List IntField) : (plainBits native fs).length = (fs.map (IntField.size native)).sum := by
  induction fs with
  | nil => rfl
  | cons f fs ih =>
    rw [plainBits, List.flatMap_cons, List.length_append, Prim.length_fieldBits, List.map_cons, List.sum_cons, ← ih]; rfl

theorem writeFields_moves (native : Endian) : ∀ ts : List (Nat × IntCtx), ∃ sh : List (Nat × Option Order),
    ∀ fs : List IntField, fs.map (fun f => (f.W, f.ctx)) = ts → (∀ f ∈ fs, f.Usual native) →
      (sh.map Prod.fst).sum = (fs.map (IntField.size native)).sum ∧ Shifts sh (plainBits native fs) (writeFields native fs)
  | [] => ⟨[], fun fs h _ => by
      simp at h; subst h
      exact ⟨rfl, Shifts.nil⟩⟩
  | (W, ctx) :: ts => by
    obtain ⟨sh, ih⟩ := writeFields_moves native ts
    by_cases hok : 1 ≤ W ∧ 1 ≤ (ctx.shape native W).2.1 ∧ (ctx.shape native W).2.1 ≤ 8 * W ∧
        (ctx.isBits = true → Prim.Sound W (ctx.shape native W).1 (ctx.shape native W).2.1 (ctx.shape native W).2.2)
    · obtain ⟨sh0, hsum, _, h0⟩ := Prim.writeUnsigned_moves native hok.1 ctx hok.2.1 hok.2.2.1 hok.2.2.2
      refine ⟨sh0 ++ sh, fun fs h hu => ?_⟩
      cases fs with
      | nil => simp at h
      | cons f fs =>
        simp only [List.map_cons, List.cons.injEq, Prod.mk.injEq] at h
        obtain ⟨⟨rfl, rfl⟩, h⟩ := h
        obtain ⟨i1, i2⟩ := ih fs h fun g hg => hu g (List.mem_cons_of_mem _ hg)
        refine ⟨?_, ?_⟩
        · rw [List.map_append, List.sum_append, hsum, i1, List.map_cons, List.sum_cons]; rfl
        · have hv := (hu f List.mem_cons_self).2.2.2.1
          exact (h0 f.v hv).bind i2 (by rw [Prim.length_fieldBits, hsum])
    · refine ⟨[], fun fs h hu => ?_⟩
      cases fs with
      | nil => simp at h
      | cons f fs =>
        simp only [List.map_cons, List.cons.injEq, Prod.mk.injEq] at h
        obtain ⟨⟨rfl, rfl⟩, h⟩ := h
        have := hu f List.mem_cons_self
        exact (hok ⟨this.1, this.2.1, this.2.2.1, this.2.2.2.2⟩).elim

theorem plainBits_inj (native : Endian) : ∀ fs fs' : List IntField,
    fs.map (fun f => (f.W, f.ctx)) = fs'.map (fun f => (f.W, f.ctx)) → (∀ f ∈ fs, f.v < 2 ^ f.size native) →
    (∀ f ∈ fs', f.v < 2 ^ f.size native) → plainBits native fs = plainBits native fs' → fs = fs'
  | [], [], _, _, _, _ => rfl
  | [], _ :: _, h, _, _, _ => by simp at h
  | _ :: _, [], h, _, _, _ => by simp at h
  | ⟨W, ctx, v⟩ :: fs, ⟨W', ctx', v'⟩ :: fs', h, hv, hv', he => by
    simp only [List.map_cons, List.cons.injEq, Prod.mk.injEq] at h
    obtain ⟨⟨rfl, rfl⟩, h⟩ := h
    simp only [plainBits, List.flatMap_cons] at he
    obtain ⟨e1, e2⟩ := List.append_inj he (by rw [Prim.length_fieldBits, Prim.length_fieldBits]; rfl)
    have := congrArg (fieldValue (ctx.shape native W).1 .msb0) e1
    rw [Prim.fieldValue_fieldBits (Prim.dense_msb _ _), Prim.fieldValue_fieldBits (Prim.dense_msb _ _)] at this
    have h1 : v < _ := hv _ List.mem_cons_self
    have h2 : v' < _ := hv' _ List.mem_cons_self
    simp only [IntField.size] at this h1 h2
    rw [Nat.mod_eq_of_lt h1, Nat.mod_eq_of_lt h2] at this
    rw [this, plainBits_inj native fs fs' h (fun f hf => hv f (List.mem_cons_of_mem _ hf)) (fun f hf => hv' f (List.mem_cons_of_mem _ hf)) e2]

/-- **C110** (part). Unsigned integers one after the other, each with whatever endianness, size and bit order: values that fit are
written, to as many bytes as it takes, and different values give different bytes. Missing, since it is false: Lsb0 big endian fields
of more than 8 bits and less than the type, see `C110_bits_in_the_middle_are_lost`. -/
theorem C110_different_values_give_different_bytes_partial (native : Endian) (fs fs' : List IntField)
    (ht : fs.map (fun f => (f.W, f.ctx)) = fs'.map (fun f => (f.W, f.ctx))) (hu : ∀ f ∈ fs, f.Usual native)
    (hu' : ∀ f ∈ fs', f.Usual native) :
    (∃ out, toBytes (writeFields native fs) = .ok out ∧ out.length = ((fs.map (IntField.size native)).sum + 7) / 8) ∧
      (toBytes (writeFields native fs) = toBytes (writeFields native fs') → fs = fs') := by
  obtain ⟨sh, h⟩ := writeFields_moves native (fs.map fun f => (f.W, f.ctx))
  obtain ⟨h1, h2⟩ := h fs rfl hu
  obtain ⟨h1', h2'⟩ := h fs' ht.symm hu'
  obtain ⟨a, b⟩ := h2.inj h2' ((length_plainBits native fs).trans h1.symm) ((length_plainBits native fs').trans h1'.symm)
  rw [length_plainBits] at a
  exact ⟨a, fun he => plainBits_inj native fs fs' ht (fun f hf => (hu f hf).2.2.2.1) (fun f hf => (hu' f hf).2.2.2.1) (b he)⟩

/-- Three bits Lsb0, thirteen Msb0 big endian, a `u16`, nine bits Lsb0, seven in no named order: no order fills whole bytes. -/
def someMixedFields (a b c d e : Nat) : List IntField :=
  [⟨1, .bitsOrder 3 .lsb0, a⟩, ⟨2, .endianBitsOrder .big 13 .msb0, b⟩, ⟨2, .endian .little, c⟩, ⟨4, .endianBitsOrder .little 9 .lsb0, d⟩,
    ⟨1, .bits 7, e⟩]

example (a b c d e : Nat) (ha : a < 8) (hb : b < 2 ^ 13) (hc : c < 2 ^ 16) (hd : d < 2 ^ 9) (he : e < 2 ^ 7) :
    ∀ f ∈ someMixedFields a b c d e, f.Usual .little := by
  simp [someMixedFields, IntField.Usual, IntField.size, IntCtx.shape, IntCtx.isBits, Prim.Sound]
  omega

/-- The values can be told from the bytes, but the reader does not: two bits Msb0 behind four bits Lsb0 are read back as others. If
the two fields fill the byte they are read back. -/
theorem C110_but_are_not_read_back :
    toBytes (writeFields .little [⟨1, .bitsOrder 4 .lsb0, 1⟩, ⟨1, .bitsOrder 2 .msb0, 2⟩]) = .ok [0x84#8] ∧
    (readFields .little [⟨1, .bitsOrder 4 .lsb0, 0⟩, ⟨1, .bitsOrder 2 .msb0, 0⟩] (Reader.new { data := [0x84#8] })).1 = .ok [4, 2] ∧
    toBytes (writeFields .little [⟨1, .bitsOrder 4 .lsb0, 1⟩, ⟨1, .bitsOrder 4 .msb0, 2⟩]) = .ok [0x21#8] ∧
    (readFields .little [⟨1, .bitsOrder 4 .lsb0, 0⟩, ⟨1, .bitsOrder 4 .msb0, 0⟩] (Reader.new { data := [0x21#8] })).1 = .ok [1, 2] := by
  decide +kernel

/-- Twelve bits Lsb0 big endian: the bits 4 to 7 of the value are not written. -/
theorem C110_bits_in_the_middle_are_lost (hi mid mid' lo : Nat) (h : hi < 16) (hm : mid < 16) (hm' : mid' < 16) (hl : lo < 16) :
    toBytes (writeFields .little [⟨2, .endianBitsOrder .big 12 .lsb0, 256 * hi + 16 * mid + lo⟩]) =
      toBytes (writeFields .little [⟨2, .endianBitsOrder .big 12 .lsb0, 256 * hi + 16 * mid' + lo⟩]) := by
  have key : ∀ m, m < 16 → Prim.writeBitsOrd 2 .big 12 .lsb0 (256 * hi + 16 * m + lo) =
      (do writeBitsOrder (bitsBE 8 hi) .lsb0; writeBitsOrder (bitsBE 4 lo) .lsb0) := by
    intro m hm
    funext w
    simp only [Prim.writeBitsOrd, endianBytes, bytesBits_toBE, length_bitsBE]
    rw [if_neg (by omega), Prim.firstCheck_run (by omega) (by omega), if_pos (by omega), if_neg (by omega)]
    have e1 : toBE 2 (256 * hi + 16 * m + lo) = [BitVec.ofNat 8 hi, BitVec.ofNat 8 (16 * m + lo)] := by
      simp only [toBE, toLE, List.reverse_cons, List.reverse_nil, List.nil_append, List.cons_append]
      congr 1
      · congr 1; omega
      · congr 1
        apply BitVec.eq_of_toNat_eq
        simp only [BitVec.toNat_ofNat]
        omega
    have e2 : (bitsBE 8 (16 * m + lo)).drop (8 - 4) = bitsBE 4 lo := by
      rw [drop_bitsBE, ← bitsBE_mod, show (16 * m + lo) % 2 ^ (8 - (8 - 4)) = lo by omega]
    rw [e1]
    simp only [Prim.writeLoop, Prim.byteBits_ofNat]
    rw [if_neg (by omega), if_pos (by omega), show 12 - 8 = 4 from rfl, e2]
  simp only [writeFields, Prim.writeUnsigned, Prim.writeUBitsOrd]
  rw [if_neg (by omega), key mid hm, if_neg (by omega), key mid' hm']

end Deku
