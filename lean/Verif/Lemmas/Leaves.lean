import Verif.Lemmas.FitsSound
import Verif.Props.Int

/-! # Integers as the types of fields -/

namespace Deku

open Reader Writer Coll

variable {o : Order} {p : Nat}

/-- A writer `p % 8` bits into a byte. -/
theorem Writer.exists_at (o : Order) (p : Nat) : ∃ w : Writer, w.At o p := by
  refine ⟨{ Writer.new {} with leftover := List.replicate (p % 8) false, tag := o }, ?_, ?_, ?_, ?_⟩
  · exact ⟨⟨Nat.le_refl _, by simp [Writer.new]⟩, by simp; omega⟩
  · exact ⟨rfl, rfl⟩
  · cases o <;> simp [Ready]
  · simp

/-- What is written is determined. -/
theorem Writes.unique {g : M Writer Unit} {a b : List Bool} (ha : Writes o p g a)
    (hb : Writes o p g b) : a = b := by
  obtain ⟨w, hw⟩ := Writer.exists_at o p
  obtain ⟨w1, e1, s1, _⟩ := ha w hw
  obtain ⟨w2, e2, s2, _⟩ := hb w hw
  rw [e1] at e2
  simp at e2
  subst e2
  have := s1.produced.symm.trans s2.produced
  exact List.append_cancel_left this

theorem SoundOn.of_refuses {α : Type} {P Q : Nat → Prop} {f : M Reader α} {g : M Writer Unit} {v : α}
    (h : ∀ w w', g w ≠ (.ok (), w')) : SoundOn o P f g v Q :=
  fun _ w w' _ _ he => absurd he (h w w')

theorem pow256 (W : Nat) : ((256 ^ W : Nat) : Int) = 256 ^ W := Int.natCast_pow 256 W

theorem uint_write_num {native : Endian} {W : Nat} {ctx : IntCtx} {k : Nat} (hk : k < 256 ^ W) :
    (uintCodec native W ctx).write (.num k) = Prim.writeUnsigned native W ctx k := by
  have : (0 : Int) ≤ k ∧ (k : Int) < 256 ^ W := ⟨by omega, by
    rw [← pow256]; exact Int.ofNat_lt.2 hk⟩
  simp only [uintCodec]
  rw [if_pos this]
  rfl

/-- A value the writer of an unsigned integer accepts is a number of the type. -/
theorem uint_accepted {native : Endian} {W : Nat} {ctx : IntCtx} {v : Val} {w w' : Writer}
    (h : (uintCodec native W ctx).write v w = (.ok (), w')) :
    ∃ k : Nat, v = .num k ∧ k < 256 ^ W ∧ Prim.writeUnsigned native W ctx k w = (.ok (), w') := by
  cases v with
  | num n =>
    simp only [uintCodec] at h
    by_cases hc : 0 ≤ n ∧ n < 256 ^ W
    · rw [if_pos hc] at h
      refine ⟨n.toNat, ?_, ?_, h⟩
      · rw [Int.toNat_of_nonneg hc.1]
      · have := hc.2
        have h0 := Int.toNat_of_nonneg hc.1
        rw [← h0, ← pow256] at this
        exact Int.ofNat_lt.1 this
    · rw [if_neg hc] at h; simp [M.panic] at h
  | _ => simp [uintCodec, M.panic] at h

/-- An unsigned integer field that its writer produces as its reader expects. `hf` says that a value
is not cut off, which is automatic for bit fields and for whole integers. -/
theorem uint_sound {native e : Endian} {W n : Nat} {ctx : IntCtx} {P : Nat → Prop} {v : Val}
    (hW : 1 ≤ W) (hs : ctx.shape native W = (e, n, o)) (h1 : 1 ≤ n) (hn : n ≤ 8 * W)
    (hf : ctx.isBits = true ∨ n = 8 * W ∨ ∀ k : Nat, v = .num k → k < 2 ^ n)
    (hc : ∀ p, P p → Prim.Compatible native W ctx p) :
    SoundOn o P (uintCodec native W ctx).read ((uintCodec native W ctx).write v) v (shift P n) := by
  intro p w w' hp hw he
  obtain ⟨k, rfl, hk, he⟩ := uint_accepted he
  have hlt : k < 2 ^ n := by
    rcases hf with h | h | h
    · exact (accepted_fits h hs hk he).2
    · rw [h, Nat.pow_mul]; exact hk
    · exact h k rfl
  obtain ⟨hw', hr⟩ := round_trip hW hs h1 hn hlt (hc p hp)
  refine ⟨_, ?_, hr.map fun n => Val.num n, p, hp, by rw [Prim.length_fieldBits]⟩
  rw [uint_write_num hk]
  exact hw'

/-- Msb0 integers fit at every alignment. -/
theorem uint_sound_msb {native e : Endian} {W n : Nat} {ctx : IntCtx} {P : Nat → Prop} {v : Val}
    (hW : 1 ≤ W) (hs : ctx.shape native W = (e, n, .msb0)) (h1 : 1 ≤ n) (hn : n ≤ 8 * W)
    (hf : ctx.isBits = true ∨ n = 8 * W ∨ ∀ k : Nat, v = .num k → k < 2 ^ n) :
    SoundOn .msb0 P (uintCodec native W ctx).read ((uintCodec native W ctx).write v) v (shift P n) := by
  refine uint_sound hW hs h1 hn hf fun p _ => ?_
  simp only [Prim.Compatible, hs]
  split
  · exact fun h => by simp at h
  · simp

/-- What is read is written back as the same bits. -/
theorem uint_canonical {native e : Endian} {W n : Nat} {ctx : IntCtx} (hW : 1 ≤ W)
    (hs : ctx.shape native W = (e, n, o)) (h1 : 1 ≤ n) (hn : n ≤ 8 * W)
    (hc : Prim.Compatible native W ctx p) :
    Canonical o p (uintCodec native W ctx).read (uintCodec native W ctx).write := by
  intro r a r' hr he
  have hd := hc.dense
  have hR := Prim.readUnsigned_delivers native ctx hW
  rw [hs] at hd hR
  have hR := hR h1 hn
  simp only [uintCodec] at he
  obtain ⟨k, r1, e1, e2⟩ := M.bind_eq_ok he
  simp at e2
  obtain ⟨rfl, rfl⟩ := e2
  by_cases hlen : n ≤ (r.unread o).length
  · have hl : ((r.unread o).take n).length = n := by rw [List.length_take]; omega
    obtain ⟨r2, e3, _⟩ := (hR r hr.healthy hr.wf).1 hlen
    rw [e1] at e3
    simp at e3
    obtain ⟨rfl, rfl⟩ := e3
    have hlt : fieldValue e o ((r.unread o).take n) < 2 ^ n := by
      have := Prim.fieldValue_dense_lt (e := e) (o := o) (l := (r.unread o).take n) (by rw [hl]; exact hd)
      rwa [hl] at this
    refine ⟨n, hlen, (hR.reads hl p).map fun n => Val.num n, ?_⟩
    have hlt' : fieldValue e o ((r.unread o).take n) < 256 ^ W := by
      refine Nat.lt_of_lt_of_le hlt ?_
      rw [show (256 : Nat) ^ W = 2 ^ (8 * W) by rw [Nat.pow_mul]]
      exact Nat.pow_le_pow_right (by omega) hn
    rw [uint_write_num hlt']
    have := (round_trip hW hs h1 hn hlt hc).1
    have hb := Prim.fieldBits_fieldValue (e := e) (o := o) (l := (r.unread o).take n) (by rw [hl]; exact hd)
    rw [hl] at hb
    rwa [hb] at this
  · obtain ⟨k', r2, e3, _⟩ := (hR r hr.healthy hr.wf).2 hlen
    rw [e1] at e3
    simp at e3

theorem elems_ofList (l : List Val) : (Val.ofList l).elems = l := by
  induction l with
  | nil => rfl
  | cons x xs ih => simp only [Val.ofList, Val.elems, ih]

theorem isList_ofList (l : List Val) : (Val.ofList l).isList = true := by
  induction l with
  | nil => rfl
  | cons x xs ih => simpa only [Val.ofList, Val.isList] using ih

end Deku
