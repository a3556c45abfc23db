import Verif.Spec.SharedStruct
import Verif.Props.SharedInt
import Verif.Lemmas.FromBytes

/-!
# Structs whose fields share bytes
-/

namespace Deku

theorem intFields_read (m : Machine) : ∀ (fs : List IntField) (env : Env) (r : Reader),
    (intFields m.native (fs.map IntField.kind)).read m env r = (do let vs ← readFields m.native fs; pure (intValue vs)) r
  | [], _, _ => rfl
  | f :: fs, env, r => by
    have ih := intFields_read m fs
    simp only [List.map_cons, intFields, IntField.kind, Ty.read, Fields.read, seekRead, magicRead, Attrs.read, padRead, Attrs.value, Attrs.isRead,
      uintCodec, Attrs.check, Attrs.applyMap, bind, M.bind, pure, M.pure, M.get, readFields] at ih ⊢
    rcases h1 : Prim.readUnsigned m.native f.W f.ctx r with ⟨x, r1⟩
    cases x with
    | ok k =>
      simp only [if_true, Bool.true_eq_false, if_false, M.bind, M.pure, h1]
      have := ih (env.push (.num k)) r1
      rw [this]
      rcases h2 : readFields m.native fs r1 with ⟨y, r2⟩
      cases y <;> rfl
    | err e => simp [M.bind, h1]
    | panic => simp [M.bind, h1]

theorem intFields_write (m : Machine) : ∀ (fs : List IntField) (_ : ∀ f ∈ fs, f.v < 256 ^ f.W) (env : Env) (all : Val) (w : Writer),
    (intFields m.native (fs.map IntField.kind)).write m env all (intValue (fs.map IntField.v)) w = writeFields m.native fs w
  | [], _, _, _, _ => rfl
  | f :: fs, h, env, all, w => by
    have ih := intFields_write m fs fun g hg => h g (List.mem_cons_of_mem _ hg)
    have hv' : (f.v : Int) < 256 ^ f.W := by
      have := (Int.ofNat_lt (n := f.v) (m := 256 ^ f.W)).2 (h f List.mem_cons_self)
      rwa [Int.natCast_pow] at this
    simp only [List.map_cons, intFields, IntField.kind, intValue, Ty.write, Val.ofList, Fields.write, seekWrite, magicWrite, Attrs.write, padWrite,
      Attrs.put, Attrs.isWritten, uintCodec, Attrs.check, Coll.writeAll, bind, M.bind, pure, M.pure, M.get, if_true, Bool.true_eq_false, if_false,
      writeFields] at ih ⊢
    simp only [Int.natCast_nonneg, hv', and_self, if_true, Int.toNat_natCast]
    rcases h1 : Prim.writeUnsigned m.native f.W f.ctx f.v w with ⟨x, w1⟩
    cases x with
    | ok u => exact ih _ _ _
    | err e => rfl
    | panic => rfl

theorem intStruct_read (m : Machine) (fs : List IntField) (env : Env) :
    (intStruct m.native (fs.map IntField.kind)).read m env = (do let vs ← readFields m.native fs; pure (intValue vs)) := by
  funext r
  exact intFields_read m fs { ctx := [] } r

theorem intStruct_write (m : Machine) (fs : List IntField) (h : ∀ f ∈ fs, f.v < 256 ^ f.W) (env : Env) :
    (intStruct m.native (fs.map IntField.kind)).write m env (intValue (fs.map IntField.v)) = writeFields m.native fs := by
  funext w
  exact intFields_write m fs h { ctx := [] } _ w

namespace HeadSlot

theorem Fits.small {native : Endian} {s : HeadSlot} (h : s.Fits native) : ∀ f ∈ s.fields, f.v < 256 ^ f.W := by
  have hp : ∀ W : Nat, (256 : Nat) ^ W = 2 ^ (8 * W) := fun W => by rw [Nat.pow_mul]
  have hle : ∀ f : IntField, 1 ≤ f.W → f.size native ≤ 8 → f.v < 2 ^ f.size native → f.v < 256 ^ f.W := fun f h1 h8 hv => by
    rw [hp]; exact Nat.lt_of_lt_of_le hv (Nat.pow_le_pow_right (by omega) (by omega))
  cases s with
  | whole W e v => cases e <;> (simp only [fields, List.mem_singleton]; rintro _ rfl; rw [hp]; exact h.2)
  | pair f g =>
    obtain ⟨w1, w2, _, _, _, _, l8, _, v1, v2⟩ := h
    simp only [fields, List.mem_cons, List.not_mem_nil, or_false]
    rintro _ (rfl | rfl)
    · exact hle _ w1 (by omega) v1
    · exact hle _ w2 (by omega) v2

theorem Fits.length_eq {native : Endian} {s : HeadSlot} (h : s.Fits native) :
    (s.bits native).length = (s.fields.map (IntField.size native)).sum := by
  cases s with
  | whole W e v => cases e <;> simp [bits, fields, IntField.size, IntCtx.shape, Prim.length_fieldBits]
  | pair f g =>
    have := h.fills.length
    obtain ⟨_, _, _, _, _, _, l8, _⟩ := h
    simp only [fields, List.map_cons, List.map_nil, List.sum_cons, List.sum_nil]
    exact this.trans (by omega)

theorem length_all (native : Endian) : ∀ ss : List HeadSlot, (∀ s ∈ ss, s.Fits native) →
    (ss.flatMap (bits native)).length = ((ss.flatMap fields).map (IntField.size native)).sum
  | [], _ => rfl
  | s :: ss, h => by
    have ih := length_all native ss fun t ht => h t (List.mem_cons_of_mem _ ht)
    rw [List.flatMap_cons, List.flatMap_cons, List.length_append, List.map_append, List.sum_append, ih,
      (h s List.mem_cons_self).length_eq]

/-- Any bits are the bits of some values. -/
theorem Fits.covers {native : Endian} {s : HeadSlot} (h : s.Fits native) {c : List Bool} (hc : c.length = (s.bits native).length) :
    ∃ s' : HeadSlot, s'.Fits native ∧ s'.fields.map IntField.kind = s.fields.map IntField.kind ∧ s'.bits native = c := by
  cases s with
  | whole W e v =>
    have hl : c.length = 8 * W := by rw [hc]; simp [bits, Prim.length_fieldBits]
    refine ⟨.whole W e (fieldValue (e.getD native) .msb0 c), ⟨h.1, ?_⟩, by cases e <;> rfl, ?_⟩
    · rw [← hl]; exact Prim.fieldValue_lt _ _
    · simp only [bits]
      rw [← hl]
      exact Prim.fieldBits_fieldValue (Prim.dense_msb _ _)
  | pair f g =>
    have h8 : c.length = 8 := hc.trans h.fills.length
    obtain ⟨w1, w2, b1, b2, m1, m2, l8, ho, v1, v2⟩ := h
    cases hf : (f.ctx.shape native f.W).2.2 with
    | msb0 =>
      refine ⟨.pair { f with v := ofBits (c.take (f.size native)) } { g with v := ofBits (c.drop (f.size native)) },
        ⟨w1, w2, b1, b2, m1, m2, l8, ho, ?_, ?_⟩, rfl, ?_⟩
      · have := ofBits_lt (c.take (f.size native))
        rwa [List.length_take, Nat.min_eq_left (by omega)] at this
      · have := ofBits_lt (c.drop (f.size native))
        rwa [List.length_drop, show c.length - f.size native = g.size native by omega] at this
      · simp only [bits, TwoGroups.byte, hf]
        rw [bitsBE_ofBits' _ _ (by simp [IntField.size] at *; omega), bitsBE_ofBits' _ _ (by simp [IntField.size] at *; omega), List.take_append_drop]
    | lsb0 =>
      refine ⟨.pair { f with v := ofBits (c.drop (g.size native)) } { g with v := ofBits (c.take (g.size native)) },
        ⟨w1, w2, b1, b2, m1, m2, l8, ho, ?_, ?_⟩, rfl, ?_⟩
      · have := ofBits_lt (c.drop (g.size native))
        rwa [List.length_drop, show c.length - g.size native = f.size native by omega] at this
      · have := ofBits_lt (c.take (g.size native))
        rwa [List.length_take, Nat.min_eq_left (by omega)] at this
      · simp only [bits, TwoGroups.byte, hf]
        rw [bitsBE_ofBits' _ _ (by simp [IntField.size] at *; omega), bitsBE_ofBits' _ _ (by simp [IntField.size] at *; omega), List.take_append_drop]

theorem covers (native : Endian) : ∀ ss : List HeadSlot, (∀ s ∈ ss, s.Fits native) → ∀ c : List Bool,
    c.length = (ss.flatMap (bits native)).length →
    ∃ ss' : List HeadSlot, (∀ s ∈ ss', s.Fits native) ∧ headKinds ss' = headKinds ss ∧ ss'.flatMap (bits native) = c
  | [], _, c, hc => ⟨[], by simp, rfl, (List.length_eq_zero_iff.1 (by simpa using hc)).symm⟩
  | s :: ss, h, c, hc => by
    rw [List.flatMap_cons, List.length_append] at hc
    obtain ⟨s', f1, k1, e1⟩ := (h s List.mem_cons_self).covers (c := c.take (s.bits native).length) (by
      rw [List.length_take]; omega)
    obtain ⟨ss', f2, k2, e2⟩ := covers native ss (fun t ht => h t (List.mem_cons_of_mem _ ht)) (c.drop (s.bits native).length) (by
      rw [List.length_drop]; omega)
    refine ⟨s' :: ss', ?_, ?_, ?_⟩
    · intro t ht
      rcases List.mem_cons.1 ht with rfl | ht
      · exact f1
      · exact f2 t ht
    · simp only [headKinds, List.flatMap_cons, List.map_append] at k2 ⊢
      rw [k1, k2]
    · rw [List.flatMap_cons, e1, e2, List.take_append_drop]

end HeadSlot

end Deku
