import Verif.Lemmas.CoreSize

/-!
# Values of the type are written without panics
-/

namespace Deku

open Reader Coll

theorem uintValid.someBits {native : Endian} {W : Nat} {ctx : IntCtx} (h : uintValid native W ctx = true) :
    ctx.SomeBits := by
  obtain ⟨e, n, o, hs, hW, h1, hn⟩ := uintValid_iff.1 h
  cases ctx <;> simp [IntCtx.shape] at hs <;> simp only [IntCtx.SomeBits] <;> omega

theorem sintValid.someBits {native : Endian} {W : Nat} {ctx : IntCtx} (h : sintValid native W ctx = true) :
    ctx.SomeBits := by
  obtain ⟨e, n, o, hs, hW, h1, hn⟩ := sintValid_iff.1 h
  cases ctx <;> simp [IntCtx.sshape, IntCtx.shape] at hs <;> simp only [IntCtx.SomeBits] <;> omega

theorem Leaf.has_uint {W : Nat} {ctx : IntCtx} {v : Val} :
    (Leaf.uint W ctx).has v = true ↔ ∃ n : Int, v = .num n ∧ 0 ≤ n ∧ n < 256 ^ W := by
  cases v <;> simp [Leaf.has]

theorem Leaf.has_nonzero {W : Nat} {ctx : IntCtx} {v : Val} :
    (Leaf.nonzero W ctx).has v = true ↔ ∃ n : Int, v = .num n ∧ 0 < n ∧ n < 256 ^ W := by
  cases v <;> simp [Leaf.has]

theorem Leaf.has_sint {W : Nat} {ctx : IntCtx} {v : Val} :
    (Leaf.sint W ctx).has v = true ↔ ∃ n : Int, v = .num n ∧ -(256 ^ W) ≤ 2 * n ∧ 2 * n < 256 ^ W := by
  cases v <;> simp [Leaf.has]

theorem Leaf.has_nonzeroSigned {W : Nat} {ctx : IntCtx} {v : Val} :
    (Leaf.nonzeroSigned W ctx).has v = true ↔
      ∃ n : Int, v = .num n ∧ n ≠ 0 ∧ -(256 ^ W) ≤ 2 * n ∧ 2 * n < 256 ^ W := by
  cases v <;> simp [Leaf.has]

theorem uintValid.quiet {native : Endian} {W : Nat} {ctx ctx' : IntCtx} (h : uintValid native W ctx = true) {v : Val}
    (hv : (Leaf.uint W ctx').has v = true) : Quiet ((uintCodec native W ctx).write v) := by
  obtain ⟨n, rfl, h0, hn⟩ := Leaf.has_uint.1 hv
  exact uintCodec_quiet native W (uintValid.someBits h) h0 hn

theorem sintValid.quiet {native : Endian} {W : Nat} {ctx : IntCtx} (h : sintValid native W ctx = true) {n : Int}
    (hn : -(256 ^ W) ≤ 2 * n ∧ 2 * n < 256 ^ W) : Quiet ((sintCodec native W ctx).write (.num n)) := by
  obtain ⟨_, _, _, _, hW, _⟩ := sintValid_iff.1 h
  exact sintCodec_quiet hW (sintValid.someBits h) ((inRange_width hW n).1 hn)

theorem Leaf.quiet {m : Machine} {l : Leaf} (h : l.valid m.native = true) {v : Val} (hv : l.has v = true) :
    Quiet ((l.codec m).write v) := by
  cases l with
  | uint W ctx => exact uintValid.quiet h hv
  | sint W ctx =>
    obtain ⟨n, rfl, hn⟩ := has_sint.1 hv
    exact sintValid.quiet h hn
  | nonzero W ctx =>
    obtain ⟨n, rfl, h0, hn⟩ := has_nonzero.1 hv
    simp only [Leaf.codec, nonzeroCodec_eq]
    exact convCodec.quiet (nonzeroOf_of (by intro h; injection h with h; omega))
      (uintValid.quiet (ctx' := ctx) h (has_uint.2 ⟨n, rfl, by omega, hn⟩))
  | nonzeroSigned W ctx =>
    obtain ⟨n, rfl, h0, hn⟩ := has_nonzeroSigned.1 hv
    simp only [Leaf.codec, nonzeroSignedCodec_eq]
    exact convCodec.quiet (nonzeroOf_of (by intro h; injection h with h; contradiction)) (sintValid.quiet h hn)
  | bool ctx =>
    simp only [Leaf.codec, boolCodec_eq]
    simp only [Leaf.has, decide_eq_true_iff] at hv
    refine convCodec.quiet (v := v) (by unfold boolOf; rw [if_pos hv.symm]) (uintValid.quiet (ctx' := ctx) h ?_)
    rcases hv with rfl | rfl <;> exact has_uint.2 ⟨_, rfl, by decide, by decide⟩
  | cstring =>
    simp only [Leaf.codec, cstringCodec]
    rw [if_pos (by simpa [Leaf.has] using hv)]
    exact writeAll_quiet _ fun b _ => u8Write_quiet (ctx := .unit) m.native trivial b
  | cstringSized n =>
    simp only [Leaf.codec, cstringSizedCodec]
    rw [if_pos (by simpa [Leaf.has] using hv)]
    exact writeAll_quiet _ fun b _ => u8Write_quiet (ctx := .bytes n) m.native trivial b
  | unit =>
    simp only [Leaf.codec, unitCodec]
    rw [if_pos (by simpa [Leaf.has] using hv)]
    exact .pure _

theorem DAttrs.writes {a : DAttrs} {ty : Env → Val → Prop} {env : Env} {v : Val} (h : ∀ env, ty env v) :
    a.toAttrs.Writes ty env v :=
  ⟨nofun, fun _ _ => h _⟩

mutual

theorem Def.writes (m : Machine) : ∀ (d : Def) (env : Env) (v : Val), d.valid m.native = true → d.has v = true →
    (d.toTy m).Writes m env v
  | .leaf _ l, env, v, h, hv => by
    simp only [Def.valid] at h
    simp only [Def.has] at hv
    simp only [Def.toTy, Ty.Writes]
    exact Leaf.quiet h hv
  | .option t, env, v, h, hv => by
    simp only [Def.valid] at h
    simp only [Def.toTy, Ty.Writes]
    cases v with
    | none => exact .inl rfl
    | some x =>
      simp only [Def.has] at hv
      exact .inr ⟨x, rfl, Def.writes m t env x h hv⟩
    | _ => simp [Def.has] at hv
  | .array n t, env, v, h, hv => by
    simp only [Def.valid] at h
    simp only [Def.has, Bool.and_eq_true, decide_eq_true_iff, List.all_eq_true] at hv
    simp only [Def.toTy, Ty.Writes]
    exact ⟨hv.1.1, hv.1.2, fun x hx => Def.writes m t env x h (hv.2 x hx)⟩
  | .pair a b, env, v, h, hv => by
    simp only [Def.valid, Bool.and_eq_true] at h
    simp only [Def.toTy, Ty.Writes]
    simp only [Def.has] at hv
    split at hv
    · rw [Bool.and_eq_true] at hv
      exact ⟨_, _, rfl, Def.writes m a env _ h.1 hv.1, Def.writes m b env _ h.2 hv.2⟩
    · simp at hv
  | .vec zst l t, env, v, h, hv => by
    simp only [Def.valid] at h
    simp only [Def.has, Bool.and_eq_true, List.all_eq_true] at hv
    simp only [Def.toTy, Ty.Writes]
    exact ⟨hv.1, fun x hx => Def.writes m t env x h (hv.2 x hx)⟩
  | .bytes n ctx, env, v, h, hv => by
    simp only [Def.valid] at h
    simp only [Def.has] at hv
    simp only [Def.toTy, Ty.Writes]
    exact ⟨hv, fun b => u8Write_quiet m.native (uintValid.someBits h) b⟩
  | .struct args magic fs, env, v, h, hv => by
    simp only [Def.valid] at h
    simp only [Def.has] at hv
    simp only [Def.toTy, Ty.Writes]
    exact ⟨nofun, DFields.writes m fs _ v v h hv⟩
  | .enum args magic id vs, env, v, h, hv => by
    simp only [Def.valid, Bool.and_eq_true] at h
    simp only [Def.has] at hv
    simp only [Def.toTy, Ty.Writes]
    split at hv
    · exact ⟨_, _, rfl, DVariants.writes m id h.1 vs _ _ _ h.2 hv⟩
    · simp at hv

theorem DFields.writes (m : Machine) : ∀ (fs : DFields) (env : Env) (all v : Val), fs.valid m.native = true →
    fs.has all v = true → (fs.toFields m).Writes m env all v
  | .nil, env, all, v, h, hv => by
    simp only [DFields.has, decide_eq_true_iff] at hv
    simp only [DFields.toFields, Fields.Writes]
    exact hv
  | .cons a t tl, env, all, v, h, hv => by
    simp only [DFields.valid, Bool.and_eq_true] at h
    simp only [DFields.has] at hv
    simp only [DFields.toFields, Fields.Writes]
    split at hv
    · rw [Bool.and_eq_true] at hv
      exact ⟨_, _, rfl, DAttrs.writes fun env => Def.writes m t env _ h.1 hv.1, DFields.writes m tl _ _ _ h.2 hv.2⟩
    · simp at hv
  | .temp a t value tl, env, all, v, h, hv => by
    simp only [DFields.valid, Bool.and_eq_true] at h
    simp only [DFields.has, Bool.and_eq_true] at hv
    simp only [DFields.toFields, Fields.Writes]
    exact ⟨DAttrs.writes fun env => Def.writes m t env _ h.1 hv.1, DFields.writes m tl _ _ _ h.2 hv.2⟩

theorem DFields.writesStored (m : Machine) {W : Nat} (store : Env → Val → M Writer Unit)
    (hs : ∀ env v, (Leaf.uint W .unit).has v = true → Quiet (store env v)) :
    ∀ (fs : DFields) (env : Env) (v : Val), fs.valid m.native = true → fs.hasStored W v = true →
    (fs.toFields m).WritesStored m store env v
  | .nil, env, v, h, hv => by simp [DFields.hasStored] at hv
  | .cons a t tl, env, v, h, hv => by
    simp only [DFields.valid, Bool.and_eq_true] at h
    simp only [DFields.hasStored] at hv
    simp only [DFields.toFields, Fields.WritesStored]
    split at hv
    · rw [Bool.and_eq_true] at hv
      exact ⟨_, _, rfl, hs _ _ hv.1, DFields.writes m tl _ _ _ h.2 hv.2⟩
    · simp at hv
  | .temp a t value tl, env, v, h, hv => by simp [DFields.hasStored] at hv

theorem DVariants.writes (m : Machine) (id : DId) (hid : id.valid m.native = true) :
    ∀ (vs : DVariants) (i : Nat) (env : Env) (v : Val), vs.valid m.native id = true → vs.hasAt id i v = true →
    (vs.toVariants m).WritesAt m env (id.toSrc m) (id.store m) i v
  | .nil, i, env, v, h, hv => by simp [DVariants.hasAt] at hv
  | .cons a fs tl, 0, env, v, h, hv => by
    simp only [DVariants.valid, Bool.and_eq_true] at h
    obtain ⟨⟨hk, hf⟩, ht⟩ := h
    simp only [DVariants.hasAt] at hv
    simp only [DVariants.toVariants, Variants.WritesAt, DVAttrs.toVAttrs]
    cases id with
    | typed size W ctx store =>
      simp only [DId.valid, Bool.and_eq_true] at hid
      simp only [DId.toSrc]
      have hst : ∀ env v, (Leaf.uint W .unit).has v = true → Quiet (DId.store m (.typed size W ctx store) env v) :=
        fun env v hv => uintValid.quiet hid.2 hv
      cases hkind : a.kind with
      | id n =>
        rw [hkind] at hk hv
        simp only [VKind.idVal, VKind.isPat, Bool.false_eq_true, if_false] at hv ⊢
        simp only [DId.allows, decide_eq_true_iff] at hk
        exact ⟨uintCodec_quiet _ _ (uintValid.someBits hid.1) hk.1 hk.2, DFields.writes m fs env v v hf hv⟩
      | any =>
        rw [hkind] at hk hv
        simp only [VKind.idVal, VKind.isPat, if_true] at hv ⊢
        exact ⟨trivial, DFields.writesStored m _ hst fs env v hf hv⟩
      | range lo hi =>
        rw [hkind] at hk hv
        simp only [VKind.idVal, VKind.isPat, if_true] at hv ⊢
        exact ⟨trivial, DFields.writesStored m _ hst fs env v hf hv⟩
    | arg e =>
      simp only [DId.allows, Bool.not_eq_true'] at hk
      simp only [DId.toSrc, hk, Bool.false_eq_true, if_false]
      exact ⟨trivial, DFields.writes m fs env v v hf hv⟩
  | .cons a fs tl, i + 1, env, v, h, hv => by
    simp only [DVariants.valid, Bool.and_eq_true] at h
    simp only [DVariants.hasAt] at hv
    simp only [DVariants.toVariants, Variants.WritesAt]
    exact DVariants.writes m id hid tl i env v h.2 hv

end

end Deku
