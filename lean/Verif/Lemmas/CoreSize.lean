import Verif.Spec.Core
import Verif.Lemmas.Text
import Verif.Lemmas.Sint

/-!
# The size of what is written
-/

namespace Deku

open Reader Coll

theorem uintValid_iff {native : Endian} {W : Nat} {ctx : IntCtx} :
    uintValid native W ctx = true ↔ ∃ e n o, ctx.shape native W = (e, n, o) ∧ 1 ≤ W ∧ 1 ≤ n ∧ n ≤ 8 * W := by
  simp only [uintValid, decide_eq_true_iff]
  constructor
  · rintro ⟨h1, h2, h3⟩
    exact ⟨_, _, _, rfl, h1, h2, h3⟩
  · rintro ⟨e, n, o, h, h1, h2, h3⟩
    rw [h]
    exact ⟨h1, h2, h3⟩

theorem sintValid_iff {native : Endian} {W : Nat} {ctx : IntCtx} :
    sintValid native W ctx = true ↔ ∃ e n o, ctx.sshape native W = (e, n, o) ∧ 1 ≤ W ∧ 1 ≤ n ∧ n ≤ 8 * W := by
  simp only [sintValid, decide_eq_true_iff]
  constructor
  · rintro ⟨h1, h2, h3⟩
    exact ⟨_, _, _, rfl, h1, h2, h3⟩
  · rintro ⟨e, n, o, h, h1, h2, h3⟩
    rw [h]
    exact ⟨h1, h2, h3⟩

theorem uintValid.measures {native : Endian} {W : Nat} {ctx : IntCtx} (h : uintValid native W ctx = true) :
    (uintCodec native W ctx).Measures (ctx.shape native W).2.1 := by
  obtain ⟨e, n, o, hs, hW, h1, hn⟩ := uintValid_iff.1 h
  rw [hs]
  exact uint_measures hW hs h1 hn

theorem sintValid.measures {native : Endian} {W : Nat} {ctx : IntCtx} (h : sintValid native W ctx = true) :
    (sintCodec native W ctx).Measures (ctx.sshape native W).2.1 := by
  obtain ⟨e, n, o, hs, hW, h1, hn⟩ := sintValid_iff.1 h
  rw [hs]
  exact sint_measures hW hs h1 hn

theorem Puts.congr {m n : Nat} {g : M Writer Unit} (h : Puts (· = m) g) (e : n = m) : Puts (· = n) g := by
  subst e; exact h

theorem Puts.append {m n k : Nat} {g g' : M Writer Unit} (h : Puts (· = m) g) (h' : Puts (· = n) g')
    (e : k = m + n) : Puts (· = k) (g >>= fun _ => g') :=
  (h.bind h').mono fun _ ⟨i, j, hi, hj, he⟩ => by omega

theorem writeAll_puts_sum {α : Type} {g : α → M Writer Unit} {k : α → Nat} (hg : ∀ x, Puts (· = k x) (g x)) :
    ∀ vs : List α, Puts (· = (vs.map k).sum) (Coll.writeAll g vs)
  | [] => Puts.pure rfl
  | v :: vs => (hg v).append (writeAll_puts_sum hg vs) (by simp)

theorem cstringWrite_puts (native : Endian) (bs : List Byte) :
    Puts (· = 8 * (bs.length + 1)) (Coll.cstringWrite native .unit bs) :=
  (writeAll_puts (u8Write_puts native) (bs ++ [0])).mono fun n hn => by
    have := times_eq _ _ hn
    simp at this
    omega

theorem cstringWrite_sized (native : Endian) (n : Nat) (bs : List Byte) :
    Coll.cstringWrite native (.bytes n) bs = Coll.cstringWrite native .unit bs := by
  simp only [Coll.cstringWrite, funext (u8Write_sized native n)]

/-- A successful write takes in the bits of the value. -/
theorem Leaf.puts {m : Machine} {l : Leaf} (h : l.valid m.native = true) (v : Val) :
    Puts (· = l.bits m.native v) ((l.codec m).write v) := by
  cases l with
  | uint W ctx => exact (uintValid.measures h).2 v
  | sint W ctx => exact sintValid.measures h |>.2 v
  | nonzero W ctx =>
    simp only [Leaf.codec, nonzeroCodec_eq]
    exact convCodec.puts (uintValid.measures h).2 v
  | nonzeroSigned W ctx =>
    simp only [Leaf.codec, nonzeroSignedCodec_eq]
    exact convCodec.puts (sintValid.measures h).2 v
  | bool ctx =>
    simp only [Leaf.codec, boolCodec_eq]
    exact convCodec.puts (uintValid.measures h).2 v
  | cstring =>
    simp only [Leaf.codec, cstringCodec, Leaf.bits]
    split
    · exact (cstringWrite_puts _ _).congr (by simp)
    · exact .panic
  | cstringSized n =>
    simp only [Leaf.codec, cstringSizedCodec, Leaf.bits]
    split
    · rw [cstringWrite_sized]
      exact (cstringWrite_puts _ _).congr (by simp)
    · exact .panic
  | unit =>
    simp only [Leaf.codec, unitCodec, Leaf.bits]
    split
    · exact .pure rfl
    · exact .panic

theorem padWrite_puts_lit (order : Option Order) (pad : Option Nat) (env : Env) :
    Puts (· = pad.getD 0) (padWrite order (pad.map fun n _ => (n : Int)) env) := by
  cases pad with
  | none => exact Puts.pure rfl
  | some n =>
    refine (padWrite_puts (k := n) (order := order) (env := env) (pad := some fun _ => (n : Int)) ?_).mono fun k hk => ?_
    · intro _; rfl
    · simp only [PadSize] at hk
      have := hk env
      simp
      omega

theorem DAttrs.write_puts {a : DAttrs} {native : Endian} {wr : Env → Val → M Writer Unit} {env : Env} {v : Val}
    {k : Nat} (h : Puts (· = k) (wr (env.at 0) v)) :
    Puts (· = a.extra + if a.toAttrs.isWritten (env.at 0) then k else 0) (a.toAttrs.write native wr env v) := by
  simp only [Attrs.write]
  have hs : a.toAttrs.seek = none := rfl
  have ho : a.toAttrs.usesOffset = false := rfl
  simp only [hs, seekWrite, M.pure_bind, ho, Bool.false_eq_true, if_false]
  refine (magicWrite_puts native _).append (n := a.extra - 8 * a.magic.length + if a.toAttrs.isWritten (env.at 0) then k else 0)
    ((padWrite_puts_lit _ a.padBefore env).append (n := a.padAfter.getD 0 + if a.toAttrs.isWritten (env.at 0) then k else 0) ?_ ?_) ?_
  · intro w u w' hw he
    rw [M.get_bind_run] at he
    refine ((check_puts _ _ _).append (n := a.padAfter.getD 0 + if a.toAttrs.isWritten (env.at 0) then k else 0)
      (Puts.append (m := if a.toAttrs.isWritten (env.at 0) then k else 0) ?_ (padWrite_puts_lit _ a.padAfter _) (by omega)) (by omega)) w u w' hw he
    simp only [Attrs.put]
    split
    · exact h
    · exact .pure rfl
  · simp only [DAttrs.extra]; omega
  · simp only [DAttrs.extra, DAttrs.toAttrs]; omega

theorem u8Write_measures {native : Endian} {ctx : IntCtx} (h : uintValid native 1 ctx = true) (b : Byte) :
    Puts (· = (ctx.shape native 1).2.1) (u8Write native ctx b) := by
  rw [← u8Write_eq]
  exact (uintValid.measures h).2 _

mutual

theorem Def.puts (m : Machine) : ∀ (d : Def) (env : Env) (v : Val), d.valid m.native = true →
    Puts (· = d.bits m.native env v) ((d.toTy m).write m env v)
  | .leaf _ l, env, v, h => by
    simp only [Def.valid] at h
    simp only [Def.toTy, Ty.write, Def.bits]
    exact Leaf.puts h v
  | .option t, env, v, h => by
    simp only [Def.valid] at h
    simp only [Def.toTy, Ty.write]
    split
    · exact .pure rfl
    · simp only [Def.bits]
      exact Def.puts m t env _ h
    · exact .panic
  | .array n t, env, v, h => by
    simp only [Def.valid] at h
    simp only [Def.toTy, Ty.write, Def.bits]
    split
    · exact writeAll_puts_sum (fun x => Def.puts m t env x h) _
    · exact .panic
  | .pair a b, env, v, h => by
    simp only [Def.valid, Bool.and_eq_true] at h
    simp only [Def.toTy, Ty.write]
    split
    · simp only [Def.bits]
      exact (Def.puts m a env _ h.1).append (Def.puts m b env _ h.2) rfl
    · exact .panic
  | .vec zst l t, env, v, h => by
    simp only [Def.valid] at h
    simp only [Def.toTy, Ty.write, Def.bits]
    split
    · exact writeAll_puts_sum (fun x => Def.puts m t env x h) _
    · exact .panic
  | .bytes n ctx, env, v, h => by
    simp only [Def.valid] at h
    simp only [Def.toTy, Ty.write, Def.bits]
    split
    · exact (writeAll_puts (u8Write_measures h) _).mono fun n hn => by
        have := times_eq _ _ hn
        rw [List.length_map] at this
        rw [this, Nat.mul_comm]
    · exact .panic
  | .struct args magic fs, env, v, h => by
    simp only [Def.valid] at h
    simp only [Def.toTy, Ty.write, Def.bits, seekWrite, M.pure_bind]
    exact (magicWrite_puts _ _).append (DFields.puts m fs _ v v h) rfl
  | .enum args magic id vs, env, v, h => by
    simp only [Def.valid, Bool.and_eq_true] at h
    simp only [Def.toTy, Ty.write]
    split
    · simp only [Def.bits]
      exact (magicWrite_puts _ _).append (DVariants.puts m id h.1 vs _ _ _ h.2) rfl
    · exact .panic

theorem DFields.puts (m : Machine) : ∀ (fs : DFields) (env : Env) (all v : Val), fs.valid m.native = true →
    Puts (· = fs.bits m.native env all v) ((fs.toFields m).write m env all v)
  | .nil, env, all, v, h => by
    simp only [DFields.toFields, Fields.write, DFields.bits]
    split
    · exact .pure rfl
    · exact .panic
  | .cons a t tl, env, all, v, h => by
    simp only [DFields.valid, Bool.and_eq_true] at h
    simp only [DFields.toFields, Fields.write]
    split
    · simp only [DFields.bits]
      exact (DAttrs.write_puts (Def.puts m t _ _ h.1)).append (DFields.puts m tl _ _ _ h.2) rfl
    · exact .panic
  | .temp a t value tl, env, all, v, h => by
    simp only [DFields.valid, Bool.and_eq_true] at h
    simp only [DFields.toFields, Fields.write, DFields.bits]
    exact (DAttrs.write_puts (Def.puts m t _ _ h.1)).append (DFields.puts m tl _ _ _ h.2) rfl

theorem DFields.putsStored (m : Machine) (store : Env → Val → M Writer Unit) (k : Nat) (hk : ∀ env v, Puts (· = k) (store env v)) :
    ∀ (fs : DFields) (env : Env) (v : Val), fs.valid m.native = true → fs.stores = true →
    Puts (· = k + fs.bitsStored m.native env v) ((fs.toFields m).writeStored m store env v)
  | .nil, env, v, h, hs => by simp [DFields.stores] at hs
  | .cons a t tl, env, v, h, hs => by
    simp only [DFields.valid, Bool.and_eq_true] at h
    simp only [DFields.toFields, Fields.writeStored]
    split
    · simp only [DFields.bitsStored]
      exact (hk _ _).append (DFields.puts m tl _ _ _ h.2) rfl
    · exact .panic
  | .temp a t value tl, env, v, h, hs => by simp [DFields.stores] at hs

theorem DVariants.puts (m : Machine) (id : DId) (hid : id.valid m.native = true) :
    ∀ (vs : DVariants) (i : Nat) (env : Env) (v : Val), vs.valid m.native id = true →
    Puts (· = vs.bitsAt m.native id i env v) ((vs.toVariants m).writeAt m env (id.toSrc m) (id.store m) i v)
  | .nil, i, env, v, h => by
    simp only [DVariants.toVariants, Variants.writeAt]
    exact .panic
  | .cons a fs tl, 0, env, v, h => by
    simp only [DVariants.valid, Bool.and_eq_true] at h
    obtain ⟨⟨hk, hf⟩, ht⟩ := h
    simp only [DVariants.toVariants, Variants.writeAt, DVariants.bitsAt, DVAttrs.toVAttrs]
    cases id with
    | typed size W ctx store =>
      simp only [DId.valid, Bool.and_eq_true] at hid
      simp only [DId.toSrc]
      cases hkind : a.kind with
      | id n =>
        simp only [VKind.idVal, VKind.isPat, Bool.false_eq_true, if_false]
        exact ((uintValid.measures hid.1).2 _).append (DFields.puts m fs env v v hf) rfl
      | any =>
        rw [hkind] at hk
        simp only [VKind.idVal, VKind.isPat, if_true]
        exact DFields.putsStored m _ _ (fun _ x => (uintValid.measures hid.2).2 x) fs env v hf hk
      | range lo hi =>
        rw [hkind] at hk
        simp only [VKind.idVal, VKind.isPat, if_true]
        exact DFields.putsStored m _ _ (fun _ x => (uintValid.measures hid.2).2 x) fs env v hf hk
    | arg e =>
      simp only [DId.allows, Bool.not_eq_true'] at hk
      simp only [DId.toSrc, hk, Bool.false_eq_true, if_false]
      exact DFields.puts m fs env v v hf
  | .cons a fs tl, i + 1, env, v, h => by
    simp only [DVariants.valid, Bool.and_eq_true] at h
    simp only [DVariants.toVariants, Variants.writeAt, DVariants.bitsAt]
    exact DVariants.puts m id hid tl i env v h.2

end

end Deku
