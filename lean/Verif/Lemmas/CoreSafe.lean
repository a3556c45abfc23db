import Verif.Spec.CoreSafe
import Verif.Lemmas.CoreTyped
import Verif.Lemmas.Safe
import Verif.Lemmas.Sint
import Verif.Lemmas.Text

/-! # Definitions that read without panics -/

namespace Deku

open Reader Coll

variable {α : Type} {len : Nat} {s t u : Stage}

theorem Panicless.and {f : M Reader α} {R R' : α → Prop} (h : Panicless len s f t R) (h' : Yields R' f) :
    Panicless len s f t fun a => R a ∧ R' a := by
  intro r hr hl
  refine ⟨(h r hr hl).1, fun a r' e => ?_⟩
  obtain ⟨h1, h2, h3⟩ := (h r hr hl).2 a r' e
  exact ⟨h1, h2, h3, (h' r a r' trivial e).2⟩

/-! ### leaves -/

theorem uintValid.le {native : Endian} {W : Nat} {ctx : IntCtx} (h : uintValid native W ctx = true) :
    1 ≤ W ∧ 1 ≤ (ctx.shape native W).2.1 ∧ (ctx.shape native W).2.1 ≤ 8 * W := by
  simpa [uintValid] using h

theorem sintValid.le {native : Endian} {W : Nat} {ctx : IntCtx} (h : sintValid native W ctx = true) :
    1 ≤ W ∧ 1 ≤ (ctx.sshape native W).2.1 ∧ (ctx.sshape native W).2.1 ≤ 8 * W := by
  simpa [sintValid] using h

theorem uintValid.panicless {native : Endian} {W : Nat} {ctx : IntCtx} (h : uintValid native W ctx = true) :
    Panicless len s (uintCodec native W ctx).read .fresh fun v =>
      v.number ≤ (Leaf.uint W ctx).most native := by
  obtain ⟨h1, h2, h3⟩ := uintValid.le h
  refine ((uint_panicless h1 rfl h2 h3).and (uintCodec_yields native W ctx)).mono (Stage.le_refl _)
    (Stage.le_refl _) ?_
  rintro v ⟨⟨k, rfl, hk⟩, n, hn, hlt⟩
  cases hn
  simp only [Val.number, Leaf.most]
  split
  · have := pow_cast hlt
    omega
  · rename_i hd
    have hlt' := hk fun ho he => by
      by_cases h8 : (ctx.shape native W).2.1 ≤ 8
      · exact .inl h8
      · by_cases h0 : (ctx.shape native W).2.1 % 8 = 0
        · exact .inr h0
        · exact absurd ⟨ho, he, by omega, h0⟩ hd
    have hc : (k : Int) < 2 ^ (ctx.shape native W).2.1 := by exact_mod_cast hlt'
    omega

theorem uintValid.moves {native : Endian} {W : Nat} {ctx : IntCtx} (h : uintValid native W ctx = true) :
    Moves (uintCodec native W ctx).read := by
  obtain ⟨h1, h2, h3⟩ := uintValid.le h
  exact uint_moves h1 rfl h2 h3

theorem uintValid.eats {native : Endian} {W : Nat} {ctx : IntCtx} (h : uintValid native W ctx = true) :
    Eats (uintCodec native W ctx).read := by
  obtain ⟨h1, h2, h3⟩ := uintValid.le h
  exact uint_eats h1 rfl h2 h3

theorem byte_valid (native : Endian) : uintValid native 1 .unit = true := by
  cases native <;> simp [uintValid, IntCtx.shape]

theorem textTy_runs (native : Endian) : (textTy native).Runs := by
  simp only [textTy, byteTy, Ty.Runs]
  exact fun _ => uintValid.moves (byte_valid native)

theorem textTy_hungry (native : Endian) : (textTy native).Hungry := by
  simp only [textTy, byteTy, Ty.Hungry]
  exact ⟨by decide, ⟨_, rfl⟩, fun _ => uintValid.eats (byte_valid native)⟩

theorem sizedTextTy_runs (native : Endian) (n : Nat) : (sizedTextTy native n).Runs := by
  simp only [sizedTextTy, byteTy, Ty.Runs]
  exact fun _ => uintValid.moves (byte_valid native)

theorem textTy_safe (m : Machine) : (textTy m.native).Safe m len {} s .fresh fun _ => True := by
  simp only [textTy, byteTy, Ty.Safe]
  refine ⟨by simp, fun _ => ⟨s, .fresh, fun _ => True, ?_, ?_, fun _ _ => trivial⟩⟩
  · exact (uintValid.panicless (byte_valid m.native)).mono (Stage.le_refl _) (Stage.le_refl _) fun _ _ => trivial
  · exact ⟨uintValid.moves (byte_valid _), uintValid.eats (byte_valid _), Stage.le_refl _, Stage.fresh_le _,
      Stage.le_refl _⟩

theorem sizedTextTy_safe (m : Machine) {n : Nat} (h : n ≤ m.mem) :
    (sizedTextTy m.native n).Safe m len {} s (if n = 0 then s else .fresh) fun _ => True := by
  simp only [sizedTextTy, byteTy, Ty.Safe]
  refine ⟨by simp, fun _ => ⟨s, .fresh, fun _ => True, ?_, ?_, fun _ _ => trivial⟩⟩
  · exact (uintValid.panicless (byte_valid m.native)).mono (Stage.le_refl _) (Stage.le_refl _) fun _ _ => trivial
  · refine ⟨by show (n : Int) ≤ m.mem; exact_mod_cast h, uintValid.moves (byte_valid _), Stage.le_refl _,
      Stage.fresh_le _, Stage.fresh_le _, ?_⟩
    intro h0
    have h0' : (n : Int) = 0 := h0
    rw [if_pos (by omega)]
    exact Stage.le_refl _

theorem number_ofList (l : List Val) : (Val.ofList l).number = 0 := by
  cases l <;> rfl

theorem Leaf.panicless {m : Machine} (hmem : 8 * len + 1 ≤ m.mem) {l : Leaf} (hv : l.valid m.native = true)
    (hs : l.safe m.mem s = some t) : Panicless len s (l.codec m).read t fun v => v.number ≤ l.most m.native := by
  cases l with
  | uint W ctx =>
    simp only [Leaf.safe, Option.some.injEq] at hs
    subst hs
    exact uintValid.panicless hv
  | nonzero W ctx =>
    simp only [Leaf.safe, Option.some.injEq] at hs
    subst hs
    simp only [Leaf.codec, nonzeroCodec_eq]
    refine convCodec.panicless (uintValid.panicless hv) fun v x hx h => ?_
    have : x = v := by
      unfold nonzeroOf at hx
      split at hx <;> simp_all
    subst this
    exact h
  | sint W ctx =>
    simp only [Leaf.safe, Option.some.injEq] at hs
    subst hs
    obtain ⟨h1, h2, h3⟩ := sintValid.le hv
    refine (((sint_delivers h1 rfl h2 h3).panicless h2 (R := fun _ => True) fun _ _ => trivial).and
      ((Leaf.sint W ctx).read_has m)).mono (Stage.le_refl _) (Stage.le_refl _) ?_
    rintro v ⟨_, h⟩
    simp only [Leaf.has] at h
    cases v with
    | num n =>
      simp only [decide_eq_true_iff] at h
      simp only [Val.number, Leaf.most]
      omega
    | _ => simp at h
  | nonzeroSigned W ctx =>
    simp only [Leaf.safe, Option.some.injEq] at hs
    subst hs
    obtain ⟨h1, h2, h3⟩ := sintValid.le hv
    simp only [Leaf.codec, nonzeroSignedCodec_eq]
    refine convCodec.panicless (((sint_delivers h1 rfl h2 h3).panicless h2 (R := fun _ => True) fun _ _ => trivial).and
      ((Leaf.sint W ctx).read_has m)) ?_
    rintro v x hx ⟨_, h⟩
    have : x = v := by
      unfold nonzeroOf at hx
      split at hx <;> simp_all
    subst this
    simp only [Leaf.has] at h
    cases x with
    | num n =>
      simp only [decide_eq_true_iff] at h
      simp only [Val.number, Leaf.most]
      omega
    | _ => simp at h
  | bool ctx =>
    simp only [Leaf.safe, Option.some.injEq] at hs
    subst hs
    have hp : Panicless len s (boolCodec m.native ctx).read .fresh fun _ => True := by
      rw [boolCodec_eq]
      exact convCodec.panicless (uintValid.panicless hv) fun _ _ _ _ => trivial
    refine (hp.and ((Leaf.bool ctx).read_has m)).mono (Stage.le_refl _) (Stage.le_refl _) ?_
    rintro v ⟨_, h⟩
    simp only [Leaf.has, decide_eq_true_iff] at h
    rcases h with rfl | rfl <;> simp [Val.number, Leaf.most]
  | cstring =>
    simp only [Leaf.safe, Option.some.injEq] at hs
    subst hs
    simp only [Leaf.codec, cstringCodec_eq]
    refine convCodec.panicless (Ty.panicless hmem _ _ _ _ _ (textTy_safe m)) fun v x hx _ => ?_
    unfold textOf at hx
    simp only [Option.map_eq_some_iff] at hx
    obtain ⟨l, _, rfl⟩ := hx
    rw [number_ofList]
    exact Int.le_refl _
  | cstringSized n =>
    simp only [Leaf.safe] at hs
    split at hs
    · rename_i hn
      simp only [Option.some.injEq] at hs
      subst hs
      simp only [Leaf.valid, decide_eq_true_iff] at hv
      simp only [Leaf.codec, cstringSizedCodec_eq _ _ hv]
      refine convCodec.panicless (Ty.panicless hmem _ _ _ _ _ (sizedTextTy_safe m hn)) fun v x hx _ => ?_
      unfold textOf at hx
      simp only [Option.map_eq_some_iff] at hx
      obtain ⟨l, _, rfl⟩ := hx
      rw [number_ofList]
      exact Int.le_refl _
    · cases hs
  | unit =>
    simp only [Leaf.safe, Option.some.injEq] at hs
    subst hs
    exact Panicless.pure (by simp [Val.number, Leaf.most])

theorem Leaf.moves (m : Machine) {l : Leaf} (hv : l.valid m.native = true) : Moves (l.codec m).read := by
  cases l with
  | uint W ctx => exact uintValid.moves hv
  | nonzero W ctx =>
    simp only [Leaf.codec, nonzeroCodec_eq]
    exact convCodec.moves (uintValid.moves hv)
  | sint W ctx =>
    obtain ⟨h1, h2, h3⟩ := sintValid.le hv
    exact (sint_delivers h1 rfl h2 h3).moves h2
  | nonzeroSigned W ctx =>
    obtain ⟨h1, h2, h3⟩ := sintValid.le hv
    simp only [Leaf.codec, nonzeroSignedCodec_eq]
    exact convCodec.moves ((sint_delivers h1 rfl h2 h3).moves h2)
  | bool ctx =>
    simp only [Leaf.codec, boolCodec_eq]
    exact convCodec.moves (uintValid.moves hv)
  | cstring =>
    simp only [Leaf.codec, cstringCodec_eq]
    exact convCodec.moves (Ty.moves m _ _ (textTy_runs _))
  | cstringSized n =>
    simp only [Leaf.valid, decide_eq_true_iff] at hv
    simp only [Leaf.codec, cstringSizedCodec_eq _ _ hv]
    exact convCodec.moves (Ty.moves m _ _ (sizedTextTy_runs _ n))
  | unit => exact Moves.pure _

theorem Leaf.eats (m : Machine) {l : Leaf} (hv : l.valid m.native = true) (hh : l.hungry = true) :
    Eats (l.codec m).read := by
  cases l with
  | uint W ctx => exact uintValid.eats hv
  | nonzero W ctx =>
    simp only [Leaf.codec, nonzeroCodec_eq]
    exact convCodec.eats (uintValid.eats hv) (uintValid.moves hv)
  | sint W ctx =>
    obtain ⟨h1, h2, h3⟩ := sintValid.le hv
    exact (sint_delivers h1 rfl h2 h3).eats h2
  | nonzeroSigned W ctx =>
    obtain ⟨h1, h2, h3⟩ := sintValid.le hv
    simp only [Leaf.codec, nonzeroSignedCodec_eq]
    exact convCodec.eats ((sint_delivers h1 rfl h2 h3).eats h2) ((sint_delivers h1 rfl h2 h3).moves h2)
  | bool ctx =>
    simp only [Leaf.codec, boolCodec_eq]
    exact convCodec.eats (uintValid.eats hv) (uintValid.moves hv)
  | cstring =>
    simp only [Leaf.codec, cstringCodec_eq]
    exact convCodec.eats (Ty.eats m _ _ (textTy_runs _) (textTy_hungry _)) (Ty.moves m _ _ (textTy_runs _))
  | cstringSized n => simp [Leaf.hungry] at hh
  | unit => simp [Leaf.hungry] at hh

/-! ### movement -/

mutual

theorem Def.runs (m : Machine) : ∀ d : Def, d.valid m.native = true → (d.toTy m).Runs
  | .leaf _ l, h => fun _ => Leaf.moves m h
  | .option t, h => by simp only [Def.valid] at h; simp only [Def.toTy, Ty.Runs]; exact t.runs m h
  | .array _ t, h => by simp only [Def.valid] at h; simp only [Def.toTy, Ty.Runs]; exact t.runs m h
  | .pair a b, h => by
    simp only [Def.valid, Bool.and_eq_true] at h
    simp only [Def.toTy, Ty.Runs]
    exact ⟨a.runs m h.1, b.runs m h.2⟩
  | .vec _ _ t, h => by simp only [Def.valid] at h; simp only [Def.toTy, Ty.Runs]; exact t.runs m h
  | .bytes _ _, _ => trivial
  | .struct _ _ fs, h => by
    simp only [Def.valid] at h
    simp only [Def.toTy, Ty.Runs]
    exact ⟨trivial, fs.runs m h⟩
  | .enum _ _ id vs, h => by
    simp only [Def.valid, Bool.and_eq_true] at h
    simp only [Def.toTy, Ty.Runs]
    refine ⟨?_, vs.runs m id h.2⟩
    cases id with
    | arg e => trivial
    | typed s W c st =>
      simp only [DId.valid, Bool.and_eq_true] at h
      exact fun _ => uintValid.moves h.1.1

theorem DFields.runs (m : Machine) : ∀ fs : DFields, fs.valid m.native = true → (fs.toFields m).Runs
  | .nil, _ => trivial
  | .cons a t rest, h => by
    simp only [DFields.valid, Bool.and_eq_true] at h
    simp only [DFields.toFields, Fields.Runs]
    exact ⟨rfl, t.runs m h.1, rest.runs m h.2⟩
  | .temp a t _ rest, h => by
    simp only [DFields.valid, Bool.and_eq_true] at h
    simp only [DFields.toFields, Fields.Runs]
    exact ⟨rfl, t.runs m h.1, rest.runs m h.2⟩

theorem DVariants.runs (m : Machine) (id : DId) : ∀ vs : DVariants, vs.valid m.native id = true →
    (vs.toVariants m).Runs
  | .nil, _ => trivial
  | .cons a fs rest, h => by
    simp only [DVariants.valid, Bool.and_eq_true] at h
    simp only [DVariants.toVariants, Variants.Runs]
    exact ⟨fs.runs m h.1.2, rest.runs m id h.2⟩

end

mutual

theorem Def.eats (m : Machine) : ∀ d : Def, d.valid m.native = true → d.hungry = true → (d.toTy m).Hungry
  | .leaf _ l, h, hh => fun _ => Leaf.eats m h hh
  | .option t, h, hh => by
    simp only [Def.valid, Def.hungry] at h hh; simp only [Def.toTy, Ty.Hungry]; exact t.eats m h hh
  | .array _ t, h, hh => by
    simp only [Def.valid, Def.hungry, Bool.and_eq_true, decide_eq_true_iff] at h hh
    simp only [Def.toTy, Ty.Hungry]
    exact ⟨hh.1, t.eats m h hh.2⟩
  | .pair a b, h, hh => by
    simp only [Def.valid, Def.hungry, Bool.and_eq_true, Bool.or_eq_true] at h hh
    simp only [Def.toTy, Ty.Hungry]
    exact hh.imp (a.eats m h.1) (b.eats m h.2)
  | .vec z l t, h, hh => by
    simp only [Def.valid, Def.hungry, Bool.and_eq_true, Bool.not_eq_true'] at h hh
    simp only [Def.toTy, Ty.Hungry]
    refine ⟨by rw [hh.1.1]; simp, ?_, t.eats m h hh.2⟩
    cases l with
    | «until» n => exact ⟨_, rfl⟩
    | _ => simp at hh
  | .bytes _ _, _, hh => by simp [Def.hungry] at hh
  | .struct _ _ fs, h, hh => by
    simp only [Def.valid, Def.hungry, Bool.or_eq_true, decide_eq_true_iff] at h hh
    simp only [Def.toTy, Ty.Hungry]
    exact hh.imp id (fs.eats m h)
  | .enum _ _ id vs, h, hh => by
    simp only [Def.valid, Def.hungry, Bool.and_eq_true, Bool.or_eq_true, decide_eq_true_iff] at h hh
    simp only [Def.toTy, Ty.Hungry]
    rcases hh with (hh | hh) | hh
    · exact .inl hh
    · refine .inr (.inl ?_)
      cases id with
      | arg e => simp at hh
      | typed s W c st =>
        simp only [DId.valid, Bool.and_eq_true] at h
        exact fun _ => uintValid.eats h.1.1
    · exact .inr (.inr (vs.eats m id h.2 hh))

theorem DFields.eats (m : Machine) : ∀ fs : DFields, fs.valid m.native = true → fs.hungry = true →
    (fs.toFields m).Hungry
  | .nil, _, hh => by simp [DFields.hungry] at hh
  | .cons a t rest, h, hh => by
    simp only [DFields.valid, DFields.hungry, Bool.and_eq_true, Bool.or_eq_true, decide_eq_true_iff,
      Bool.not_eq_true'] at h hh
    simp only [DFields.toFields, Fields.Hungry]
    rcases hh with (hh | hh) | hh
    · exact .inl hh
    · exact .inr (.inl ⟨fun env => DAttrs.isRead_of hh.1 env, t.eats m h.1 hh.2⟩)
    · exact .inr (.inr (rest.eats m h.2 hh))
  | .temp a t _ rest, h, hh => by
    simp only [DFields.valid, DFields.hungry, Bool.and_eq_true, Bool.or_eq_true, decide_eq_true_iff,
      Bool.not_eq_true'] at h hh
    simp only [DFields.toFields, Fields.Hungry]
    rcases hh with (hh | hh) | hh
    · exact .inl hh
    · exact .inr (.inl ⟨fun env => DAttrs.isRead_of hh.1 env, t.eats m h.1 hh.2⟩)
    · exact .inr (.inr (rest.eats m h.2 hh))

theorem DVariants.eats (m : Machine) (id : DId) : ∀ vs : DVariants, vs.valid m.native id = true →
    vs.hungry = true → (vs.toVariants m).Hungry
  | .nil, _, _ => trivial
  | .cons a fs rest, h, hh => by
    simp only [DVariants.valid, DVariants.hungry, Bool.and_eq_true, Bool.not_eq_true'] at h hh
    simp only [DVariants.toVariants, Variants.Hungry]
    exact ⟨hh.1.1, fs.eats m h.1.2 hh.1.2, rest.eats m id h.2 hh.2⟩

end

/-! ### scopes and stages -/

theorem Op.eval_le (o : Op) {a b x y : Int} (ha : a ≤ x) (hb : b ≤ y) : o.eval a b ≤ o.most x y := by
  cases o with
  | add => simp only [Op.eval, Op.most]; omega
  | mul =>
    simp only [Op.eval, Op.most, Int.ofNat_le]
    exact Nat.mul_le_mul (Int.toNat_le_toNat ha) (Int.toNat_le_toNat hb)
  | sub => simp only [Op.eval, Op.most]; omega
  | min => simp only [Op.eval, Op.most]; split <;> split <;> omega
  | max => simp only [Op.eval, Op.most]; split <;> split <;> omega

theorem LitOp.eval_le (o : LitOp) {a x : Int} (ha : a ≤ x) : o.eval a ≤ o.most x := by
  have h : a.toNat ≤ x.toNat := Int.toNat_le_toNat ha
  cases o with
  | div n =>
    simp only [LitOp.eval, LitOp.most, Int.ofNat_le]
    exact Nat.div_le_div_right h
  | mod n =>
    simp only [LitOp.eval, LitOp.most]
    have h1 := Nat.mod_le a.toNat n
    split
    · omega
    · have h2 := Nat.mod_lt a.toNat (y := n) (by omega)
      split <;> omega
  | and n =>
    simp only [LitOp.eval, LitOp.most]
    have h1 : a.toNat &&& n ≤ a.toNat := Nat.and_le_left
    have h2 : a.toNat &&& n ≤ n := Nat.and_le_right
    split <;> omega
  | shr n =>
    simp only [LitOp.eval, LitOp.most, Int.ofNat_le, Nat.shiftRight_eq_div_pow]
    exact Nat.div_le_div_right h

theorem Scope.holds.at {sc : Scope} {env : Env} (h : sc.holds env) (off : Nat) : sc.holds (env.at off) := by
  intro e
  induction e with
  | op o a b ha hb => exact o.eval_le ha hb
  | lop o a ha => exact o.eval_le ha
  | lit n => exact h (.lit n)
  | field i => exact h (.field i)
  | arg i => exact h (.arg i)

theorem Scope.holds.push {sc : Scope} {env : Env} (h : sc.holds env) {v : Val} {n : Int} (hv : v.number ≤ n) :
    (sc.push n).holds (env.push v) := by
  intro e
  induction e with
  | lit k => exact Int.le_refl _
  | arg i => exact h (.arg i)
  | op o a b ha hb => exact o.eval_le ha hb
  | lop o a ha => exact o.eval_le ha
  | field i =>
    cases i with
    | zero =>
      cases v <;> exact hv
    | succ i => exact h (.field i)

theorem Scope.holds.inside {sc : Scope} {env : Env} (h : sc.holds env) (args : List Expr) :
    (sc.inside args).holds { ctx := args.map fun e => e.val env } := by
  intro e
  induction e with
  | lit k => exact Int.le_refl _
  | op o a b ha hb => exact o.eval_le ha hb
  | lop o a ha => exact o.eval_le ha
  | field i => simp [Expr.eval, Expr.most, Scope.inside]
  | arg i =>
    simp only [Expr.eval, Expr.most, Scope.inside, List.getElem?_map]
    cases he : args[i]? with
    | none => simp
    | some e' => exact h e'

theorem Scope.holds_nil : ({} : Scope).holds {} := by
  intro e
  induction e with
  | op o a b ha hb => exact o.eval_le ha hb
  | lop o a ha => exact o.eval_le ha
  | _ => simp [Expr.eval, Expr.most]

namespace Stage

theorem le_join_left (s t : Stage) : s.le (s.join t) := by
  constructor <;> intro h <;> simp [join, h]

theorem le_join_right (s t : Stage) : t.le (s.join t) := by
  constructor <;> intro h <;> simp [join, h]

theorem loop_eq_some {f : Stage → Option Stage} (h : s.loop f = some t) :
    ∃ s', s.le s' ∧ f s' = some t ∧ t.le s' := by
  unfold loop at h
  split at h
  · cases h
  · rename_i t' _
    split at h
    · cases h
    · rename_i u hu
      split at h
      · rename_i hle
        cases h
        exact ⟨_, le_join_left _ _, hu, hle⟩
      · cases h

end Stage

theorem Expr.nonzero_ne {e : Expr} (h : e.nonzero = true) (env : Env) : e.eval env ≠ 0 := by
  cases e <;> simp_all [Expr.nonzero, Expr.eval]

theorem Lim.safe_sound {m : Machine} {l : Lim} {sc : Scope} {env : Env} {hungry : Bool} {f : Stage → Option Stage}
    {el : M Reader Val} {t' : Stage} (hsc : sc.holds env) (hm : Moves el) (he : hungry = true → Eats el)
    (h : l.safe m.mem sc hungry f s = some t) (ht : t.le t') :
    ∃ s' u, f s' = some u ∧ l.toLimit.Safe m env el s s' u t' := by
  have fin : ∀ {e : Expr} {u : Stage}, (if e.nonzero then u else s.join u).le t' →
      u.le t' ∧ (e.eval env = 0 → s.le t') := by
    intro e u hu
    split at hu
    · rename_i hz
      exact ⟨hu, fun h0 => absurd h0 (Expr.nonzero_ne hz env)⟩
    · exact ⟨(Stage.le_join_right _ _).trans hu, fun _ => (Stage.le_join_left _ _).trans hu⟩
  cases l with
  | count e =>
    simp only [Lim.safe] at h
    split at h
    · rename_i hle
      simp only [Option.map_eq_some_iff] at h
      obtain ⟨u, hu, rfl⟩ := h
      obtain ⟨s', h1, h2, h3⟩ := Stage.loop_eq_some hu
      have := hsc e
      exact ⟨s', u, h2, by show e.eval env ≤ m.mem; omega, hm, h1, h3, (fin ht).1, (fin ht).2⟩
    · cases h
  | «until» n =>
    simp only [Lim.safe] at h
    split at h
    · rename_i hh
      obtain ⟨s', h1, h2, h3⟩ := Stage.loop_eq_some h
      exact ⟨s', t, h2, hm, he hh, h1, h3, ht⟩
    · cases h
  | bytes e =>
    simp only [Lim.safe] at h
    split at h
    · rename_i hle
      simp only [Option.map_eq_some_iff] at h
      obtain ⟨u, hu, rfl⟩ := h
      obtain ⟨s', h1, h2, h3⟩ := Stage.loop_eq_some hu
      have := hsc e
      exact ⟨s', u, h2, by show e.eval env < 2 ^ 61; omega, hm, he hle.1, h1, h3, (fin ht).1, (fin ht).2⟩
    · cases h
  | bits e =>
    simp only [Lim.safe] at h
    split at h
    · rename_i hh
      simp only [Option.map_eq_some_iff] at h
      obtain ⟨u, hu, rfl⟩ := h
      obtain ⟨s', h1, h2, h3⟩ := Stage.loop_eq_some hu
      exact ⟨s', u, h2, hm, he hh, h1, h3, (fin ht).1, (fin ht).2⟩
    · cases h
  | all =>
    simp only [Lim.safe] at h
    split at h
    · rename_i hh
      simp only [Option.map_eq_some_iff] at h
      obtain ⟨u, hu, rfl⟩ := h
      refine ⟨_, u, hu, he hh, Stage.le_refl _, fun hs => ht.1 (by simp [hs]), fun hs => ht.1 (by simp [hs])⟩
    · cases h

theorem DAttrs.before_eq (a : DAttrs) (s : Stage) :
    Stage.afterPad a.toAttrs.padBefore (.afterMagic a.toAttrs.magic (.afterSeek a.toAttrs.seek s)) = a.before s := by
  obtain ⟨magic, pb, pa, po, skip, cond, dflt, ae, sz⟩ := a
  cases pb <;> simp [Stage.afterPad, Stage.afterSeek, DAttrs.toAttrs, DAttrs.before]

theorem DAttrs.safe_sound {a : DAttrs} {sc : Scope} {env : Env} {f : Stage → Option Stage} {n : Int}
    {ty : Env → Stage → Stage → (Val → Prop) → Prop} (hsc : sc.holds env)
    (hty : ∀ env s t t', sc.holds env → f s = some t → t.le t' → ty env s t' fun v => v.number ≤ n)
    (h : a.safe f s = some t) :
    a.toAttrs.Safe ty env s t fun v => v.number ≤ a.most sc n := by
  simp only [DAttrs.safe, Option.map_eq_some_iff] at h
  obtain ⟨u, hu, rfl⟩ := h
  have hpass : ∀ {env' : Env} {v : Val} {e : Expr}, a.assertEq = some e → sc.holds env' →
      a.toAttrs.Passes env' v → v.number ≤ e.most sc := by
    intro env' v e he henv hp
    have := hp.2 (e.val env') (by simp [DAttrs.toAttrs, he])
    subst this
    exact henv e
  refine ⟨by simp [DAttrs.toAttrs], fun off _ => ⟨if a.mayDefault then (a.before s).join u else u, ?_, ?_, ?_⟩⟩
  · intro _
    refine ⟨fun v => v.number ≤ n, ?_, ?_⟩
    · rw [DAttrs.before_eq]
      refine hty _ _ _ _ (hsc.at off) hu ?_
      split
      · exact Stage.le_join_right _ _
      · exact Stage.le_refl _
    · intro raw v hraw hmap hp
      have : raw = v := by
        simpa [DAttrs.toAttrs] using hmap
      subst this
      unfold DAttrs.most
      split
      · rename_i e he
        exact hpass he (hsc.at off) hp
      · split
        · exact Int.le_trans hraw (Int.le_max_right _ _)
        · exact hraw
  · intro hr
    have hd : a.mayDefault = true := by
      cases hm : a.mayDefault with
      | true => rfl
      | false => rw [DAttrs.isRead_of hm] at hr; cases hr
    rw [DAttrs.before_eq, if_pos hd]
    refine ⟨Stage.le_join_left _ _, fun hp => ?_⟩
    unfold DAttrs.most
    split
    · rename_i e he
      exact hpass he (hsc.at off) hp
    · rw [if_pos hd]
      exact Int.le_max_left _ _
  · have : (a.toAttrs.padAfter).isSome = a.padAfter.isSome := by
      obtain ⟨magic, pb, pa, po, skip, cond, dflt, ae, sz⟩ := a
      cases pa <;> rfl
    unfold Stage.afterPad
    rw [this]
    exact Stage.le_refl _

/-! ### definitions -/

mutual

theorem Def.safe_sound (m : Machine) (hmem : 8 * len + 1 ≤ m.mem) : ∀ (d : Def) (sc : Scope) (s t t' : Stage)
    (env : Env) (R : Val → Prop), d.valid m.native = true → d.safe m sc s = some t → t.le t' → sc.holds env →
    (∀ v, v.number ≤ d.most m.native → R v) → (d.toTy m).Safe m len env s t' R
  | .leaf _ l, sc, s, t, t', env, R, hv, hs, ht, _, hR => by
    simp only [Def.valid, Def.safe] at hv hs
    simp only [Def.toTy, Ty.Safe]
    exact (Leaf.panicless hmem hv hs).mono (Stage.le_refl _) ht hR
  | .option d, sc, s, t, t', env, R, hv, hs, ht, hsc, hR => by
    simp only [Def.valid, Def.safe] at hv hs
    simp only [Def.toTy, Ty.Safe]
    exact d.safe_sound m hmem sc s t t' env _ hv hs ht hsc fun v _ => hR _ (Int.le_refl _)
  | .array n d, sc, s, t, t', env, R, hv, hs, ht, hsc, hR => by
    simp only [Def.valid, Def.safe, Option.map_eq_some_iff] at hv hs
    simp only [Def.toTy, Ty.Safe]
    obtain ⟨u, hu, rfl⟩ := hs
    obtain ⟨s', h1, h2, h3⟩ := Stage.loop_eq_some hu
    refine ⟨s', u, fun _ => True, d.safe_sound m hmem sc s' u u env _ hv h2 (Stage.le_refl _) hsc
      fun _ _ => trivial, h1, h3, ?_, ?_, fun vs _ _ => hR _ (by rw [number_ofList]; exact Int.le_refl _)⟩
    · refine Stage.le.trans ?_ ht
      split
      · exact Stage.le_join_right _ _
      · exact Stage.le_refl _
    · intro h0
      rw [if_pos h0] at ht
      exact (Stage.le_join_left _ _).trans ht
  | .pair a b, sc, s, t, t', env, R, hv, hs, ht, hsc, hR => by
    simp only [Def.valid, Def.safe, Bool.and_eq_true] at hv hs
    simp only [Def.toTy, Ty.Safe]
    split at hs
    · cases hs
    · rename_i u hu
      exact ⟨u, fun _ => True, a.safe_sound m hmem sc s u u env _ hv.1 hu (Stage.le_refl _) hsc fun _ _ => trivial,
        fun v _ => b.safe_sound m hmem sc u t t' env _ hv.2 hs ht hsc fun w _ => hR _ (Int.le_refl _)⟩
  | .vec zst l d, sc, s, t, t', env, R, hv, hs, ht, hsc, hR => by
    simp only [Def.valid, Def.safe] at hv hs
    simp only [Def.toTy, Ty.Safe]
    cases zst with
    | true =>
      simp only [↓reduceIte] at hs ⊢
      refine ⟨fun _ => ?_, fun h => absurd rfl h⟩
      cases l with
      | bytes e =>
        simp only at hs
        split at hs
        · rename_i hle
          cases hs
          refine ⟨fun n hn => ?_, ht, hR _ (Int.le_refl _)⟩
          simp only [Lim.toLimit, LimitE.bytes.injEq] at hn
          subst hn
          have := hsc e
          omega
        · cases hs
      | _ => cases hs; exact ⟨fun n hn => by simp [Lim.toLimit] at hn, ht, hR _ (Int.le_refl _)⟩
    | false =>
      simp only [Bool.false_eq_true, ↓reduceIte] at hs ⊢
      refine ⟨fun h => by simp at h, fun _ => ?_⟩
      obtain ⟨s', u, h1, h2⟩ := Lim.safe_sound hsc (Ty.moves m (d.toTy m) env (d.runs m hv))
        (fun hh => Ty.eats m (d.toTy m) env (d.runs m hv) (d.eats m hv hh)) hs ht
      exact ⟨s', u, fun _ => True, d.safe_sound m hmem sc s' u u env _ hv h1 (Stage.le_refl _) hsc fun _ _ => trivial,
        h2, fun vs _ => hR _ (by rw [number_ofList]; exact Int.le_refl _)⟩
  | .bytes e ctx, sc, s, t, t', env, R, _, hs, _, hsc, hR => by
    simp only [Def.safe] at hs
    simp only [Def.toTy, Ty.Safe]
    split at hs
    · rename_i h
      have := hsc e
      exact ⟨h.1, by omega, fun hp => Expr.nonzero_ne (h.2.2 hp) env,
        fun bs _ => hR _ (by rw [number_ofList]; exact Int.le_refl _)⟩
    · cases hs
  | .struct args magic fs, sc, s, t, t', env, R, hv, hs, ht, hsc, hR => by
    simp only [Def.valid, Def.safe] at hv hs
    simp only [Def.toTy, Ty.Safe]
    refine ⟨by simp, ?_⟩
    exact fs.safe_sound m hmem _ _ t t' _ R hv hs ht (hsc.inside args) fun v hv' => hR v (by simp [Def.most, hv'])
  | .enum args magic id vs, sc, s, t, t', env, R, hv, hs, ht, hsc, hR => by
    simp only [Def.valid, Bool.and_eq_true] at hv
    simp only [Def.toTy, Ty.Safe]
    cases id with
    | arg e =>
      simp only [Def.safe] at hs
      simp only [DId.toSrc]
      intro i hi
      exact vs.safe_sound m hmem _ none _ _ t t' _ _ _ i _ hv.2 hs ht (hsc.inside args)
        (select_lt hi) rfl (fun n hn => by cases hn)
        fun v => hR _ (Int.le_refl _)
    | typed sz W c st =>
      simp only [Def.safe] at hs
      simp only [DId.toSrc]
      simp only [DId.valid, Bool.and_eq_true] at hv
      refine ⟨.fresh, _, uintValid.panicless hv.1.1, fun x hx i hi => ?_⟩
      exact vs.safe_sound m hmem _ (some _) _ _ t t' _ _ _ i _ hv.2 hs ht (hsc.inside args)
        (select_lt hi) rfl (fun n hn => by cases hn; exact hx)
        fun v => hR _ (Int.le_refl _)

theorem DFields.safe_sound (m : Machine) (hmem : 8 * len + 1 ≤ m.mem) : ∀ (fs : DFields) (sc : Scope)
    (s t t' : Stage) (env : Env) (R : Val → Prop), fs.valid m.native = true → fs.safe m sc s = some t → t.le t' →
    sc.holds env → (∀ v, v.number = 0 → R v) → (fs.toFields m).Safe m len env s t' R
  | .nil, sc, s, t, t', env, R, _, hs, ht, _, hR => by
    simp only [DFields.safe] at hs
    cases hs
    exact ⟨ht, hR _ rfl⟩
  | .cons a d rest, sc, s, t, t', env, R, hv, hs, ht, hsc, hR => by
    simp only [DFields.valid, DFields.safe, Bool.and_eq_true] at hv hs
    simp only [DFields.toFields, Fields.Safe]
    split at hs
    · cases hs
    · rename_i u hu
      refine ⟨u, _, DAttrs.safe_sound hsc (fun env s t t' he h ht => d.safe_sound m hmem sc s t t' env _ hv.1 h ht he
        fun _ h => h) hu, fun v hv' => ?_⟩
      exact rest.safe_sound m hmem _ u t t' _ _ hv.2 hs ht (hsc.push hv') fun vs _ => hR _ rfl
  | .temp a d _ rest, sc, s, t, t', env, R, hv, hs, ht, hsc, hR => by
    simp only [DFields.valid, DFields.safe, Bool.and_eq_true] at hv hs
    simp only [DFields.toFields, Fields.Safe]
    split at hs
    · cases hs
    · rename_i u hu
      refine ⟨u, _, DAttrs.safe_sound hsc (fun env s t t' he h ht => d.safe_sound m hmem sc s t t' env _ hv.1 h ht he
        fun _ h => h) hu, fun v hv' => ?_⟩
      exact rest.safe_sound m hmem _ u t t' _ _ hv.2 hs ht (hsc.push hv') hR

theorem DFields.safeStored_sound (m : Machine) (hmem : 8 * len + 1 ≤ m.mem) : ∀ (fs : DFields) (sc : Scope)
    (n : Int) (x : Val) (s t t' : Stage) (env : Env) (R : Val → Prop), fs.valid m.native = true →
    fs.safeStored m n sc s = some t → t.le t' → sc.holds env → x.number ≤ n → (∀ v, v.number = 0 → R v) →
    (fs.toFields m).SafeStored m len env x s t' R
  | .nil, sc, n, x, s, t, t', env, R, _, hs, ht, _, _, hR => by
    simp only [DFields.safeStored] at hs
    cases hs
    exact ⟨ht, hR _ rfl⟩
  | .cons a d rest, sc, n, x, s, t, t', env, R, hv, hs, ht, hsc, hx, hR => by
    simp only [DFields.valid, DFields.safeStored, Bool.and_eq_true] at hv hs
    simp only [DFields.toFields, Fields.SafeStored]
    exact rest.safe_sound m hmem _ s t t' _ _ hv.2 hs ht (hsc.push hx) fun vs _ => hR _ rfl
  | .temp a d _ rest, sc, n, x, s, t, t', env, R, hv, hs, ht, hsc, hx, hR => by
    simp only [DFields.valid, DFields.safeStored, Bool.and_eq_true] at hv hs
    simp only [DFields.toFields, Fields.SafeStored]
    exact rest.safe_sound m hmem _ s t t' _ _ hv.2 hs ht (hsc.push hx) hR

theorem DVariants.safe_sound (m : Machine) (hmem : 8 * len + 1 ≤ m.mem) : ∀ (vs : DVariants) (id : DId)
    (b : Option Int) (sc : Scope) (s t t' : Stage) (env : Env) (x : Val) (typed : Bool) (i : Nat) (R : Val → Prop),
    vs.valid m.native id = true → vs.safe m b sc s = some t → t.le t' → sc.holds env →
    i < (vs.toVariants m).toList.length → typed = b.isSome → (∀ n, b = some n → x.number ≤ n) →
    (∀ v, R v) → (vs.toVariants m).SafeAt m len env x typed i s t' R
  | .nil, _, _, _, _, _, _, _, _, _, _, _, _, _, _, _, hi, _, _, _ => by simp [DVariants.toVariants, Variants.toList] at hi
  | .cons a fs rest, id, b, sc, s, t, t', env, x, typed, i, R, hv, hs, ht, hsc, hi, hty, hx, hR => by
    simp only [DVariants.valid, DVariants.safe, Bool.and_eq_true] at hv hs
    split at hs
    · rename_i u w hu hw
      cases hs
      have hu' := (Stage.le_join_left u w).trans ht
      have hw' := (Stage.le_join_right u w).trans ht
      cases i with
      | succ i =>
        simp only [DVariants.toVariants, Variants.SafeAt]
        exact rest.safe_sound m hmem id b sc s w t' env x typed i R hv.2 hw hw' hsc
          (by simpa [DVariants.toVariants, Variants.toList] using hi) hty hx hR
      | zero =>
        simp only [DVariants.toVariants, Variants.SafeAt, DVAttrs.toVAttrs]
        cases b with
        | none =>
          subst hty
          simp only [Option.isSome_none, Bool.and_false, Bool.false_eq_true, ↓reduceIte]
          exact fs.safe_sound m hmem sc s u t' env R hv.1.2 hu hu' hsc fun v _ => hR v
        | some n =>
          subst hty
          simp only [Option.isSome_some, Bool.and_true]
          simp only at hu
          split at hu
          · rename_i hp
            rw [if_pos hp]
            exact fs.safeStored_sound m hmem sc n x s u t' env R hv.1.2 hu hu' hsc (hx n rfl) fun v _ => hR v
          · rename_i hp
            rw [if_neg hp]
            exact fs.safe_sound m hmem sc s u t' env R hv.1.2 hu hu' hsc fun v _ => hR v
    · cases hs

end

end Deku
