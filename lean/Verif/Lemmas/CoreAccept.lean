import Verif.Lemmas.CoreQuiet

/-!
# Which values are refused, and with which error
-/

namespace Deku

open Reader Coll

/-- The outcome of writing at the end of a sink that never fails: the error, or success. -/
def Decides (r : Option DekuError) (g : M Writer Unit) : Prop :=
  ∀ w : Writer, w.Appending →
    match r with
    | none => ∃ w', g w = (.ok (), w') ∧ w'.Appending
    | some e => ∃ w', g w = (.err e, w')

namespace Decides

theorem pure : Decides none (Pure.pure () : M Writer Unit) := fun w h => ⟨w, rfl, h⟩

theorem throw (e : DekuError) : Decides (some e) (M.throw e) := fun w _ => ⟨w, rfl⟩

theorem bind {r r' : Option DekuError} {g g' : M Writer Unit} (h : Decides r g) (h' : Decides r' g') :
    Decides (r.or r') (g >>= fun _ => g') := by
  intro w hw
  cases r with
  | some e =>
    obtain ⟨w', e'⟩ := h w hw
    exact ⟨w', by rw [M.bind_err e']⟩
  | none =>
    obtain ⟨w', e', hw'⟩ := h w hw
    rw [M.bind_ok e']
    exact h' w' hw'

theorem congr {r r' : Option DekuError} {g : M Writer Unit} (h : Decides r g) (e : r' = r) : Decides r' g := e ▸ h

theorem of_took {n : Nat} {g : M Writer Unit} (h : ∀ w : Writer, w.WF → w.Healthy → Writer.Took n w (g w)) :
    Decides none g := by
  intro w hw
  obtain ⟨w', e, hg⟩ := (h w hw.wf hw.healthy).ok hw.healthy
  exact ⟨w', e, hg.appending hw⟩

theorem of_refuses {g : M Writer Unit} {e : DekuError} (h : Refuses g e) : Decides (some e) g :=
  fun w _ => ⟨w, h w⟩

theorem of_run {r : Option DekuError} {g : M Writer Unit} (h : ∀ w : Writer, w.Appending → ∃ g', Decides r g' ∧ g w = g' w) :
    Decides r g := by
  intro w hw
  obtain ⟨g', h', e⟩ := h w hw
  rw [e]
  exact h' w hw

theorem writeAll {α : Type} {g : α → M Writer Unit} {r : α → Option DekuError} :
    ∀ {vs : List α}, (∀ x ∈ vs, Decides (r x) (g x)) → Decides (vs.findSome? r) (Coll.writeAll g vs)
  | [], _ => pure
  | v :: vs, h => by
    simp only [Coll.writeAll]
    refine ((h v List.mem_cons_self).bind (writeAll fun x hx => h x (List.mem_cons_of_mem _ hx))).congr ?_
    rw [List.findSome?_cons]
    cases r v <;> rfl

theorem writeAll_none {α : Type} {g : α → M Writer Unit} {vs : List α} (h : ∀ x, Decides none (g x)) :
    Decides none (Coll.writeAll g vs) :=
  (writeAll (r := fun _ => none) fun x _ => h x).congr (by
    induction vs with
    | nil => rfl
    | cons v vs ih => rw [List.findSome?_cons]; exact ih)

theorem new_appending : (Writer.new {}).Appending :=
  ⟨(Writer.new_at .msb0).wf, (Writer.new_at .msb0).healthy, rfl⟩

theorem toBytes_err {e : DekuError} {g : M Writer Unit} (h : Decides (some e) g) : Deku.toBytes g = .err e := by
  obtain ⟨w', e'⟩ := h _ new_appending
  simp only [Deku.toBytes, M.bind_err e']

theorem toBytes_ok {g : M Writer Unit} {k : Nat} (h : Decides none g) (hk : Puts (· = k) g) :
    ∃ out, Deku.toBytes g = .ok out ∧ out.length = (k + 7) / 8 := by
  obtain ⟨w1, e1, h1⟩ := h _ new_appending
  obtain ⟨_, n, rfl, ht⟩ := hk _ _ _ new_appending e1
  obtain ⟨w2, e2, hd, _⟩ := (Writer.finalize_done h1.wf).ok h1.healthy
  have hg := hd.grew h1.wf
  have h2 := hg.appending h1
  refine ⟨w2.inner.data, ?_, ?_⟩
  · simp only [Deku.toBytes, M.bind_ok e1, e2]
  · have hl := hg.len
    have hwf1 := h1.wf.2
    have hwf2 := h2.wf.2
    have hend := h2.atEnd
    simp only [Writer.total, Writer.new, List.length_nil] at ht
    rw [List.length_replicate] at hl
    generalize h8 : w2.inner.data.length = d at hend ⊢
    omega

end Decides

theorem uintValid.decides {native : Endian} {W : Nat} {ctx ctx' : IntCtx} (h : uintValid native W ctx = true) {v : Val}
    (hv : (Leaf.uint W ctx').has v = true) :
    Decides ((Leaf.uint W ctx).refusal native v) ((uintCodec native W ctx).write v) := by
  obtain ⟨e, n, o, hs, hW, h1, hn⟩ := uintValid_iff.1 h
  obtain ⟨k, rfl, h0, hk⟩ := Leaf.has_uint.1 hv
  obtain ⟨k, rfl⟩ := Int.eq_ofNat_of_zero_le h0
  have hk' : k < 256 ^ W := by rw [← pow256] at hk; exact Int.ofNat_lt.1 hk
  have hc : ((k : Int) < 2 ^ n) ↔ k < 2 ^ n := by
    rw [show (2 : Int) ^ n = ((2 ^ n : Nat) : Int) from (Int.natCast_pow 2 n).symm]; exact Int.ofNat_lt
  show Decides _ ((uintCodec native W ctx).write (.num (k : Nat)))
  rw [uint_write_num hk']
  simp only [Leaf.refusal, fieldRefusal, hs]
  have htook := fun w hw hh => Prim.writeUnsigned_takes native ctx (W := W) (v := k) (w := w) hw hh
  simp only [hs] at htook
  by_cases hb : ctx.isBits = true
  · by_cases hf : k < 2 ^ n
    · rw [if_neg (by simp [hb, hc, hf])]
      exact .of_took fun w hw hh => htook w hw hh h1 hn fun _ => hf
    · rw [if_pos (by simp only [hb, hc, hf, decide_false, Bool.not_false, Bool.and_true])]
      have href := Prim.writeUnsigned_refuses native ctx hb hk'
      simp only [hs] at href
      exact .of_refuses (href (.inr (by omega)))
  · rw [if_neg (by simp [hb])]
    exact .of_took fun w hw hh => htook w hw hh h1 hn fun h => absurd h hb

theorem sint_refuses {native e : Endian} {W n : Nat} {o : Order} {ctx : IntCtx}
    (hs : ctx.sshape native W = (e, n, o)) (h1 : 1 ≤ n) {v : Int} (hv : InRange (8 * W) v)
    (hb : ctx.isBits = true) (hc : ¬ if ctx.noOrder then InRange n v else pattern W v < 2 ^ n) :
    Refuses (Prim.writeSigned native W ctx v) .invalidParam := by
  intro w
  have hp := Prim.pattern_lt W v
  cases ctx <;> simp only [IntCtx.isBits, Bool.false_eq_true] at hb <;>
    simp only [IntCtx.sshape, IntCtx.shape, Prod.mk.injEq] at hs <;> obtain ⟨rfl, rfl, rfl⟩ := hs <;>
    simp only [Prim.writeSigned] <;> simp only [IntCtx.noOrder, if_true, Bool.false_eq_true, if_false] at hc
  · exact Prim.writeSignedBits_refuses _ w hv (.inr ⟨h1, hc⟩)
  · exact Prim.writeSignedBits_refuses _ w hv (.inr ⟨h1, hc⟩)
  · exact Prim.writeBitsOrd_refuses _ _ w hp (.inr (by omega))
  · exact Prim.writeBitsOrd_refuses _ _ w hp (.inr (by omega))

theorem sintValid.decides {native : Endian} {W : Nat} {ctx : IntCtx} (h : sintValid native W ctx = true) {k : Int}
    (hk : -(256 ^ W) ≤ 2 * k ∧ 2 * k < 256 ^ W) :
    Decides ((Leaf.sint W ctx).refusal native (.num k)) ((sintCodec native W ctx).write (.num k)) := by
  obtain ⟨e, n, o, hs, hW, h1, hn⟩ := sintValid_iff.1 h
  have hv := (inRange_width hW k).1 hk
  simp only [sintCodec]
  rw [if_pos hk]
  simp only [Leaf.refusal, fieldRefusal, hs]
  have hr : (if ctx.noOrder then decide (-(2 ^ (n - 1)) ≤ k ∧ k < 2 ^ (n - 1)) else decide (pattern W k < 2 ^ n)) =
      decide (if ctx.noOrder then InRange n k else pattern W k < 2 ^ n) := by
    have : (2 : Int) ^ (n - 1) = ((2 ^ (n - 1) : Nat) : Int) := (Int.natCast_pow 2 (n - 1)).symm
    split
    · exact decide_eq_decide.2 (by unfold InRange; rw [this])
    · rfl
  rw [hr]
  by_cases hb : ctx.isBits = true
  · by_cases hc : if ctx.noOrder then InRange n k else pattern W k < 2 ^ n
    · rw [if_neg (by simp [hc])]
      exact .of_took fun w hw hh => Prim.writeSigned_took hs h1 hn hv (fun _ => hc) hw hh
    · rw [if_pos (by simp [hb, hc])]
      exact .of_refuses (sint_refuses hs h1 hv hb hc)
  · rw [if_neg (by simp [hb])]
    exact .of_took fun w hw hh => Prim.writeSigned_took hs h1 hn hv (fun h => absurd h hb) hw hh

theorem u8Write_decides {native : Endian} {ctx : IntCtx} (h : uintValid native 1 ctx = true) (b : Byte) :
    Decides ((Leaf.uint 1 ctx).refusal native (.ofByte b)) (u8Write native ctx b) := by
  rw [← u8Write_eq]
  refine uintValid.decides (ctx' := ctx) h (Leaf.has_uint.2 ⟨b.toNat, rfl, by omega, ?_⟩)
  have := b.isLt
  omega

theorem u8Write_unit_decides (native : Endian) (b : Byte) : Decides none (u8Write native .unit b) :=
  (u8Write_decides (ctx := .unit) rfl b).congr (by simp [Leaf.refusal, Val.ofByte, fieldRefusal, IntCtx.isBits])

theorem Leaf.decides {m : Machine} {l : Leaf} (h : l.valid m.native = true) {v : Val} (hv : l.has v = true) :
    Decides (l.refusal m.native v) ((l.codec m).write v) := by
  cases l with
  | uint W ctx => exact uintValid.decides h hv
  | sint W ctx =>
    obtain ⟨n, rfl, hn⟩ := has_sint.1 hv
    exact sintValid.decides h hn
  | nonzero W ctx =>
    obtain ⟨n, rfl, h0, hn⟩ := has_nonzero.1 hv
    simp only [Leaf.codec, nonzeroCodec_eq, convCodec,
      nonzeroOf_of (show (Val.num n) ≠ .num 0 by intro h; injection h with h; omega)]
    exact uintValid.decides (ctx' := ctx) h (has_uint.2 ⟨n, rfl, by omega, hn⟩)
  | nonzeroSigned W ctx =>
    obtain ⟨n, rfl, h0, hn⟩ := has_nonzeroSigned.1 hv
    simp only [Leaf.codec, nonzeroSignedCodec_eq, convCodec,
      nonzeroOf_of (show (Val.num n) ≠ .num 0 by intro h; injection h with h; contradiction)]
    exact sintValid.decides h hn
  | bool ctx =>
    simp only [Leaf.codec, boolCodec_eq]
    simp only [Leaf.has, decide_eq_true_iff] at hv
    have hb : boolOf v = some v := by unfold boolOf; rw [if_pos hv.symm]
    simp only [convCodec, hb]
    simp only [Leaf.valid] at h
    obtain ⟨e, n, o, hs, hW, h1, hn⟩ := uintValid_iff.1 h
    have hu : (Leaf.uint 1 ctx).has v = true := by
      rcases hv with rfl | rfl <;> exact has_uint.2 ⟨_, rfl, by decide, by decide⟩
    refine (uintValid.decides (ctx' := ctx) h hu).congr ?_
    have h2 : (1 : Int) < 2 ^ n := by
      rw [show (2 : Int) ^ n = ((2 ^ n : Nat) : Int) from (Int.natCast_pow 2 n).symm]
      have := Nat.one_lt_two_pow (n := n) (by omega)
      omega
    have h3 : (0 : Int) < 2 ^ n := by omega
    rcases hv with rfl | rfl <;> simp [Leaf.refusal, fieldRefusal, hs, h2, h3]
  | cstring =>
    simp only [Leaf.codec, cstringCodec]
    rw [if_pos (by simpa [Leaf.has] using hv)]
    exact (Decides.writeAll_none fun b => u8Write_unit_decides m.native b).congr (by cases v <;> rfl)
  | cstringSized n =>
    simp only [Leaf.codec, cstringSizedCodec]
    rw [if_pos (by simpa [Leaf.has] using hv), cstringWrite_sized]
    exact (Decides.writeAll_none fun b => u8Write_unit_decides m.native b).congr (by cases v <;> rfl)
  | unit =>
    simp only [Leaf.codec, unitCodec]
    rw [if_pos (by simpa [Leaf.has] using hv)]
    exact Decides.pure.congr (by cases v <;> rfl)

theorem magicWrite_decides (native : Endian) (magic : List Byte) : Decides none (magicWrite native magic) :=
  .writeAll_none fun b => u8Write_unit_decides native b

theorem padLoop_decides (order : Order) (fuel n : Nat) : Decides none (padLoop order fuel n) := by
  induction fuel generalizing n with
  | zero => exact .pure
  | succ fuel ih =>
    simp only [padLoop]
    split
    · exact .pure
    · exact (Decides.of_took (n := (List.replicate (min padChunk n) false).length) fun w hw _ =>
        Writer.writeBitsOrder_took hw order _).bind (ih _)

theorem padWrite_decides (order : Option Order) (pad : Option Nat) (env : Env) :
    Decides (padRefusal pad) (padWrite order (pad.map fun n _ => (n : Int)) env) := by
  cases pad with
  | none => exact Decides.pure.congr (by simp [padRefusal])
  | some n =>
    show Decides _ (padWrite order (some fun _ => (n : Int)) env)
    simp only [padWrite, padSize, padRefusal, Option.getD_some]
    by_cases hn : n < 2 ^ 64
    · rw [if_pos hn, if_pos (by omega), M.pure_bind]
      exact padLoop_decides _ _ _
    · rw [if_neg hn, if_neg (by omega)]
      exact Decides.of_run fun w _ => ⟨M.throw .invalidParam, .throw _, rfl⟩

theorem DAttrs.decides {a : DAttrs} {native : Endian} {wr : Env → Val → M Writer Unit} {env : Env} {v : Val}
    {ty : Env → Val → Option DekuError} (h : Decides (ty (env.at 0) v) (wr (env.at 0) v)) :
    Decides (a.refusal ty env v) (a.toAttrs.write native wr env v) := by
  simp only [Attrs.write]
  have hs : a.toAttrs.seek = none := rfl
  have ho : a.toAttrs.usesOffset = false := rfl
  simp only [hs, seekWrite, M.pure_bind, ho, Bool.false_eq_true, if_false]
  refine ((magicWrite_decides native _).bind ((padWrite_decides _ a.padBefore env).bind
    (Decides.of_run fun w _ => ⟨_, ?_, by rw [M.get_bind_run]⟩))).congr
    (r := Option.or none (a.refusal ty env v)) (by simp)
  refine Decides.bind ?_ (Decides.bind ?_ (padWrite_decides _ a.padAfter _))
  · simp only [Attrs.check]
    rw [if_neg (show a.toAttrs.assert (env.at 0) v ≠ false from fun h => by cases h)]
    have : a.toAttrs.assertEq (env.at 0) = a.assertEq.map fun e => e.val (env.at 0) := rfl
    rw [this]
    cases a.assertEq with
    | none => exact .pure
    | some e =>
      simp only [Option.map_some]
      by_cases hx : v = e.val (env.at 0)
      · rw [if_pos hx, if_neg (fun h => h hx)]; exact .pure
      · rw [if_neg hx, if_pos hx]; exact .throw _
  · simp only [Attrs.put]
    split
    · exact h
    · exact .pure

mutual

theorem Def.decides (m : Machine) : ∀ (d : Def) (env : Env) (v : Val), d.valid m.native = true → d.has v = true →
    Decides (d.refusal m.native env v) ((d.toTy m).write m env v)
  | .leaf _ l, env, v, h, hv => by
    simp only [Def.valid] at h
    simp only [Def.has] at hv
    simp only [Def.toTy, Ty.write, Def.refusal]
    exact Leaf.decides h hv
  | .option t, env, v, h, hv => by
    simp only [Def.valid] at h
    simp only [Def.toTy, Ty.write, Def.refusal]
    cases v with
    | none => exact .pure
    | some x =>
      simp only [Def.has] at hv
      exact Def.decides m t env x h hv
    | _ => simp [Def.has] at hv
  | .array n t, env, v, h, hv => by
    simp only [Def.valid] at h
    simp only [Def.has, Bool.and_eq_true, decide_eq_true_iff, List.all_eq_true] at hv
    simp only [Def.toTy, Ty.write, Def.refusal]
    rw [if_pos (by simp [hv.1.1, hv.1.2])]
    exact .writeAll fun x hx => Def.decides m t env x h (hv.2 x hx)
  | .pair a b, env, v, h, hv => by
    simp only [Def.valid, Bool.and_eq_true] at h
    simp only [Def.has] at hv
    split at hv
    · rw [Bool.and_eq_true] at hv
      simp only [Def.toTy, Ty.write, Def.refusal]
      exact (Def.decides m a env _ h.1 hv.1).bind (Def.decides m b env _ h.2 hv.2)
    · simp at hv
  | .vec zst l t, env, v, h, hv => by
    simp only [Def.valid] at h
    simp only [Def.has, Bool.and_eq_true, List.all_eq_true] at hv
    simp only [Def.toTy, Ty.write, Def.refusal]
    rw [if_pos hv.1]
    exact .writeAll fun x hx => Def.decides m t env x h (hv.2 x hx)
  | .bytes n ctx, env, v, h, hv => by
    simp only [Def.valid] at h
    simp only [Def.has] at hv
    simp only [Def.toTy, Ty.write, Def.refusal]
    rw [if_pos hv]
    simp only [Val.isBytes, Bool.and_eq_true, List.all_eq_true, decide_eq_true_iff] at hv
    have he : v.elems = (v.elems.map Val.toByte).map Val.ofByte := by
      rw [List.map_map]
      exact (List.map_id' _).symm.trans (List.map_congr_left fun x hx => hv.2 x hx)
    refine (Decides.writeAll (r := fun b => (Leaf.uint 1 ctx).refusal m.native (.ofByte b)) fun b _ =>
      u8Write_decides h b).congr ?_
    conv => lhs; rw [he]
    rw [List.findSome?_map]
    rfl
  | .struct args magic fs, env, v, h, hv => by
    simp only [Def.valid] at h
    simp only [Def.has] at hv
    simp only [Def.toTy, Ty.write, Def.refusal, seekWrite, M.pure_bind]
    exact ((magicWrite_decides _ _).bind (DFields.decides m fs _ v v h hv)).congr (by rw [Option.none_or]; rfl)
  | .enum args magic id vs, env, v, h, hv => by
    simp only [Def.valid, Bool.and_eq_true] at h
    simp only [Def.has] at hv
    split at hv
    · simp only [Def.toTy, Ty.write, Def.refusal]
      exact ((magicWrite_decides _ _).bind (DVariants.decides m id h.1 vs _ _ _ h.2 hv)).congr (by rw [Option.none_or]; rfl)
    · simp at hv

theorem DFields.decides (m : Machine) : ∀ (fs : DFields) (env : Env) (all v : Val), fs.valid m.native = true →
    fs.has all v = true → Decides (fs.refusal m.native env all v) ((fs.toFields m).write m env all v)
  | .nil, env, all, v, h, hv => by
    simp only [DFields.has, decide_eq_true_iff] at hv
    subst hv
    simp only [DFields.toFields, Fields.write, DFields.refusal]
    exact .pure
  | .cons a t tl, env, all, v, h, hv => by
    simp only [DFields.valid, Bool.and_eq_true] at h
    simp only [DFields.has] at hv
    split at hv
    · rw [Bool.and_eq_true] at hv
      simp only [DFields.toFields, Fields.write, DFields.refusal]
      exact (DAttrs.decides (ty := fun env x => t.refusal m.native env x) (Def.decides m t _ _ h.1 hv.1)).bind
        (DFields.decides m tl _ _ _ h.2 hv.2)
    · simp at hv
  | .temp a t value tl, env, all, v, h, hv => by
    simp only [DFields.valid, Bool.and_eq_true] at h
    simp only [DFields.has, Bool.and_eq_true] at hv
    simp only [DFields.toFields, Fields.write, DFields.refusal]
    exact (DAttrs.decides (ty := fun env x => t.refusal m.native env x) (Def.decides m t _ _ h.1 hv.1)).bind
      (DFields.decides m tl _ _ _ h.2 hv.2)

theorem DFields.decidesStored (m : Machine) {W : Nat} {ctx : IntCtx} (store : Env → Val → M Writer Unit)
    (hs : ∀ env v, (Leaf.uint W .unit).has v = true → Decides ((Leaf.uint W ctx).refusal m.native v) (store env v)) :
    ∀ (fs : DFields) (env : Env) (v : Val), fs.valid m.native = true → fs.hasStored W v = true →
    Decides (fs.refusalStored m.native (.uint W ctx) env v) ((fs.toFields m).writeStored m store env v)
  | .nil, env, v, h, hv => by simp [DFields.hasStored] at hv
  | .cons a t tl, env, v, h, hv => by
    simp only [DFields.valid, Bool.and_eq_true] at h
    simp only [DFields.hasStored] at hv
    split at hv
    · rw [Bool.and_eq_true] at hv
      simp only [DFields.toFields, Fields.writeStored, DFields.refusalStored]
      exact (hs _ _ hv.1).bind (DFields.decides m tl _ _ _ h.2 hv.2)
    · simp at hv
  | .temp a t value tl, env, v, h, hv => by simp [DFields.hasStored] at hv

theorem DVariants.decides (m : Machine) (id : DId) (hid : id.valid m.native = true) :
    ∀ (vs : DVariants) (i : Nat) (env : Env) (v : Val), vs.valid m.native id = true → vs.hasAt id i v = true →
    Decides (vs.refusalAt m.native id i env v) ((vs.toVariants m).writeAt m env (id.toSrc m) (id.store m) i v)
  | .nil, i, env, v, h, hv => by simp [DVariants.hasAt] at hv
  | .cons a fs tl, 0, env, v, h, hv => by
    simp only [DVariants.valid, Bool.and_eq_true] at h
    obtain ⟨⟨hk, hf⟩, ht⟩ := h
    simp only [DVariants.hasAt] at hv
    simp only [DVariants.toVariants, Variants.writeAt, DVAttrs.toVAttrs, DVariants.refusalAt]
    cases id with
    | typed size W ctx store =>
      simp only [DId.valid, Bool.and_eq_true] at hid
      simp only [DId.toSrc]
      have hst : ∀ env v, (Leaf.uint W .unit).has v = true →
          Decides ((Leaf.uint W store).refusal m.native v) (DId.store m (.typed size W ctx store) env v) :=
        fun env v hv => uintValid.decides hid.2 hv
      cases hkind : a.kind with
      | id n =>
        rw [hkind] at hk hv
        simp only [VKind.idVal, VKind.isPat, Bool.false_eq_true, if_false] at hv ⊢
        simp only [DId.allows, decide_eq_true_iff] at hk
        exact (uintValid.decides (ctx' := ctx) hid.1 (Leaf.has_uint.2 ⟨n, rfl, hk⟩)).bind (DFields.decides m fs env v v hf hv)
      | any =>
        rw [hkind] at hk hv
        simp only [VKind.idVal, VKind.isPat, if_true] at hv ⊢
        exact DFields.decidesStored m _ hst fs env v hf hv
      | range lo hi =>
        rw [hkind] at hk hv
        simp only [VKind.idVal, VKind.isPat, if_true] at hv ⊢
        exact DFields.decidesStored m _ hst fs env v hf hv
    | arg e =>
      simp only [DId.allows, Bool.not_eq_true'] at hk
      simp only [DId.toSrc, hk, Bool.false_eq_true, if_false]
      exact DFields.decides m fs env v v hf hv
  | .cons a fs tl, i + 1, env, v, h, hv => by
    simp only [DVariants.valid, Bool.and_eq_true] at h
    simp only [DVariants.hasAt] at hv
    simp only [DVariants.toVariants, Variants.writeAt, DVariants.refusalAt]
    exact DVariants.decides m id hid tl i env v h.2 hv

end

end Deku
