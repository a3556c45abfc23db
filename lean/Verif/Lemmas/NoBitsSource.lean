import Verif.Lemmas.NoBits

/-! # Sources that do without feature `bits` -/

namespace Deku

variable {seeks peek : Bool}

/-! ## Leaves -/

theorem uintCodec_rsim (native : Endian) (W : Nat) {ctx : IntCtx} (h : ctx.isBits = false) :
    RSim seeks peek (uintCodec native W ctx).read (uintCodec native W ctx).read := (readUnsigned_rsim native W h).map _

theorem uintCodec_wsim (native : Endian) (W : Nat) {ctx : IntCtx} (h : ctx.isBits = false) (v : Val) :
    WSim ((uintCodec native W ctx).write v) ((uintCodec native W ctx).write v) := by
  cases v with
  | num n => exact .ite (writeUnsigned_wsim native W h _) .panic
  | _ => exact .panic

theorem sintCodec_wsim (native : Endian) (W : Nat) {ctx : IntCtx} (h : ctx.isBits = false) (v : Val) :
    WSim ((sintCodec native W ctx).write v) ((sintCodec native W ctx).write v) := by
  cases v with
  | num n => exact .ite (writeSigned_wsim native W h _) .panic
  | _ => exact .panic

/-- The context of the leaf is not one of bits. -/
def Leaf.whole : Leaf → Bool
  | .uint _ c => !c.isBits
  | .sint _ c => !c.isBits
  | .nonzero _ c => !c.isBits
  | .nonzeroSigned _ c => !c.isBits
  | .bool c => !c.isBits
  | _ => true

theorem nonzeroRead_rsim {α : Type} [DecidableEq α] [OfNat α 0] {f : M Reader α} (h : RSim seeks peek f f) :
    RSim seeks peek (Coll.nonzeroRead f) (Coll.nonzeroRead f) := h.bind fun _ => .ite (.throw _) (.pure _)

theorem boolRead_rsim {f : M Reader Nat} (h : RSim seeks peek f f) :
    RSim seeks peek (Coll.boolRead f) (Coll.boolRead f) := by
  unfold Coll.boolRead
  exact h.bind fun n => .ite (.pure _) (.ite (.pure _) (.throw _))

theorem Leaf.codec_rsim (m : Machine) (l : Leaf) (h : l.whole = true) :
    RSim seeks peek (l.codec m).read (l.codec m).read := by
  cases l <;> simp only [Leaf.whole, Bool.not_eq_true'] at h
  · exact uintCodec_rsim _ _ h
  · exact (readSigned_rsim _ _ h).map _
  · exact (nonzeroRead_rsim (readUnsigned_rsim _ _ h)).map _
  · exact (nonzeroRead_rsim (readSigned_rsim _ _ h)).map _
  · exact (boolRead_rsim (readUnsigned_rsim _ _ h)).map _
  · exact (cstringRead_rsim _ _).map _
  · exact (cstringReadSized_rsim _ _ _).map _
  · exact .pure _

theorem Leaf.codec_wsim (m : Machine) (l : Leaf) (h : l.whole = true) (v : Val) :
    WSim ((l.codec m).write v) ((l.codec m).write v) := by
  cases l <;> simp only [Leaf.whole, Bool.not_eq_true'] at h
  · exact uintCodec_wsim _ _ h _
  · exact sintCodec_wsim _ _ h _
  · exact .ite .panic (uintCodec_wsim _ _ h _)
  · exact .ite .panic (sintCodec_wsim _ _ h _)
  · exact .ite (writeUnsigned_wsim _ _ h _) (.ite (writeUnsigned_wsim _ _ h _) .panic)
  · exact .ite (collWriteAll_wsim (u8Write_wsim _ rfl) _) .panic
  · exact .ite (collWriteAll_wsim (u8Write_wsim _ rfl) _) .panic
  · exact .ite (.pure _) .panic

/-! ## Arguments -/

def Arg.noBits : Arg → Bool
  | .bits _ => false
  | _ => true

theorem intArgs_noBits {args : List Arg} {ctx : IntCtx} (h : args.all (·.noBits) = true) (he : intArgs args = some ctx) :
    ctx.isBits = false := by
  unfold intArgs at he
  split at he <;> simp at he <;> subst he <;> simp [Arg.noBits] at h <;> rfl

theorem nonzeroArgs_noBits {args : List Arg} {ctx : IntCtx} (h : args.all (·.noBits) = true)
    (he : nonzeroArgs args = some ctx) : ctx.isBits = false := by
  unfold nonzeroArgs at he
  split at he <;> simp at he <;> subst he <;> simp [Arg.noBits] at h <;> rfl

theorem Base.leaf_whole {args : List Arg} {b : Base} {l : Leaf} (h : args.all (·.noBits) = true)
    (he : b.leaf args = some l) : l.whole = true := by
  cases b <;> simp only [Base.leaf, Option.map_eq_some_iff] at he
  · obtain ⟨c, hc, rfl⟩ := he; simp [Leaf.whole, intArgs_noBits h hc]
  · obtain ⟨c, hc, rfl⟩ := he; simp [Leaf.whole, intArgs_noBits h hc]
  · obtain ⟨c, hc, rfl⟩ := he; simp [Leaf.whole, nonzeroArgs_noBits h hc]
  · obtain ⟨c, hc, rfl⟩ := he; simp [Leaf.whole, nonzeroArgs_noBits h hc]
  · obtain ⟨c, hc, rfl⟩ := he; simp [Leaf.whole, intArgs_noBits h hc]
  · split at he <;> simp at he <;> subst he <;> rfl
  · simp at he; subst he; rfl

theorem CtxArg.eval_noBits {env : List Arg} {a : CtxArg} {x : Arg} (h : a.eval env = some x) : x.noBits = true := by
  cases a <;> simp only [CtxArg.eval, Option.map_eq_some_iff] at h
  · obtain ⟨e, -, rfl⟩ := h; rfl
  · obtain ⟨e, -, rfl⟩ := h; rfl
  · simp at h; subst h; rfl

theorem ctx_noBits (env : List Arg) : ∀ (l : List CtxArg) (xs : List Arg), l.mapM (·.eval env) = some xs →
    xs.all (·.noBits) = true := by
  intro l
  induction l with
  | nil => intro xs h; simp at h; subst h; rfl
  | cons a l ih =>
    intro xs h
    rw [List.mapM_cons] at h
    simp only [Option.bind_eq_bind, Option.bind_eq_some_iff, Option.pure_def, Option.some.injEq] at h
    obtain ⟨x, hx, ys, hy, rfl⟩ := h
    simp [CtxArg.eval_noBits hx]
    simpa using ih ys hy

theorem fieldArgs_noBits (endian : Option Endian) (bytes : Option Nat) (order : Option Order) (ctx : List Arg)
    (h : ctx.all (·.noBits) = true) : (fieldArgs endian none bytes order ctx).all (·.noBits) = true := by
  unfold fieldArgs
  simp only [List.all_append, h, Bool.and_true]
  cases endian <;> cases bytes <;> cases order <;> rfl

/-! ## Definitions -/

theorem padOf_whole {q : Bool} {k : Option Nat} (hq : peek = true → q = true)
    (h : k.all (fun k => !q && decide (k < 2 ^ 61)) = true) :
    WholePad peek ((padOf none k).map fun n _ => n) := by
  intro f hf
  cases k with
  | none => simp [padOf] at hf
  | some k =>
    have hf : some (fun _ => ((k * 8 : Nat) : Int)) = some f := hf
    simp only [Option.some.injEq] at hf
    simp at h
    subst hf
    refine ⟨?_, fun env => ⟨?_, ?_⟩⟩
    · cases peek
      · rfl
      · rw [hq rfl] at h; simp at h
    · show ((k * 8 : Nat) : Int) % 8 = 0; omega
    · show ((k * 8 : Nat) : Int) < 2 ^ 64; omega

theorem SAttrs.rest_bytewise {q : Bool} {a : SAttrs} (hq : peek = true → q = true) (h : a.bytewise q = true)
    (order : Option Order) (v : Val) : (a.rest order v).toAttrs.Bytewise false peek := by
  simp only [SAttrs.bytewise, Bool.and_eq_true, Option.isNone_iff_eq_none] at h
  obtain ⟨⟨⟨⟨⟨-, -⟩, h1⟩, h2⟩, h3⟩, h4⟩ := h
  refine ⟨fun _ => rfl, ?_, ?_⟩
  · simp only [SAttrs.rest, DAttrs.toAttrs, h1]; exact padOf_whole hq h3
  · simp only [SAttrs.rest, DAttrs.toAttrs, h2]; exact padOf_whole hq h4

theorem SId.elab_bytewise (m : Machine) {c : Container} {env : List Arg} {anyPat : Bool} {id : SId} {did : DId}
    (h : id.bytewise = true) (he : id.elab c env anyPat = some did) :
    (match did.toSrc m with
      | .ctx _ => True
      | .typed _ c =>
        (∀ env, RSim seeks peek (c env).read (c env).read) ∧ ∀ env v, WSim ((c env).write v) ((c env).write v)) ∧
    ∀ env v, WSim (did.store m env v) (did.store m env v) := by
  cases id with
  | ctx e =>
    simp only [SId.elab, Option.some.injEq] at he
    subst he
    exact ⟨trivial, fun _ _ => .panic⟩
  | typed W idEndian bits bytes =>
    simp only [SId.bytewise, Option.isNone_iff_eq_none] at h
    subst h
    simp only [SId.elab, Option.bind_eq_bind, Option.bind_eq_some_iff, Option.pure_def, Option.some.injEq] at he
    obtain ⟨e1, -, o, -, ctx, h1, e2, -, store, h2, rfl⟩ := he
    have g1 := intArgs_noBits (fieldArgs_noBits _ _ _ _ rfl) h1
    have g2 := intArgs_noBits (fieldArgs_noBits _ _ _ _ rfl) h2
    exact ⟨⟨fun _ => uintCodec_rsim _ _ g1, fun _ v => uintCodec_wsim _ _ g1 v⟩, fun _ v => uintCodec_wsim _ _ g2 v⟩

theorem SAttrs.limit_all {a : SAttrs} (h : a.limit = some .all) : a.readAll = true := by
  unfold SAttrs.limit at h
  split at h
  · simp at h
  · split at h
    · simp at h
    · split at h
      · simp at h
      · split at h
        · assumption
        · simp at h

mutual

theorem STy.elab_bytewise (m : Machine) : (t : STy) → ∀ (q peek : Bool) lim args d, t.bytewise q = true →
    (peek = true → q = true) → (lim = some .all → q = true) → args.all (·.noBits) = true →
    t.elab lim args = some d → (d.toTy m).Bytewise false peek
  | .base b, q, peek, lim, args, d, h, hq, hl, ha, he => by
    simp only [STy.elab] at he
    split at he
    · simp at he
    · simp only [Option.bind_eq_bind, Option.bind_eq_some_iff, Option.pure_def, Option.some.injEq] at he
      obtain ⟨l, h1, rfl⟩ := he
      have hw := Base.leaf_whole ha h1
      simp only [Def.toTy, Ty.Bytewise]
      exact ⟨fun _ => l.codec_rsim m hw, fun _ v => l.codec_wsim m hw v⟩
  | .option t, q, peek, lim, args, d, h, hq, hl, ha, he => by
    simp only [STy.elab, Option.bind_eq_bind, Option.bind_eq_some_iff, Option.pure_def, Option.some.injEq] at he
    obtain ⟨x, h1, rfl⟩ := he
    simp only [Def.toTy, Ty.Bytewise]
    exact t.elab_bytewise m q peek lim args x h hq hl ha h1
  | .array n t, q, peek, lim, args, d, h, hq, hl, ha, he => by
    simp only [STy.elab, Option.bind_eq_bind, Option.bind_eq_some_iff, Option.pure_def, Option.some.injEq] at he
    obtain ⟨x, h1, rfl⟩ := he
    simp only [Def.toTy, Ty.Bytewise]
    exact t.elab_bytewise m q peek lim args x h hq hl ha h1
  | .pair a b, q, peek, lim, args, d, h, hq, hl, ha, he => by
    simp only [STy.elab, Option.bind_eq_bind, Option.bind_eq_some_iff, Option.pure_def, Option.some.injEq] at he
    obtain ⟨x, h1, y, h2, rfl⟩ := he
    simp only [STy.bytewise, Bool.and_eq_true] at h
    simp only [Def.toTy, Ty.Bytewise]
    exact ⟨a.elab_bytewise m q peek lim args x h.1 hq hl ha h1, b.elab_bytewise m q peek lim args y h.2 hq hl ha h2⟩
  | .vec zst t, q, peek, lim, args, d, h, hq, hl, ha, he => by
    simp only [STy.bytewise] at h
    simp only [STy.elab] at he
    split at he
    · simp at he
    · rename_i l
      simp only [Option.bind_eq_bind, Option.bind_eq_some_iff, Option.pure_def, Option.some.injEq] at he
      obtain ⟨x, h1, rfl⟩ := he
      simp only [Def.toTy, Ty.Bytewise]
      refine ⟨?_, t.elab_bytewise m q peek none args x h hq (fun h => by simp at h) ha h1⟩
      cases l <;> simp only [Lim.toLimit]
      exact t.elab_bytewise m q true none args x h (fun _ => hl rfl) (fun h => by simp at h) ha h1
  | .struct c fs, q, peek, lim, args, d, h, hq, hl, ha, he => by
    simp only [STy.bytewise] at h
    simp only [STy.elab] at he
    split at he
    · simp at he
    · simp only [Option.bind_eq_bind, Option.bind_eq_some_iff, Option.pure_def, Option.some.injEq] at he
      obtain ⟨env, h1, ds, h2, rfl⟩ := he
      simp only [Def.toTy, Ty.Bytewise]
      exact ⟨by simp, fs.elab_bytewise m q peek c env ds h hq h2⟩
  | .enum c id vs, q, peek, lim, args, d, h, hq, hl, ha, he => by
    simp only [STy.bytewise, Bool.and_eq_true] at h
    simp only [STy.elab] at he
    split at he
    · simp at he
    · simp only [Option.bind_eq_bind, Option.bind_eq_some_iff, Option.pure_def, Option.some.injEq] at he
      obtain ⟨env, h1, did, h2, ds, h3, rfl⟩ := he
      simp only [Def.toTy, Ty.Bytewise]
      have hid := SId.elab_bytewise (seeks := false) (peek := peek) m h.1 h2
      exact ⟨hid.1, fun _ => hid.2, vs.elab_bytewise m q peek c env id.size ds h.2 hq h3⟩

theorem SFields.elab_bytewise (m : Machine) : (fs : SFields) → ∀ (q peek : Bool) c env ds, fs.bytewise q = true →
    (peek = true → q = true) → fs.elab c env = some ds → (ds.toFields m).Bytewise false peek
  | .nil, q, peek, c, env, ds, h, hq, he => by
    simp only [SFields.elab, Option.some.injEq] at he
    subst he
    simp only [DFields.toFields, Fields.Bytewise]
  | .cons a t tl, q, peek, c, env, ds, h, hq, he => by
    simp only [SFields.bytewise, Bool.and_eq_true] at h
    simp only [SFields.elab, Option.bind_eq_bind, Option.bind_eq_some_iff] at he
    obtain ⟨e1, -, o, -, ctx, h1, dflt, -, d, h2, ds', h3, h4⟩ := he
    have hb : a.bits = none := by
      have := h.1.1
      simp only [SAttrs.bytewise, Bool.and_eq_true, Option.isNone_iff_eq_none] at this
      exact this.1.1.1.1.1
    rw [hb] at h2
    have hargs := fieldArgs_noBits e1 a.bytes o ctx (ctx_noBits env _ _ h1)
    have hd : (d.toTy m).Bytewise false peek := by
      unfold SAttrs.fast at h2
      split at h2
      · simp only [Option.map_eq_some_iff] at h2
        obtain ⟨ic, g1, rfl⟩ := h2
        simp only [Def.toTy, Ty.Bytewise]
        exact fun _ => intArgs_noBits hargs g1
      · refine t.elab_bytewise m (q || a.readAll) peek a.limit _ d h.1.2 ?_ ?_ hargs h2
        · intro hp; simp [hq hp]
        · intro hp; simp [SAttrs.limit_all hp]
    have htl := tl.elab_bytewise m q peek c env ds' h.2 hq h3
    have hat := SAttrs.rest_bytewise hq h.1.1 o dflt
    unfold SAttrs.emit at h4
    split at h4 <;> simp only [Option.some.injEq, reduceCtorEq] at h4
    · subst h4; simp only [DFields.toFields, Fields.Bytewise]; exact ⟨hat, hd, htl⟩
    · subst h4; simp only [DFields.toFields, Fields.Bytewise]; exact ⟨hat, hd, htl⟩

theorem SFields.elabStored_bytewise (m : Machine) : (fs : SFields) → ∀ (q peek : Bool) c env typed ds,
    fs.bytewise q = true → (peek = true → q = true) → fs.elabStored c env typed = some ds →
    (ds.toFields m).Bytewise false peek
  | .nil, q, peek, c, env, typed, ds, h, hq, he => by simp [SFields.elabStored] at he
  | .cons a t tl, q, peek, c, env, typed, ds, h, hq, he => by
    simp only [SFields.bytewise, Bool.and_eq_true] at h
    have htl := tl.elab_bytewise m q peek c env
    rw [SFields.elabStored.eq_def] at he
    dsimp only at he
    split at he
    · split at he
      · simp only [Option.bind_eq_bind, Option.bind_eq_some_iff, Option.pure_def, Option.some.injEq] at he
        obtain ⟨ds', h3, rfl⟩ := he
        simp only [DFields.toFields, Fields.Bytewise, Def.toTy, Ty.Bytewise]
        refine ⟨⟨fun _ => rfl, fun f hf => by simp [DAttrs.toAttrs] at hf, fun f hf => by simp [DAttrs.toAttrs] at hf⟩,
          ⟨fun _ => uintCodec_rsim _ _ rfl, fun _ v => uintCodec_wsim _ _ rfl v⟩, htl ds' h.2 hq h3⟩
      · simp at he
    · simp at he

theorem SVariants.elab_bytewise (m : Machine) : (vs : SVariants) → ∀ (q peek : Bool) c env typed ds,
    vs.bytewise q = true → (peek = true → q = true) → vs.elab c env typed = some ds →
    (ds.toVariants m).Bytewise false peek
  | .nil, q, peek, c, env, typed, ds, h, hq, he => by
    simp only [SVariants.elab, Option.some.injEq] at he
    subst he
    simp only [DVariants.toVariants, Variants.Bytewise]
  | .cons a fs tl, q, peek, c, env, typed, ds, h, hq, he => by
    simp only [SVariants.bytewise, Bool.and_eq_true] at h
    simp only [SVariants.elab] at he
    split at he <;>
      simp only [Option.bind_eq_bind, Option.bind_eq_some_iff, Option.pure_def, Option.some.injEq] at he <;>
      obtain ⟨x, h1, y, h2, rfl⟩ := he <;> simp only [DVariants.toVariants, Variants.Bytewise]
    · exact ⟨fs.elabStored_bytewise m q peek c env typed x h.1 hq h1, tl.elab_bytewise m q peek c env typed y h.2 hq h2⟩
    · exact ⟨fs.elab_bytewise m q peek c env x h.1 hq h1, tl.elab_bytewise m q peek c env typed y h.2 hq h2⟩

end

theorem STy.compile_bytewise (m : Machine) {t : STy} {d : Def} (h : t.bytewise false = true) (hd : t.compile = some d) :
    (d.toTy m).Bytewise false false :=
  t.elab_bytewise m false false none [] d h (fun h => h) (fun h => by simp at h) rfl hd

end Deku
