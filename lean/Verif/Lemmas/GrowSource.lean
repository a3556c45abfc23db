import Verif.Lemmas.Grow
import Verif.Lemmas.Wire

/-! # Sources that grow give code that grows -/

namespace Deku

theorem Variants.Grows.mono {p q : Prop} (hpq : p → q) : ∀ (vs ws : Variants), vs.Grows p ws → vs.Grows q ws
  | .nil, _, h => by rw [Variants.Grows] at h ⊢; exact h.imp_left hpq
  | .cons a fs rest, _, h => by
    rw [Variants.Grows] at h ⊢
    obtain ⟨fs', rest', rfl, hf, hr⟩ := h
    exact ⟨fs', rest', rfl, hf, Variants.Grows.mono hpq rest rest' hr⟩

theorem SVariants.grows_defaults {more : Prop} : ∀ (vs ws : SVariants), vs.Grows more ws → vs.defaults ≤ ws.defaults
  | .nil, _, _ => by rw [SVariants.defaults]; exact Nat.zero_le _
  | .cons a fs rest, _, h => by
    rw [SVariants.Grows] at h
    obtain ⟨fs', rest', rfl, hf, hr⟩ := h
    have := SVariants.grows_defaults rest rest' hr
    rw [SVariants.defaults, SVariants.defaults]
    omega

theorem SVariants.grows_anyPat {more : Prop} : ∀ (vs ws : SVariants), vs.Grows more ws → vs.anyPat = true →
    ws.anyPat = true
  | .nil, _, _ => by rw [SVariants.anyPat]; exact fun h => nomatch h
  | .cons a fs rest, _, h => by
    rw [SVariants.Grows] at h
    obtain ⟨fs', rest', rfl, hf, hr⟩ := h
    have := SVariants.grows_anyPat rest rest' hr
    rw [SVariants.anyPat, SVariants.anyPat, Bool.or_eq_true, Bool.or_eq_true]
    exact Or.imp_right this

theorem SVariants.elab_defaultAt (m : Machine) (c : Container) (env : List Arg) (typed : Option Nat) :
    ∀ (vs : SVariants) (ds : DVariants), vs.elab c env typed = some ds → vs.defaults = 0 →
    ∀ i, (ds.toVariants m).defaultAt i = none
  | .nil, ds, h, _ => by rw [SVariants.elab] at h; cases h; intro i; rfl
  | .cons a fs rest, ds, h, h0 => by
    obtain ⟨x, vs, _, hv, rfl⟩ := SVariants.elab_cons c env typed a fs rest ds h
    rw [SVariants.defaults] at h0
    intro i
    rw [DVariants.toVariants, Variants.defaultAt, if_neg (by
      intro ha
      rw [if_pos (show a.default = true from ha)] at h0
      omega)]
    exact SVariants.elab_defaultAt m c env typed rest vs hv (by omega) _

theorem SVariants.elab_storesAt (m : Machine) (c : Container) (env : List Arg) (typed : Option Nat) :
    ∀ (vs : SVariants) (ds : DVariants), vs.elab c env typed = some ds → vs.anyPat = false →
    ∀ i, (ds.toVariants m).storesAt i = false
  | .nil, ds, h, _ => by rw [SVariants.elab] at h; cases h; intro i; rfl
  | .cons a fs rest, ds, h, h0 => by
    obtain ⟨x, vs, _, hv, rfl⟩ := SVariants.elab_cons c env typed a fs rest ds h
    rw [SVariants.anyPat, Bool.or_eq_false_iff] at h0
    intro i
    cases i with
    | zero => exact h0.1
    | succ i => exact SVariants.elab_storesAt m c env typed rest vs hv h0.2 i

mutual

theorem STy.grows_default : ∀ (t t' : STy), t.Grows t' → t'.default = t.default
  | .base b, _, h => by rw [STy.Grows] at h; rw [h]
  | .option t, _, h => by rw [STy.Grows] at h; obtain ⟨t', rfl, h⟩ := h; rfl
  | .array n t, _, h => by
    rw [STy.Grows] at h; obtain ⟨t', rfl, h⟩ := h
    rw [STy.default, STy.default, STy.grows_default t t' h]
  | .pair a b, _, h => by
    rw [STy.Grows] at h; obtain ⟨a', b', rfl, ha, hb⟩ := h
    rw [STy.default, STy.default, STy.grows_default a a' ha, STy.grows_default b b' hb]
  | .vec z t, _, h => by rw [STy.Grows] at h; obtain ⟨t', rfl, h⟩ := h; rfl
  | .struct c fs, _, h => by
    rw [STy.Grows] at h; obtain ⟨fs', rfl, h⟩ := h
    rw [STy.default, STy.default, SFields.grows_default fs fs' h]
  | .enum c id vs, _, h => by rw [STy.Grows] at h; obtain ⟨vs', rfl, h⟩ := h; rfl

theorem SFields.grows_default : ∀ (fs fs' : SFields), fs.Grows fs' → fs'.default = fs.default
  | .nil, _, h => by rw [SFields.Grows] at h; rw [h]
  | .cons a t rest, _, h => by
    rw [SFields.Grows] at h; obtain ⟨t', rest', rfl, ht, hr⟩ := h
    rw [SFields.default, SFields.default, STy.grows_default t t' ht, SFields.grows_default rest rest' hr]

end

theorem STy.grows_isVecU8 (t t' : STy) (h : t.Grows t') : t'.isVecU8 = t.isVecU8 := by
  cases t <;> rw [STy.Grows] at h
  case vec z u =>
    obtain ⟨u', rfl, h⟩ := h
    cases u <;> rw [STy.Grows] at h
    case base b => rw [h]
    case enum => obtain ⟨_, rfl, _⟩ := h; rfl
    case struct => obtain ⟨_, rfl, _⟩ := h; rfl
    case option => obtain ⟨_, rfl, _⟩ := h; rfl
    case array => obtain ⟨_, rfl, _⟩ := h; rfl
    case vec => obtain ⟨_, rfl, _⟩ := h; rfl
    case pair => obtain ⟨_, _, rfl, _⟩ := h; rfl
  case base b => rw [h]
  case enum => obtain ⟨_, rfl, _⟩ := h; rfl
  case struct => obtain ⟨_, rfl, _⟩ := h; rfl
  case option => obtain ⟨_, rfl, _⟩ := h; rfl
  case array => obtain ⟨_, rfl, _⟩ := h; rfl
  case pair => obtain ⟨_, _, rfl, _⟩ := h; rfl

/-- Without patterns the id is written as it was, and if there were patterns it is stored as it was. -/
theorem SId.elab_grows (c : Container) (env : List Arg) (p p' : Bool) (hp : p = true → p' = true) (id : SId) (did' : DId)
    (h : id.elab c env p' = some did') : ∃ did, id.elab c env p = some did ∧ (∀ m, did'.toSrc m = did.toSrc m) ∧
      (p = true → did' = did) := by
  cases id with
  | ctx e => exact ⟨did', h, fun _ => rfl, fun _ => rfl⟩
  | typed W ie bits bytes =>
    cases p with
    | true => rw [hp rfl] at h; exact ⟨did', h, fun _ => rfl, fun _ => rfl⟩
    | false =>
      cases p' with
      | false => exact ⟨did', h, fun _ => rfl, fun _ => rfl⟩
      | true =>
        cases bits <;> cases bytes <;>
        · simp only [SId.elab, Option.bind_eq_bind, Option.bind_eq_some_iff, Option.pure_def, Option.some.injEq] at h
          obtain ⟨e, h1, o, h2, x, h3, s, h4, y, h5, rfl⟩ := h
          refine ⟨.typed (some _) W x x, by
            simp only [SId.elab, h1, h2, h3, Option.bind_eq_bind, Option.bind_some, Bool.false_eq_true, if_false,
              Option.pure_def], fun _ => rfl, fun h => nomatch h⟩

mutual

/-- If the new source compiles, so does the old one, to code which the new code grows from. -/
theorem STy.elab_grows : ∀ (t t' : STy), t.Grows t' → ∀ lim args d', t'.elab lim args = some d' →
    ∃ d, t.elab lim args = some d ∧ ∀ m, (d.toTy m).Grows (d'.toTy m)
  | .base b, _, h => by
    rw [STy.Grows] at h; subst h
    intro lim args d' hd
    refine ⟨d', hd, fun m => ?_⟩
    rw [STy.elab] at hd
    split at hd
    · cases hd
    · simp only [Option.bind_eq_bind, Option.bind_eq_some_iff, Option.pure_def, Option.some.injEq] at hd
      obtain ⟨l, _, rfl⟩ := hd
      rw [Def.toTy, Ty.Grows]
  | .option t, _, h => by
    rw [STy.Grows] at h; obtain ⟨t', rfl, h⟩ := h
    intro lim args d' hd
    simp only [STy.elab, Option.bind_eq_bind, Option.bind_eq_some_iff, Option.pure_def, Option.some.injEq] at hd
    obtain ⟨x', hx', rfl⟩ := hd
    obtain ⟨x, hx, hg⟩ := STy.elab_grows t t' h _ _ x' hx'
    refine ⟨.option x, by simp [STy.elab, hx], fun m => ?_⟩
    simp only [Def.toTy, Ty.Grows]
    exact ⟨_, rfl, hg m⟩
  | .array n t, _, h => by
    rw [STy.Grows] at h; obtain ⟨t', rfl, h⟩ := h
    intro lim args d' hd
    simp only [STy.elab, Option.bind_eq_bind, Option.bind_eq_some_iff, Option.pure_def, Option.some.injEq] at hd
    obtain ⟨x', hx', rfl⟩ := hd
    obtain ⟨x, hx, hg⟩ := STy.elab_grows t t' h _ _ x' hx'
    refine ⟨.array n x, by simp [STy.elab, hx], fun m => ?_⟩
    simp only [Def.toTy, Ty.Grows]
    exact ⟨_, rfl, hg m⟩
  | .pair a b, _, h => by
    rw [STy.Grows] at h; obtain ⟨a', b', rfl, ha, hb⟩ := h
    intro lim args d' hd
    simp only [STy.elab, Option.bind_eq_bind, Option.bind_eq_some_iff, Option.pure_def, Option.some.injEq] at hd
    obtain ⟨x', hx', y', hy', rfl⟩ := hd
    obtain ⟨x, hx, hgx⟩ := STy.elab_grows a a' ha _ _ x' hx'
    obtain ⟨y, hy, hgy⟩ := STy.elab_grows b b' hb _ _ y' hy'
    refine ⟨.pair x y, by simp [STy.elab, hx, hy], fun m => ?_⟩
    simp only [Def.toTy, Ty.Grows]
    exact ⟨_, _, rfl, hgx m, hgy m⟩
  | .vec z t, _, h => by
    rw [STy.Grows] at h; obtain ⟨t', rfl, h⟩ := h
    intro lim args d' hd
    cases lim with
    | none => simp [STy.elab] at hd
    | some l =>
      simp only [STy.elab, Option.bind_eq_bind, Option.bind_eq_some_iff, Option.pure_def, Option.some.injEq] at hd
      obtain ⟨x', hx', rfl⟩ := hd
      obtain ⟨x, hx, hg⟩ := STy.elab_grows t t' h _ _ x' hx'
      refine ⟨.vec z l x, by simp [STy.elab, hx], fun m => ?_⟩
      simp only [Def.toTy, Ty.Grows]
      exact ⟨_, rfl, hg m⟩
  | .struct c fs, _, h => by
    rw [STy.Grows] at h; obtain ⟨fs', rfl, h⟩ := h
    intro lim args d' hd
    rw [STy.elab] at hd
    split at hd
    · cases hd
    · rename_i hl
      simp only [Option.bind_eq_bind, Option.bind_eq_some_iff, Option.pure_def, Option.some.injEq] at hd
      obtain ⟨sc, hs, x', hx', rfl⟩ := hd
      obtain ⟨x, hx, hg⟩ := SFields.elab_grows c sc fs fs' h x' hx'
      refine ⟨.struct (sc.map Arg.expr) c.magic x, by rw [STy.elab, if_neg hl]; simp [hs, hx], fun m => ?_⟩
      simp only [Def.toTy, Ty.Grows]
      exact ⟨_, rfl, hg m⟩
  | .enum c id vs, _, h => by
    rw [STy.Grows] at h; obtain ⟨vs', rfl, h⟩ := h
    intro lim args d' hd
    rw [STy.elab] at hd
    split at hd
    · cases hd
    · rename_i hl
      simp only [Option.bind_eq_bind, Option.bind_eq_some_iff, Option.pure_def, Option.some.injEq] at hd
      obtain ⟨sc, hs, did', hdid', x', hx', rfl⟩ := hd
      obtain ⟨x, hx, hg⟩ := SVariants.elab_grows c sc id.size vs vs' h x' hx'
      obtain ⟨did, hdid, hsrc, hsame⟩ := SId.elab_grows c sc vs.anyPat vs'.anyPat (SVariants.grows_anyPat vs vs' h) id did' hdid'
      have hl' : ¬ (lim.isSome = true ∨ id.validate = false ∨ 1 < vs.defaults) := by
        have := SVariants.grows_defaults vs vs' h
        rintro (h1 | h1 | h1)
        · exact hl (.inl h1)
        · exact hl (.inr (.inl h1))
        · exact hl (.inr (.inr (Nat.lt_of_lt_of_le h1 this)))
      refine ⟨.enum (sc.map Arg.expr) c.magic did x, by rw [STy.elab, if_neg hl']; simp [hs, hdid, hx], fun m => ?_⟩
      simp only [Def.toTy, Ty.Grows]
      refine ⟨_, _, by rw [hsrc m], Variants.Grows.mono (fun h0 => SVariants.elab_defaultAt m c sc _ vs x hx h0 0) _ _ (hg m), ?_⟩
      intro i hi
      cases hp : vs.anyPat with
      | false => rw [SVariants.elab_storesAt m c sc _ vs x hx hp i] at hi; cases hi
      | true => rw [hsame hp]
termination_by structural t => t

theorem SFields.elab_grows (c : Container) (sc : List Arg) : ∀ (fs fs' : SFields), fs.Grows fs' → ∀ ds', fs'.elab c sc = some ds' →
    ∃ ds, fs.elab c sc = some ds ∧ ∀ m, (ds.toFields m).Grows (ds'.toFields m)
  | .nil, _, h => by
    rw [SFields.Grows] at h; subst h
    intro ds' hd
    refine ⟨ds', hd, fun m => ?_⟩
    rw [SFields.elab] at hd; cases hd
    rw [DFields.toFields, Fields.Grows]
  | .cons a t rest, _, h => by
    rw [SFields.Grows] at h; obtain ⟨t', rest', rfl, ht, hr⟩ := h
    intro ds' hd
    simp only [SFields.elab, Option.bind_eq_bind, Option.bind_eq_some_iff] at hd
    obtain ⟨endian, h1, order, h2, ctx, h3, dflt, h4, d', h5, r', h6, h7⟩ := hd
    rw [STy.grows_default t t' ht] at h4
    rw [STy.grows_isVecU8 t t' ht] at h5
    obtain ⟨r, hr1, hr2⟩ := SFields.elab_grows c sc rest rest' hr r' h6
    have hd : ∃ d, a.fast t.isVecU8 (fieldArgs endian a.bits a.bytes order ctx)
        (t.elab a.limit (fieldArgs endian a.bits a.bytes order ctx)) = some d ∧ ∀ m, (d.toTy m).Grows (d'.toTy m) := by
      unfold SAttrs.fast at h5 ⊢
      split at h5
      · refine ⟨d', h5, fun m => ?_⟩
        simp only [Option.map_eq_some_iff] at h5
        obtain ⟨u, _, rfl⟩ := h5
        rw [Def.toTy, Ty.Grows]
      · exact STy.elab_grows t t' ht _ _ d' h5
    obtain ⟨d, hd1, hd2⟩ := hd
    unfold SAttrs.emit at h7
    split at h7 <;> cases h7
    · rename_i hv ht
      refine ⟨.cons (a.rest order dflt) d r, ?_, fun m => ?_⟩
      · simp only [SFields.elab, h1, h2, h3, h4, hd1, hr1, Option.bind_eq_bind, Option.bind_some, SAttrs.emit, hv, ht]
      · simp only [DFields.toFields, Fields.Grows]
        exact ⟨_, _, rfl, hd2 m, hr2 m⟩
    · rename_i v hv ht
      refine ⟨.temp (a.rest order dflt) d v r, ?_, fun m => ?_⟩
      · simp only [SFields.elab, h1, h2, h3, h4, hd1, hr1, Option.bind_eq_bind, Option.bind_some, SAttrs.emit, hv, ht]
      · simp only [DFields.toFields, Fields.Grows]
        exact ⟨_, _, rfl, hd2 m, hr2 m⟩
termination_by structural fs => fs

theorem SFields.elabStored_grows (c : Container) (sc : List Arg) (typed : Option Nat) : ∀ (fs fs' : SFields), fs.Grows fs' →
    ∀ ds', fs'.elabStored c sc typed = some ds' →
    ∃ ds, fs.elabStored c sc typed = some ds ∧ ∀ m, (ds.toFields m).Grows (ds'.toFields m)
  | .nil, _, h => by
    rw [SFields.Grows] at h; subst h
    intro ds' hd
    rw [SFields.elabStored] at hd; cases hd
  | .cons a t rest, _, h => by
    rw [SFields.Grows] at h; obtain ⟨t', rest', rfl, ht, hr⟩ := h
    intro ds' hd
    obtain ⟨W, _, r0, r', rfl, e, h4, rfl⟩ := SFields.elabStored_inv c sc _ _ ds' hd
    obtain ⟨rfl, rfl⟩ : t' = .base (.uint W) ∧ rest' = r0 := by cases e; exact ⟨rfl, rfl⟩
    have hty : t = .base (.uint W) := by
      cases t <;> rw [STy.Grows] at ht <;>
        first | (cases ht; rfl) | (obtain ⟨_, h, _⟩ := ht; cases h; done) | (obtain ⟨_, _, h, _⟩ := ht; cases h)
    subst hty
    obtain ⟨r, hr1, hr2⟩ := SFields.elab_grows c sc rest rest' hr r' h4
    simp only [SFields.elabStored] at hd ⊢
    split at hd
    · rename_i hc
      refine ⟨.cons {} (.leaf (some (8 * W)) (.uint W .unit)) r, by rw [if_pos hc, hr1]; rfl, fun m => ?_⟩
      simp only [DFields.toFields, Fields.Grows, Def.toTy]
      exact ⟨_, _, rfl, by rw [Ty.Grows], hr2 m⟩
    · cases hd
termination_by structural fs => fs

theorem SVariants.elab_grows (c : Container) (sc : List Arg) (typed : Option Nat) {more : Prop} : ∀ (vs vs' : SVariants),
    vs.Grows more vs' → ∀ ds', vs'.elab c sc typed = some ds' →
    ∃ ds, vs.elab c sc typed = some ds ∧ ∀ m, (ds.toVariants m).Grows more (ds'.toVariants m)
  | .nil, vs', h => by
    rw [SVariants.Grows] at h
    intro ds' hd
    refine ⟨.nil, by rw [SVariants.elab], fun m => ?_⟩
    rw [DVariants.toVariants, Variants.Grows]
    refine h.imp_right fun h => ?_
    subst h
    rw [SVariants.elab] at hd; cases hd; rfl
  | .cons a fs rest, _, h => by
    rw [SVariants.Grows] at h; obtain ⟨fs', rest', rfl, hf, hr⟩ := h
    intro ds' hd
    obtain ⟨f', r', hf', hr', rfl⟩ := SVariants.elab_cons c sc typed a fs' rest' ds' hd
    obtain ⟨r, hr1, hr2⟩ := SVariants.elab_grows c sc typed rest rest' hr r' hr'
    have hx : ∃ f, (if a.kind.isPat = true then fs.elabStored c sc typed else fs.elab c sc) = some f ∧
        ∀ m, (f.toFields m).Grows (f'.toFields m) := by
      by_cases hp : a.kind.isPat = true
      · rw [if_pos hp] at hf' ⊢; exact SFields.elabStored_grows c sc typed fs fs' hf f' hf'
      · rw [if_neg hp] at hf' ⊢; exact SFields.elab_grows c sc fs fs' hf f' hf'
    obtain ⟨f, hf1, hf2⟩ := hx
    refine ⟨.cons a f r, ?_, fun m => ?_⟩
    · rw [SVariants.elab]
      by_cases hp : a.kind.isPat = true
      · rw [if_pos hp] at hf1 ⊢; simp [hf1, hr1]
      · rw [if_neg hp] at hf1 ⊢; simp [hf1, hr1]
    · simp only [DVariants.toVariants, Variants.Grows]
      exact ⟨_, _, rfl, hf2 m, hr2 m⟩
termination_by structural vs => vs

end

/-! ## Values of the old type -/

theorem DAttrs.write_grows (a : DAttrs) (native : Endian) {f g : Env → Val → M Writer Unit} (v : Val)
    (h : ∀ env, g env v = f env v) (env : Env) :
    a.toAttrs.write native g env v = a.toAttrs.write native f env v := by
  have hu : a.toAttrs.unmap = fun _ x => x := rfl
  unfold Attrs.write Attrs.put
  simp only [hu, h]

theorem writeAll_grows {f g : Val → M Writer Unit} : ∀ vs : List Val, (∀ v ∈ vs, g v = f v) →
    Coll.writeAll g vs = Coll.writeAll f vs
  | [], _ => rfl
  | v :: vs, h => by
    rw [Coll.writeAll, Coll.writeAll, h v List.mem_cons_self, writeAll_grows vs fun w hw => h w (List.mem_cons_of_mem _ hw)]

mutual

theorem Def.write_grows (m : Machine) : ∀ (d : Def) (t : Ty), (d.toTy m).Grows t → ∀ env v, d.has v = true →
    t.write m env v = (d.toTy m).write m env v
  | .leaf size l, _, h => by rw [Def.toTy, Ty.Grows] at h; subst h; intros; rfl
  | .option d, _, h => by
    rw [Def.toTy, Ty.Grows] at h; obtain ⟨t, rfl, h⟩ := h
    intro env v hv
    rw [Def.toTy]
    cases v with
    | some x =>
      rw [Def.has] at hv
      rw [Ty.write, Ty.write]; exact Def.write_grows m d t h env x hv
    | _ => rfl
  | .array n d, _, h => by
    rw [Def.toTy, Ty.Grows] at h; obtain ⟨t, rfl, h⟩ := h
    intro env v hv
    rw [Def.has, Bool.and_eq_true, List.all_eq_true] at hv
    rw [Def.toTy, Ty.write, Ty.write, writeAll_grows v.elems fun x hx => Def.write_grows m d t h env x (hv.2 x hx)]
  | .pair a b, _, h => by
    rw [Def.toTy, Ty.Grows] at h; obtain ⟨t, u, rfl, ha, hb⟩ := h
    intro env v hv
    rw [Def.toTy, Ty.write.eq_def, Ty.write.eq_def m (.pair (a.toTy m) (b.toTy m))]
    rw [Def.has.eq_def] at hv
    dsimp only at hv ⊢
    split
    · rw [Bool.and_eq_true] at hv
      rw [Def.write_grows m a t ha env _ hv.1, Def.write_grows m b u hb env _ hv.2]
    · rfl
  | .vec z l d, _, h => by
    rw [Def.toTy, Ty.Grows] at h; obtain ⟨t, rfl, h⟩ := h
    intro env v hv
    rw [Def.has, Bool.and_eq_true, List.all_eq_true] at hv
    rw [Def.toTy, Ty.write, Ty.write, writeAll_grows v.elems fun x hx => Def.write_grows m d t h env x (hv.2 x hx)]
  | .bytes n ctx, _, h => by rw [Def.toTy, Ty.Grows] at h; subst h; intros; rfl
  | .struct args magic ds, _, h => by
    rw [Def.toTy, Ty.Grows] at h; obtain ⟨fs, rfl, h⟩ := h
    intro env v hv
    rw [Def.has] at hv
    rw [Def.toTy, Ty.write, Ty.write]
    simp only [DFields.write_grows m ds fs h _ v v hv]
  | .enum args magic id ds, _, h => by
    rw [Def.toTy, Ty.Grows] at h; obtain ⟨store, vs, rfl, h, hst⟩ := h
    intro env v hv
    rw [Def.toTy]
    cases v with
    | variant i fs =>
      rw [Def.has] at hv
      rw [Ty.write, Ty.write]
      simp only [DVariants.write_grows m id ds vs h _ (id.toSrc m) _ _ i fs (hst i) hv]
    | _ => rfl
termination_by structural d => d

theorem DFields.write_grows (m : Machine) : ∀ (ds : DFields) (fs : Fields), (ds.toFields m).Grows fs → ∀ env all v,
    ds.has all v = true → fs.write m env all v = (ds.toFields m).write m env all v
  | .nil, _, h => by rw [DFields.toFields, Fields.Grows] at h; subst h; intros; rfl
  | .cons a d rest, _, h => by
    rw [DFields.toFields, Fields.Grows] at h; obtain ⟨t, fs, rfl, ht, hr⟩ := h
    intro env all v hv
    rw [DFields.toFields]
    cases v with
    | cons x xs =>
      rw [DFields.has, Bool.and_eq_true] at hv
      rw [Fields.write, Fields.write, a.write_grows m.native x (fun env => Def.write_grows m d t ht env x hv.1),
        DFields.write_grows m rest fs hr _ all xs hv.2]
    | _ => rfl
  | .temp a d f rest, _, h => by
    rw [DFields.toFields, Fields.Grows] at h; obtain ⟨t, fs, rfl, ht, hr⟩ := h
    intro env all v hv
    rw [DFields.has, Bool.and_eq_true] at hv
    rw [DFields.toFields, Fields.write, Fields.write,
      a.write_grows m.native (f.eval all) (fun env => Def.write_grows m d t ht env _ hv.1),
      DFields.write_grows m rest fs hr _ all v hv.2]
termination_by structural ds => ds

theorem DFields.writeStored_grows (m : Machine) (W : Nat) (store : Env → Val → M Writer Unit) : ∀ (ds : DFields) (fs : Fields),
    (ds.toFields m).Grows fs → ∀ env v, ds.hasStored W v = true ∨ ds.has v v = true →
    fs.writeStored m store env v = (ds.toFields m).writeStored m store env v
  | .nil, _, h => by rw [DFields.toFields, Fields.Grows] at h; subst h; intros; rfl
  | .cons a d rest, _, h => by
    rw [DFields.toFields, Fields.Grows] at h; obtain ⟨t, fs, rfl, ht, hr⟩ := h
    intro env v hv
    rw [DFields.toFields]
    cases v with
    | cons x xs =>
      have : rest.has (.cons x xs) xs = true := by
        rcases hv with hv | hv
        · rw [DFields.hasStored, Bool.and_eq_true] at hv; exact hv.2
        · rw [DFields.has, Bool.and_eq_true] at hv; exact hv.2
      rw [Fields.writeStored, Fields.writeStored, DFields.write_grows m rest fs hr _ _ xs this]
    | _ => rfl
  | .temp a d f rest, _, h => by
    rw [DFields.toFields, Fields.Grows] at h; obtain ⟨t, fs, rfl, ht, hr⟩ := h
    intros; rfl
termination_by structural ds => ds

theorem DVariants.write_grows (m : Machine) (did : DId) {more : Prop} : ∀ (ds : DVariants) (vs : Variants),
    (ds.toVariants m).Grows more vs → ∀ env id store store' i v, ((ds.toVariants m).storesAt i = true → store' = store) →
    ds.hasAt did i v = true → vs.writeAt m env id store' i v = (ds.toVariants m).writeAt m env id store i v
  | .nil, _, _ => fun _ _ _ _ _ _ _ hv => by rw [DVariants.hasAt] at hv; cases hv
  | .cons a f rest, _, h => by
    rw [DVariants.toVariants, Variants.Grows] at h; obtain ⟨fs, vs, rfl, hf, hr⟩ := h
    intro env id store store' i v hst hv
    rw [DVariants.toVariants] at hst ⊢
    cases i with
    | zero =>
      rw [Variants.storesAt] at hst
      have key : (if a.toVAttrs.idPat then fs.writeStored m store' env v else fs.write m env v v) =
          if a.toVAttrs.idPat then (f.toFields m).writeStored m store env v else (f.toFields m).write m env v v := by
        by_cases hp : a.toVAttrs.idPat = true
        · rw [if_pos hp, if_pos hp, hst hp]
          cases did with
          | arg e =>
            rw [DVariants.hasAt] at hv
            exact DFields.writeStored_grows m 0 store f fs hf env v (.inr hv)
          | typed sz W c s =>
            rw [DVariants.hasAt, if_pos (show a.kind.isPat = true from hp)] at hv
            exact DFields.writeStored_grows m W store f fs hf env v (.inl hv)
        · rw [if_neg hp, if_neg hp]
          refine DFields.write_grows m f fs hf env v v ?_
          cases did with
          | arg e => rw [DVariants.hasAt] at hv; exact hv
          | typed sz W c s => rw [DVariants.hasAt, if_neg (show ¬ a.kind.isPat = true from hp)] at hv; exact hv
      unfold Variants.writeAt
      dsimp only
      generalize a.toVAttrs.id = x at *
      cases id <;> cases x <;> first | exact key | (dsimp only; rw [key])
    | succ i =>
      rw [Variants.writeAt, Variants.writeAt]
      rw [DVariants.hasAt] at hv
      exact DVariants.write_grows m did rest vs hr env id store store' i v hst hv
termination_by structural ds => ds

end

end Deku
