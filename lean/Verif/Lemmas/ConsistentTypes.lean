import Verif.Lemmas.Consistent

/-! # Consistent values of a source are written as described and parsed from it -/

namespace Deku

open Prim Coll

variable {o : Order}

/-! ### defaults -/

mutual

theorem STy.isDefault_eq : ∀ (t : STy) (d v : Val), t.default = some d → t.isDefault v = true → v = d
  | .base b, d, v, h, hv => by
    rw [STy.default] at h
    rw [STy.isDefault] at hv
    cases b <;> simp only [Base.default, Option.some.injEq, reduceCtorEq] at h <;> subst h <;>
      exact of_decide_eq_true hv
  | .option _, d, v, h, hv => by
    rw [STy.default] at h
    rw [STy.isDefault] at hv
    cases h
    exact of_decide_eq_true hv
  | .array n t, d, v, h, hv => by
    simp only [STy.default, Option.bind_eq_bind, Option.bind_eq_some_iff, Option.pure_def, Option.some.injEq] at h
    obtain ⟨x, h1, rfl⟩ := h
    simp only [STy.isDefault, Bool.and_eq_true, decide_eq_true_eq, List.all_eq_true] at hv
    obtain ⟨⟨h2, h3⟩, h4⟩ := hv
    rw [← ofList_elems h2]
    congr 1
    exact List.eq_replicate_iff.2 ⟨h3, fun y hy => STy.isDefault_eq t x y h1 (h4 y hy)⟩
  | .pair a b, d, v, h, hv => by
    simp only [STy.default, Option.bind_eq_bind, Option.bind_eq_some_iff, Option.pure_def, Option.some.injEq] at h
    obtain ⟨x, h1, y, h2, rfl⟩ := h
    rw [STy.isDefault.eq_def] at hv
    dsimp only at hv
    split at hv
    · rw [Bool.and_eq_true] at hv
      rw [STy.isDefault_eq a _ _ h1 hv.1, STy.isDefault_eq b _ _ h2 hv.2]
    · cases hv
  | .vec _ _, d, v, h, hv => by
    rw [STy.default] at h
    rw [STy.isDefault] at hv
    cases h
    exact of_decide_eq_true hv
  | .struct _ fs, d, v, h, hv => by
    rw [STy.default] at h
    rw [STy.isDefault] at hv
    exact SFields.isDefault_eq fs d v h hv
  | .enum _ _ _, d, v, h, hv => by rw [STy.default] at h; cases h

theorem SFields.isDefault_eq : ∀ (fs : SFields) (d v : Val), fs.default = some d → fs.isDefault v = true → v = d
  | .nil, d, v, h, hv => by
    rw [SFields.default] at h
    rw [SFields.isDefault] at hv
    cases h
    exact of_decide_eq_true hv
  | .cons a t tl, d, v, h, hv => by
    rw [SFields.default] at h
    simp only [Option.bind_eq_bind, Option.bind_eq_some_iff] at h
    obtain ⟨xs, h1, h⟩ := h
    rw [SFields.isDefault.eq_def] at hv
    dsimp only at hv
    by_cases ht : a.temp.isSome = true
    · rw [if_pos ht] at h hv
      cases h
      exact SFields.isDefault_eq tl _ v h1 hv
    · rw [if_neg ht] at h hv
      simp only [Option.bind_eq_some_iff, Option.pure_def, Option.some.injEq] at h
      obtain ⟨x, h2, rfl⟩ := h
      split at hv
      · rw [Bool.and_eq_true] at hv
        rw [STy.isDefault_eq t _ _ h2 hv.1, SFields.isDefault_eq tl _ _ h1 hv.2]
      · cases hv

end

/-! ### fields -/

theorem SAttrs.isRead_rest (a : SAttrs) (order : Option Order) (dflt : Val) {env env' : Env} (h : env.Same env') :
    (a.rest order dflt).toAttrs.isRead env = a.parsed env' := by
  simp only [Attrs.isRead, DAttrs.toAttrs, SAttrs.rest, SAttrs.parsed]
  cases a.skip with
  | none => cases a.cond with
    | none => rfl
    | some c => exact Cond.eval_same h c
  | some s =>
    cases a.cond with
    | none => cases s <;> rfl
    | some c => cases s <;> simp only [Option.map_some, Cond.eval_same h]

theorem SAttrs.unread_default (a : SAttrs) (t : STy) (dflt x : Val) {env : Env} (hd : a.defaultValue t.default = some dflt)
    (hp : a.parsed env = false) (hx : (match a.default with | some d => decide (x = d) | none => t.isDefault x) = true) :
    x = dflt := by
  unfold SAttrs.defaultValue at hd
  unfold SAttrs.parsed at hp
  cases hdf : a.default with
  | some d =>
    rw [hdf] at hd hx
    cases hd
    exact of_decide_eq_true hx
  | none =>
    rw [hdf] at hd hx
    refine t.isDefault_eq dflt x ?_ hx
    cases hsk : a.skip with
    | none =>
      cases hcd : a.cond with
      | none => rw [hsk, hcd] at hp; cases hp
      | some c => rw [hsk, hcd] at hd; exact hd
    | some s =>
      rw [hsk] at hp hd
      cases s with
      | write => cases hp
      | _ => exact hd

theorem padFun_eq (n : Option Nat) :
    (n.map fun n _ => n : Option (Env → Int)) = n.map fun (n : Nat) (_ : Env) => (n : Int) := by
  cases n <;> rfl

theorem SAttrs.rest_before (a : SAttrs) (order : Option Order) (dflt : Val) : (a.rest order dflt).toAttrs.padBefore =
    (padOf a.padBitsBefore a.padBytesBefore).map fun (n : Nat) (_ : Env) => (n : Int) := padFun_eq _

theorem SAttrs.rest_after (a : SAttrs) (order : Option Order) (dflt : Val) : (a.rest order dflt).toAttrs.padAfter =
    (padOf a.padBitsAfter a.padBytesAfter).map fun (n : Nat) (_ : Env) => (n : Int) := padFun_eq _

theorem Carries.mark {α : Type} {f : M Reader α} {g : M Writer Unit} {l : List Piece} {v : α} (a : SAttrs) (t : STy)
    (h : Carries o f g l v) : Carries o f g (a.mark t ++ l) v := by
  unfold SAttrs.mark
  split
  · exact Carries.strict fun p _ hp => h p hp
  · exact h

theorem SAttrs.carries (native : Endian) (a : SAttrs) (t : STy) (order : Option Order) (dflt : Val)
    (ho : (a.padBitsBefore.isNone && a.padBytesBefore.isNone && a.padBitsAfter.isNone && a.padBytesAfter.isNone) = true ∨
      order.getD .msb0 = o) (hd : a.defaultValue t.default = some dflt) (args : List Arg) (value : Val → Bool)
    (rd : Env → M Reader Val) (wr : Env → Val → M Writer Unit) {env env' : Env} (hs : env.Same env') (x : Val)
    (l : List Piece) (hc : a.consistent t args value env' x = true)
    (h : ∀ e : Env, e.Same env' → value x = true →
      (a.count.isSome = true → t.isVecU8 = true → bitSized args = false ∧ x.elems.length < 2 ^ 61) →
      Carries o (rd e) (wr e x) l x)
    (hn : t.isOption = true → x = .none → l = [] ∧ ∀ e, wr e x = pure ()) :
    Carries o ((a.rest order dflt).toAttrs.read native rd env) ((a.rest order dflt).toAttrs.write native wr env x)
      (a.wire o env' l) x := by
  have hp1 : (padOf a.padBitsBefore a.padBytesBefore).isNone = true ∨ order.getD .msb0 = o := by
    refine ho.imp (fun h => ?_) id
    simp only [Bool.and_eq_true, Option.isNone_iff_eq_none] at h
    rw [h.1.1.1, h.1.1.2]; rfl
  have hp2 : (padOf a.padBitsAfter a.padBytesAfter).isNone = true ∨ order.getD .msb0 = o := by
    refine ho.imp (fun h => ?_) id
    simp only [Bool.and_eq_true, Option.isNone_iff_eq_none] at h
    rw [h.1.2, h.2]; rfl
  unfold SAttrs.consistent at hc
  simp only [Bool.and_eq_true] at hc
  obtain ⟨⟨⟨hv, ha⟩, hb1⟩, hb2⟩ := hc
  rw [Attrs.read_eq rfl rfl, Attrs.write_eq rfl rfl, a.rest_before, a.rest_after]
  unfold SAttrs.wire
  rw [List.append_assoc, List.append_assoc]
  refine Carries.bind (Carries.magic native a.magic) (Carries.bind (v := ()) ?_ ?_)
  · have := Carries.pad order (padOf a.padBitsBefore a.padBytesBefore) hp1
      (by rw [padOf_getD]; exact of_decide_eq_true hb1) env env
    rw [padOf_getD] at this
    exact this
  · have hch : ∀ {τ : Type}, ((a.rest order dflt).toAttrs.check (env.at 0) x : M τ Unit) = pure () := by
      intro τ
      unfold Attrs.check
      rw [if_neg (by simp [DAttrs.toAttrs])]
      simp only [DAttrs.toAttrs, SAttrs.rest]
      cases he : a.assertEq with
      | none => rfl
      | some e =>
        rw [he] at ha
        have ha := of_decide_eq_true ha
        simp only [Option.map_some, Expr.val]
        rw [Expr.eval_same (hs.at 0), if_neg (by simpa using ha)]
    rw [hch, M.pure_bind]
    refine Carries.bind (v := x) ?_ ?_
    · unfold Attrs.value Attrs.put
      rw [a.isWritten_rest order dflt (hs.at _), a.isRead_rest order dflt (hs.at _)]
      by_cases hr : a.parsed env' = true
      · rw [if_pos hr] at hv ⊢
        simp only [Bool.and_eq_true] at hv
        rw [if_pos hv.1.1, if_pos hv.1.1]
        refine Carries.map (h _ (hs.at _) hv.1.2 fun h1 h2 => ?_) id
        have h3 := hv.2
        rw [h1, h2] at h3
        simpa using h3
      · rw [if_neg hr] at hv ⊢
        rw [Bool.and_eq_true] at hv
        have hx := a.unread_default t dflt x hd (by simpa using hr) hv.1
        have e : (a.rest order dflt).toAttrs.default (env.at 0) = x := by rw [hx]; rfl
        rw [e]
        by_cases hw : a.written env' = true
        · rw [if_pos hw, if_pos hw]
          have h2 := hv.2
          rw [hw] at h2
          simp only [Bool.not_true, Bool.false_or, Bool.and_eq_true, decide_eq_true_eq] at h2
          obtain ⟨rfl, hwr⟩ := hn h2.1 h2.2
          have := hwr (env.at 0)
          show Carries o (pure x) (wr (env.at 0) x) [] x
          rw [this]
          exact Carries.pure _
        · rw [if_neg hw, if_neg hw]
          exact Carries.pure _
    · have hp := Carries.pad order (padOf a.padBitsAfter a.padBytesAfter) hp2
        (by rw [padOf_getD]; exact of_decide_eq_true hb2) ((env.at 0).push x) ((env.at 0).push x)
      rw [padOf_getD] at hp
      rw [hch, M.pure_bind]
      exact hp.map fun _ => x

/-! ### lists -/

theorem Lim.good_same {a b : Env} (h : a.Same b) (l : Lim) (vs : List Val) (n : Nat) (sm : Bool) :
    l.good a vs n sm = l.good b vs n sm := by
  cases l <;> simp only [Lim.good, Expr.eval_same h]

theorem vec_carries {f : M Reader Val} {g : Val → M Writer Unit} {x : Val → List Piece} {mem : Nat} {l : Lim}
    {env env' : Env} (hs : env.Same env') {v : Val} (hl : v.isList = true) (hm : v.elems.length ≤ mem)
    (h : ∀ y ∈ v.elems, Carries o f (g y) (x y) y)
    (hg : l.good env' v.elems (flat (v.elems.flatMap x)).length (v.elems.all fun y => !(flat (x y)).isEmpty) = true) :
    Carries o (do let lim ← l.toLimit.eval env; let vs ← Coll.vecRead mem 1 f lim; pure (Val.ofList vs))
      (Coll.writeAll g v.elems) (v.elems.flatMap x) v := by
  intro p hp
  have hL := Carries.pieces h hp
  rw [flat_flatMap]
  refine ⟨hL.writes, ?_⟩
  rw [← Lim.good_same hs, flat_flatMap] at hg
  obtain ⟨h1, h2⟩ := Lim.fits (R := (· = p)) (len := fun _ n => ((v.elems.map fun v => flat (x v)).flatten).length = n)
    hg fun _ _ _ e => e.symm
  have hR := vec_reads hL (by omega : 1 ≠ 0) hm h1 fun hz y hy => by
    have := h2 hz
    rw [List.all_eq_true] at this
    rw [List.mem_map] at hy
    obtain ⟨z, hz, rfl⟩ := hy
    simpa using this z hz
  intro r tl hr hu
  obtain ⟨r', e, s⟩ := hR r tl hr hu
  refine ⟨r', ?_, s⟩
  obtain ⟨lim, r1, e1, e2⟩ := M.bind_eq_ok e
  rw [M.bind_ok e1, M.bind_ok e2]
  simp [ofList_elems hl]

theorem array_carries {f : M Reader Val} {g : Val → M Writer Unit} {x : Val → List Piece} {n : Nat} {v : Val}
    (hl : v.isList = true) (hn : v.elems.length = n) (h : ∀ y ∈ v.elems, Carries o f (g y) (x y) y) :
    Carries o (do let vs ← Coll.arrayRead f n; pure (Val.ofList vs)) (Coll.writeAll g v.elems) (v.elems.flatMap x) v := by
  intro p hp
  have hL := Carries.pieces h hp
  rw [flat_flatMap]
  refine ⟨hL.writes, ?_⟩
  have : Reads o p (arrayRead f n) (v.elems.map fun v => flat (x v)).flatten v.elems := by
    intro r tl hr hu
    obtain ⟨tr, r', ht, hmap, hs, _⟩ := hL.trace hr hu
    refine ⟨r', ?_, hs⟩
    rw [arrayRead_eq, ← hn]
    exact readN_trace.2 ⟨tr, ht, hmap⟩
  have h2 := this.map Val.ofList
  rwa [ofList_elems hl] at h2

theorem writeAll_writes {α : Type} {g : α → M Writer Unit} {x : α → List Piece} :
    ∀ {vs : List α} {p : Nat}, (∀ v ∈ vs, ∀ p, settled o p (x v) = true → Writes o p (g v) (flat (x v))) →
      settled o p (vs.flatMap x) = true → Writes o p (Coll.writeAll g vs) (flat (vs.flatMap x))
  | [], p, _, _ => Writes.pure o p
  | v :: vs, p, h, hp => by
    rw [List.flatMap_cons, settled_append, Bool.and_eq_true] at hp
    rw [List.flatMap_cons, flat_append]
    exact (h v List.mem_cons_self p hp.1).bind
      (writeAll_writes (fun v hv => h v (List.mem_cons_of_mem _ hv)) hp.2)

/-- A list of bytes is read as bytes. -/
theorem byteVec_carries {m : Machine} {args : List Arg} {ctx : IntCtx} (h : intArgs args = some ctx)
    (hb : bitSized args = false) (hz : intSized args 1 = true) (hm : intOrdered o m.native args 1 = true) {env env' : Env}
    (hs : env.Same env') (v : Val) (n : Expr) (hl : v.isList = true)
    (hv : ∀ x ∈ v.elems, Base.has (.uint 1) x = true) (hn : n.eval env' = v.elems.length) (h61 : v.elems.length < 2 ^ 61) :
    Carries o (((Def.bytes n ctx).toTy m).read m env) (((Def.bytes n ctx).toTy m).write m env v)
      ([⟨false, true, []⟩] ++ v.elems.flatMap fun x => Base.wire o m.native args (.uint 1) x) v := by
  have hv' : ∀ x ∈ v.elems, x = Val.ofByte (Val.toByte x) := by
    intro x hx
    have := hv x hx
    cases x with
    | num k => exact (ofByte_toByte k).2 (by simpa [Base.has] using this)
    | _ => cases this
  have hby : v.isBytes = true := by
    simp only [Val.isBytes, hl, Bool.true_and, List.all_eq_true, decide_eq_true_eq]
    exact hv'
  refine Carries.strict fun p hp hset => ?_
  rw [Def.toTy, Ty.read, Ty.write, if_pos hby]
  have hw8 := intArgs_whole h hb 1
  have hsz := of_decide_eq_true hz
  have e8 : (sizeOf? args).getD (8 * 1) = 8 := by omega
  have e : (v.elems.flatMap fun x => Base.wire o m.native args (.uint 1) x) =
      (v.elems.map Val.toByte).flatMap fun b => [intPiece o m.native args 1 b.toNat] := by
    rw [List.flatMap_map, List.flatMap_def, List.flatMap_def]
    congr 1
    refine List.map_congr_left fun x hx => ?_
    conv => lhs; rw [hv' x hx]
    rfl
  rw [e] at hset ⊢
  have h1 : Writes o p (Coll.writeAll (Coll.u8Write m.native ctx) (v.elems.map Val.toByte)) _ :=
    writeAll_writes (fun b _ p hp => by
      rw [flat_one]
      refine uint_writes h hz hm (fun ho _ => (settled_one hp).1 ho (by simp [intPiece, hb])) ?_
      rw [e8]; exact b.isLt) hset
  refine ⟨h1, ?_⟩
  rw [h1.unique (byteList_writes m.native (by rw [intArgs_bits h, hb]) _ fun _ => hp)]
  obtain ⟨_, hmap⟩ := isBytes_elems hby
  intro r tl hr hu
  have hR := readExact_reads (o := o) hp (v.elems.map Val.toByte)
  rw [List.length_map] at hR
  obtain ⟨r', e, s⟩ := hR r tl hr hu
  refine ⟨r', ?_, s⟩
  rw [Expr.eval_same hs, hn, M.bind_ok (toUsize_nat (by omega) r), M.bind_ok e, hmap, ofList_elems hl]
  rfl

/-! ### ids -/

theorem VKind.hits_takes (k : VKind) (n : Int) : k.hits (.num n) = k.takes n := by cases k <;> rfl

theorem SVariants.kinds_heads (c : Container) (sc : List Arg) (typed : Option Nat) : ∀ (vs : SVariants) (ds : DVariants),
    vs.elab c sc typed = some ds → ds.kinds = vs.heads
  | .nil, ds, h => by
    simp only [SVariants.elab, Option.some.injEq] at h
    subst h
    rfl
  | .cons a fs tl, ds, h => by
    obtain ⟨fs', rest', _, h2, rfl⟩ := SVariants.elab_cons c sc _ a fs tl ds h
    rw [DVariants.kinds, SVariants.heads, SVariants.kinds_heads c sc typed tl rest' h2]

theorem SVariants.select_picks (c : Container) (sc : List Arg) (typed : Option Nat) (m : Machine) (vs : SVariants)
    (ds : DVariants) (h : vs.elab c sc typed = some ds) (env : Env) (n : Int) (i : Nat) (hp : vs.picks n i = true) :
    (ds.toVariants m).select env (.num n) = some i := by
  have hp := of_decide_eq_true hp
  rw [DVariants.select_eq, DVariants.select, SVariants.kinds_heads c sc typed vs ds h]
  simp only [VKind.hits_takes]
  cases hf : vs.heads.findIdx? fun a => a.kind.takes n with
  | some k => rw [hf] at hp; exact hp
  | none => rw [hf] at hp; exact hp

/-! ### definitions -/

theorem isVecU8_eq {z : Bool} {t : STy} (h : (STy.vec z t).isVecU8 = true) : t = .base (.uint 1) := by
  unfold STy.isVecU8 at h
  split at h
  · rename_i e; cases e; rfl
  · cases h

mutual

theorem STy.carries (m : Machine) : ∀ (t : STy) (lim : Option Lim) (lims : List Lim) (args : List Arg) (d : Def),
    t.ordered o m.native args = true → t.idsNamed = true → t.sized args = true → t.elab lim args = some d →
    (∀ l, lim = some l → l ∈ lims) → ∀ (env env' : Env), env.Same env' → ∀ v,
    t.consistent o m lims args env' v = true →
    Carries o ((d.toTy m).read m env) ((d.toTy m).write m env v) (t.wire o m.native args env' v) v
  | .base b, lim, lims, args, d, hm, _, hz, h, _, env, env', hs, v, hc => by
    rw [STy.elab] at h
    split at h
    · cases h
    · simp only [Option.bind_eq_bind, Option.bind_eq_some_iff, Option.pure_def, Option.some.injEq] at h
      obtain ⟨l, h1, rfl⟩ := h
      rw [STy.sized] at hz
      rw [STy.ordered] at hm
      rw [STy.consistent] at hc
      rw [Def.toTy, Ty.read, Ty.write, STy.wire]
      exact leaf_carries m args b l h1 hz hm v hc
  | .option t, lim, lims, args, d, hm, hn, hz, h, hl, env, env', hs, v, hc => by
    simp only [STy.elab, Option.bind_eq_bind, Option.bind_eq_some_iff, Option.pure_def, Option.some.injEq] at h
    obtain ⟨x, h1, rfl⟩ := h
    rw [STy.ordered] at hm
    rw [STy.idsNamed] at hn
    rw [STy.sized] at hz
    rw [STy.consistent.eq_def] at hc
    rw [Def.toTy, Ty.read, Ty.write.eq_def, STy.wire.eq_def]
    cases v with
    | some y => exact (STy.carries m t _ lims _ _ hm hn hz h1 hl env env' hs y hc).map Val.some
    | _ => cases hc
  | .array n t, lim, lims, args, d, hm, hn, hz, h, hl, env, env', hs, v, hc => by
    simp only [STy.elab, Option.bind_eq_bind, Option.bind_eq_some_iff, Option.pure_def, Option.some.injEq] at h
    obtain ⟨x, h1, rfl⟩ := h
    rw [STy.ordered] at hm
    rw [STy.idsNamed] at hn
    rw [STy.sized] at hz
    simp only [STy.consistent, Bool.and_eq_true, decide_eq_true_eq, List.all_eq_true] at hc
    rw [Def.toTy, Ty.read, Ty.write, STy.wire, if_pos hc.1]
    exact array_carries hc.1.1 hc.1.2 fun y hy => STy.carries m t _ lims _ _ hm hn hz h1 hl env env' hs y (hc.2 y hy)
  | .pair a b, lim, lims, args, d, hm, hn, hz, h, hl, env, env', hs, v, hc => by
    simp only [STy.elab, Option.bind_eq_bind, Option.bind_eq_some_iff, Option.pure_def, Option.some.injEq] at h
    obtain ⟨x, h1, y, h2, rfl⟩ := h
    rw [STy.ordered, Bool.and_eq_true] at hm
    rw [STy.idsNamed, Bool.and_eq_true] at hn
    rw [STy.sized, Bool.and_eq_true] at hz
    rw [STy.consistent.eq_def] at hc
    rw [Def.toTy, Ty.read, Ty.write.eq_def, STy.wire.eq_def]
    dsimp only at hc ⊢
    split at hc
    · rw [Bool.and_eq_true] at hc
      exact Carries.bind (STy.carries m a _ lims _ _ hm.1 hn.1 hz.1 h1 hl env env' hs _ hc.1)
        ((STy.carries m b _ lims _ _ hm.2 hn.2 hz.2 h2 hl env env' hs _ hc.2).map _)
    · cases hc
  | .vec z t, none, lims, args, d, _, _, _, h, _, _, _, _, _, _ => by simp [STy.elab] at h
  | .vec z t, some l, lims, args, d, hm, hn, hz, h, hl, env, env', hs, v, hc => by
    simp only [STy.elab, Option.bind_eq_bind, Option.bind_eq_some_iff, Option.pure_def, Option.some.injEq] at h
    obtain ⟨x, h1, rfl⟩ := h
    rw [STy.ordered] at hm
    rw [STy.idsNamed] at hn
    rw [STy.sized] at hz
    simp only [STy.consistent, Bool.and_eq_true, decide_eq_true_eq, Bool.not_eq_true'] at hc
    obtain ⟨⟨⟨⟨c1, c2⟩, c3⟩, c4⟩, c5⟩ := hc
    subst c2
    rw [List.all_eq_true] at c4 c5
    rw [Def.toTy, Ty.read, Ty.write, STy.wire, if_pos c1]
    exact vec_carries hs c1 c3 (fun y hy => STy.carries m t none [] _ _ hm hn hz h1 nofun env env' hs y (c4 y hy))
      (c5 l (hl l rfl))
  | .struct c fs, lim, lims, args, d, hm, hn, hz, h, _, env, env', hs, v, hc => by
    rw [STy.elab] at h
    split at h
    · cases h
    · simp only [Option.bind_eq_bind, Option.bind_eq_some_iff, Option.pure_def, Option.some.injEq] at h
      obtain ⟨sc, h1, ds, h2, rfl⟩ := h
      obtain rfl := Container.bind_scope c args sc h1
      rw [STy.ordered] at hm
      rw [STy.idsNamed] at hn
      rw [STy.sized] at hz
      rw [STy.consistent] at hc
      rw [Def.toTy, Ty.read, Ty.write, STy.wire]
      simp only [seekRead, seekWrite, M.pure_bind]
      refine Carries.bind (Carries.magic m.native c.magic) ?_
      refine SFields.carries m c (c.scope args) fs ds hm hn hz h2 _ _ ?_ v v hc
      exact inside_same hs _ ▸ Env.Same.refl _
  | .enum c id vs, lim, lims, args, d, hm, hn, hz, h, _, env, env', hs, v, hc => by
    rw [STy.elab] at h
    split at h
    · cases h
    · rename_i hcond
      simp only [not_or, Bool.not_eq_false] at hcond
      simp only [Option.bind_eq_bind, Option.bind_eq_some_iff, Option.pure_def, Option.some.injEq] at h
      obtain ⟨sc, h1, did, h2, ds, h3, rfl⟩ := h
      obtain rfl := Container.bind_scope c args sc h1
      rw [STy.ordered, Bool.and_eq_true] at hm
      rw [STy.idsNamed, Bool.and_eq_true] at hn
      rw [STy.sized, Bool.and_eq_true] at hz
      have hid := SId.elab_passes c _ _ id did h2 hcond.2.1 hn.1
      rw [STy.consistent.eq_def] at hc
      cases v with
      | variant i fs =>
        rw [Def.toTy, Ty.read_enum, Ty.write.eq_def, STy.wire.eq_def]
        dsimp only at hc ⊢
        refine Carries.bind (Carries.magic m.native c.magic) ?_
        refine SVariants.carries m c (c.scope args) id did hz.1 hm.1 hid _ vs ds hm.2 hn.2 hz.2 h3 i i _ _
          ?_ fs hc _ ?_
        · exact inside_same hs _ ▸ Env.Same.refl _
        · intro n hp
          rw [SVariants.select_picks c _ _ m vs ds h3 _ n i hp]
          rfl
      | _ => cases hc

theorem SFields.carries (m : Machine) (c : Container) (sc : List Arg) :
    ∀ (fs : SFields) (ds : DFields), fs.ordered o m.native c sc = true → fs.idsNamed = true →
    fs.sized c sc = true → fs.elab c sc = some ds → ∀ (env env' : Env), env.Same env' → ∀ all v,
      fs.consistent o m c sc env' all v = true →
      Carries o ((ds.toFields m).read m env) ((ds.toFields m).write m env all v) (fs.wire o m.native c sc env' all v) v
  | .nil, ds, _, _, _, h, env, env', hs, all, v, hc => by
    simp only [SFields.elab, Option.some.injEq] at h
    subst h
    rw [SFields.consistent] at hc
    have hc := of_decide_eq_true hc
    subst hc
    rw [DFields.toFields, Fields.read, Fields.write, SFields.wire, if_pos rfl]
    exact Carries.pure _
  | .cons a t tl, ds, hm, hn, hz, h, env, env', hs, all, v, hc => by
    simp only [SFields.ordered, Bool.and_eq_true] at hm
    obtain ⟨⟨hm1, hm2⟩, hm3⟩ := hm
    rw [SFields.idsNamed, Bool.and_eq_true] at hn
    rw [SFields.sized, Bool.and_eq_true] at hz
    obtain ⟨endian, order, ctx, dflt, d, rest', h1, h2, h3, h4, h5, h6, hv, h7⟩ := SFields.elab_cons c sc a t tl ds h
    rw [a.fieldArgs_passes c sc endian order ctx h1 h2 h3 hv] at h5
    have ho : (a.padBitsBefore.isNone && a.padBytesBefore.isNone && a.padBitsAfter.isNone && a.padBytesAfter.isNone) =
        true ∨ order.getD .msb0 = o := by
      simp only [SAttrs.ordered, Bool.or_eq_true, decide_eq_true_eq] at hm1
      refine hm1.imp id fun h => ?_
      rw [show (fun x : Given Order => x.means Arg.order? sc) = fun x => x.order sc from
        funext (Given.means_order sc), evalOpt_bind _ _ _ h2] at h
      exact h
    have hfield : ∀ x,
        a.consistent t (a.passes c sc) (fun x => t.consistent o m a.limits (a.passes c sc) env' x) env' x = true →
        Carries o ((a.rest order dflt).toAttrs.read m.native ((d.toTy m).read m) env)
          ((a.rest order dflt).toAttrs.write m.native ((d.toTy m).write m) env x)
          (a.wire o env' (a.mark t ++ t.wire o m.native (a.passes c sc) env' x)) x := by
      intro x hx
      refine a.carries m.native t order dflt ho h4 _ _ _ _ hs x _ hx (fun e he hval hby => ?_) fun ht hx => ?_
      · rcases h5 with ⟨n, u, hcount, ht, hu, rfl⟩ | h5
        · have hmark : a.mark t = [⟨false, true, []⟩] := by simp [SAttrs.mark, hcount, ht]
          rw [hmark]
          obtain ⟨hb, h61⟩ := hby (by rw [hcount]; rfl) ht
          cases t with
          | vec z t =>
            obtain rfl := isVecU8_eq ht
            have hz1 := hz.1
            rw [STy.sized, STy.sized] at hz1
            rw [STy.ordered, STy.ordered] at hm2
            simp only [STy.consistent, Bool.and_eq_true, decide_eq_true_eq, List.all_eq_true] at hval
            rw [STy.wire]
            simp only [STy.wire]
            refine byteVec_carries hu hb hz1 hm2 he x n hval.1.1.1.1 (fun y hy => ?_) ?_ h61
            · have := hval.1.2 y hy
              unfold Base.fits at this
              rw [Bool.and_eq_true] at this
              exact this.1
            · have := hval.2 (.count n) (by simp [SAttrs.limits, hcount])
              simp only [Lim.good, decide_eq_true_eq] at this
              exact this.1
          | _ => cases ht
        · exact (STy.carries m t _ _ _ d hm2 hn.1 hz.1 h5 (fun l hl => a.limit_mem l hl) e env' he x hval).mark a t
      · subst hx
        cases t with
        | option t =>
          rcases h5 with ⟨n, u, _, ht, _⟩ | h5
          · cases ht
          · simp only [STy.elab, Option.bind_eq_bind, Option.bind_eq_some_iff, Option.pure_def, Option.some.injEq] at h5
            obtain ⟨x, h1, rfl⟩ := h5
            refine ⟨by simp [SAttrs.mark, STy.isVecU8, STy.wire], fun e => ?_⟩
            rw [Def.toTy, Ty.write]
        | _ => cases ht
    rcases h7 with ⟨ht, rfl⟩ | ⟨f, ht, rfl⟩
    · rw [SFields.consistent.eq_def] at hc
      rw [DFields.toFields, Fields.read, Fields.write.eq_def, SFields.wire.eq_def]
      simp only [ht] at hc ⊢
      cases v with
      | cons x xs =>
        simp only [Bool.and_eq_true] at hc
        exact Carries.bind (hfield x hc.1)
          ((SFields.carries m c sc tl rest' hm3 hn.2 hz.2 h6 _ _ (hs.push x) all xs hc.2).map fun vs => Val.cons x vs)
      | _ => cases hc
    · rw [SFields.consistent.eq_def] at hc
      rw [DFields.toFields, Fields.read, Fields.write.eq_def, SFields.wire.eq_def]
      simp only [ht, Bool.and_eq_true] at hc ⊢
      exact Carries.bind (hfield _ hc.1) (SFields.carries m c sc tl rest' hm3 hn.2 hz.2 h6 _ _ (hs.push _) all v hc.2)

theorem SFields.carriesStored (m : Machine) (c : Container) (sc : List Arg) (idr : M Reader Val)
    (put : Val → M Writer Unit) (bits : Int → Piece) (ok : Int → Bool) (typed : Option Nat)
    (hput : ∀ n, ok n = true → Carries o idr (put (.num n)) [bits n] (.num n)) (whole : Val → M Reader Val) (j : Nat) :
    ∀ (fs : SFields) (ds : DFields), fs.ordered o m.native c sc = true → fs.idsNamed = true →
    fs.sized c sc = true → fs.elabStored c sc typed = some ds → ∀ (env env' : Env), env.Same env' → ∀ v,
      fs.consistentStored o m c ok sc env' v = true →
      (∀ n, ok n = true → whole (.num n) = (ds.toFields m).readStored m env (.num n) >>= fun fs => pure (.variant j fs)) →
      Carries o (idr >>= whole) ((ds.toFields m).writeStored m (fun _ => put) env v)
        (fs.wireStored o m.native c bits sc env' v) (.variant j v)
  | .nil, ds, _, _, _, h, _, _, _, _, _, _ => by simp [SFields.elabStored] at h
  | .cons a t tl, ds, hm, hn, hz, h, env, env', hs, v, hc, hw => by
    obtain ⟨W, _, rest2, rest', _, e, h4, rfl⟩ := SFields.elabStored_inv c sc _ _ ds h
    obtain rfl : tl = rest2 := by cases e; rfl
    rw [SFields.ordered, Bool.and_eq_true] at hm
    rw [SFields.idsNamed, Bool.and_eq_true] at hn
    rw [SFields.sized, Bool.and_eq_true] at hz
    rw [SFields.consistentStored.eq_def] at hc
    rw [DFields.toFields, Fields.writeStored.eq_def, SFields.wireStored.eq_def]
    rw [DFields.toFields] at hw
    cases v with
    | cons x xs =>
      simp only [Bool.and_eq_true] at hc
      obtain ⟨hx, hc⟩ := hc
      cases x with
      | num n =>
        refine Carries.bind (hput n hx) ?_
        rw [hw n hx]
        simp only [Fields.readStored]
        exact ((SFields.carries m c sc tl rest' hm.2 hn.2 hz.2 h4 _ _ (hs.push _) _ xs hc).map
          fun vs => Val.cons (.num n) vs).map _
      | _ => cases hx
    | _ => cases hc

theorem SVariants.carries (m : Machine) (c : Container) (sc : List Arg) (id : SId) (did : DId) (hid : id.sized c sc = true)
    (hio : id.ordered o m.native c sc = true) (hd : id.Gives c sc did) (sel : Int → Bool) :
    ∀ (vs : SVariants) (ds : DVariants), vs.ordered o m.native c sc = true → vs.idsNamed = true →
    vs.sized c id sc = true → vs.elab c sc id.size = some ds → ∀ (i j : Nat) (env env' : Env), env.Same env' → ∀ v,
      vs.consistentAt o m c id sel i sc env' v = true → ∀ whole : Val → M Reader Val,
      (∀ n, sel n = true → whole (.num n) =
        (ds.toVariants m).readAt m env (.num n) (did.toSrc m).isTyped i >>= fun fs => pure (.variant j fs)) →
      Carries o ((did.toSrc m).get env >>= whole)
        ((ds.toVariants m).writeAt m env (did.toSrc m) (did.store m) i v)
        (vs.wireAt o m.native c id i sc env' v) (.variant j v)
  | .nil, ds, _, _, _, h, i, j, env, env', hs, v, hc, _, _ => by rw [SVariants.consistentAt] at hc; cases hc
  | .cons a fs tl, ds, hm, hn, hz, h, i + 1, j, env, env', hs, v, hc, whole, hw => by
    obtain ⟨fs', rest', _, h2, rfl⟩ := SVariants.elab_cons c sc _ a fs tl ds h
    rw [SVariants.ordered, Bool.and_eq_true] at hm
    rw [SVariants.idsNamed, Bool.and_eq_true] at hn
    rw [SVariants.sized, Bool.and_eq_true] at hz
    rw [SVariants.consistentAt] at hc
    rw [DVariants.toVariants, Variants.writeAt, SVariants.wireAt]
    simp only [DVariants.toVariants, Variants.readAt] at hw
    exact SVariants.carries m c sc id did hid hio hd sel tl rest' hm.2 hn.2 hz.2 h2 i j env env' hs v hc whole hw
  | .cons a fs tl, ds, hm, hn, hz, h, 0, j, env, env', hs, v, hc, whole, hw => by
    obtain ⟨fs', rest', h1, h2, rfl⟩ := SVariants.elab_cons c sc _ a fs tl ds h
    rw [SVariants.ordered, Bool.and_eq_true] at hm
    rw [SVariants.idsNamed, Bool.and_eq_true] at hn
    simp only [SVariants.sized, Bool.and_eq_true] at hz
    rw [SVariants.consistentAt.eq_def] at hc
    simp only [DVariants.toVariants, Variants.readAt] at hw
    rw [DVariants.toVariants, Variants.writeAt.eq_def, SVariants.wireAt.eq_def]
    cases id with
    | ctx e =>
      simp only [SId.Gives] at hd
      subst hd
      simp only [Bool.and_eq_true] at hc
      by_cases hk : a.kind.isPat = true
      · rw [if_pos hk] at h1
        obtain ⟨W, _, _, _, ht, _⟩ := SFields.elabStored_inv c sc _ fs fs' h1
        cases ht
      · rw [if_neg hk] at h1
        simp only [DId.toSrc, DVAttrs.toVAttrs, hk, Bool.false_eq_true, if_false, IdSrc.get, M.pure_bind, Expr.val]
        simp only [DId.toSrc, DVAttrs.toVAttrs, hk, Bool.false_eq_true, if_false, Bool.false_and] at hw
        rw [Expr.eval_same hs, hw _ hc.1]
        exact (SFields.carries m c sc fs fs' hm.1 hn.1 hz.1.2 h1 env env' hs v v hc.2).map fun fs => Val.variant j fs
    | typed W e bits bytes =>
      obtain ⟨size, ctx, rfl, hi⟩ := hd
      have hput : ∀ n, unsignedFits ((SId.typed W e bits bytes).passes c sc) W n = true →
          Carries o (uintCodec m.native W ctx).read ((uintCodec m.native W ctx).write (.num n))
            [intPiece o m.native ((SId.typed W e bits bytes).passes c sc) W n] (.num n) := by
        intro n hn
        refine leaf_carries m ((SId.typed W e bits bytes).passes c sc) (.uint W) (.uint W ctx) ?_ hid hio (.num n) ?_
        · simp only [Base.leaf, hi]; rfl
        · simp only [Base.fits, Base.has, hn, Bool.and_true, decide_eq_true_eq]
          have h1 := of_decide_eq_true hn
          refine ⟨h1.1, ?_⟩
          obtain ⟨n, rfl⟩ := Int.eq_ofNat_of_zero_le h1.1
          refine (lt_width _ _).2 ?_
          have h2 : n < 2 ^ (sizeOf? ((SId.typed W e bits bytes).passes c sc)).getD (8 * W) := by exact_mod_cast h1.2
          have h3 := (of_decide_eq_true hid).2.2
          have h4 : 2 ^ (sizeOf? ((SId.typed W e bits bytes).passes c sc)).getD (8 * W) ≤ 2 ^ (8 * W) :=
            Nat.pow_le_pow_right (by omega) h3
          have h5 : (256 : Nat) ^ W = 2 ^ (8 * W) := by rw [Nat.pow_mul]
          omega
      have hstored : a.kind.isPat = true →
          fs.consistentStored o m c (fun n => sel n && unsignedFits ((SId.typed W e bits bytes).passes c sc) W n) sc env' v
            = true →
          Carries o ((uintCodec m.native W ctx).read >>= whole)
            ((fs'.toFields m).writeStored m ((DId.typed size W ctx ctx).store m) env v)
            (fs.wireStored o m.native c (intPiece o m.native ((SId.typed W e bits bytes).passes c sc) W) sc env' v)
            (.variant j v) := by
        intro hk hc
        rw [if_pos hk] at h1
        refine SFields.carriesStored m c sc _ _ _ _ _ (fun n hn => hput n (Bool.and_eq_true_iff.1 hn).2) whole j
          fs fs' hm.1 hn.1 hz.1.2 h1 env env' hs v hc fun n hn => ?_
        rw [hw n (Bool.and_eq_true_iff.1 hn).1]
        simp only [DVAttrs.toVAttrs, hk, DId.toSrc, IdSrc.isTyped, Bool.and_self, if_true]
      obtain ⟨k, dflt⟩ := a
      cases k with
      | id n =>
        simp only [Bool.and_eq_true] at hc
        rw [if_neg (by simp [VKind.isPat])] at h1
        refine Carries.bind (hput n hc.1.2) ?_
        rw [hw n hc.1.1]
        exact (SFields.carries m c sc fs fs' hm.1 hn.1 hz.1.2 h1 env env' hs v v hc.2).map fun fs => Val.variant j fs
      | any => exact hstored rfl hc
      | range lo hi => exact hstored rfl hc

end

end Deku
