import Verif.Lemmas.Append
import Verif.Lemmas.GrowSource

/-! # Fields added at the end, in the source -/

namespace Deku

/-- The fields come from a definition. -/
def FromDef (m : Machine) (fs : Fields) : Prop := ∃ ds : DFields, fs = ds.toFields m

theorem FEdit.cut_elems : ∀ (e : FEdit) (u : Val) (i : Nat), i < e.kept → (e.cut u).elems[i]? = u.elems[i]?
  | .same, _, _, _ => by rw [FEdit.cut]
  | .more, _, _, h => by simp [FEdit.kept] at h
  | .last _, _, _, h => by simp [FEdit.kept] at h
  | .temp e, u, i, h => by
    rw [FEdit.cut]
    exact e.cut_elems u i (by simpa [FEdit.kept] using h)
  | .field e, u, i, h => by
    rw [FEdit.kept] at h
    cases u with
    | cons x xs =>
      rw [FEdit.cut]
      cases i with
      | zero => simp [Val.elems]
      | succ i =>
        simp only [Val.elems, List.getElem?_cons_succ]
        exact e.cut_elems xs i (by omega)
    | _ => simp only [FEdit.cut]

theorem Temp.eval_cut (t : Temp) (e : FEdit) (h : t.field < e.kept) (u : Val) : t.eval (e.cut u) = t.eval u := by
  unfold Temp.eval
  rw [e.cut_elems u _ h]

theorem SAttrs.emit_none {a : SAttrs} {da : DAttrs} {d : Def} {r ds : DFields} (ht : a.temp = none)
    (h : a.emit da d r = some ds) : a.validate = true ∧ ds = .cons da d r := by
  unfold SAttrs.emit at h
  split at h
  · rename_i hv _; cases h; exact ⟨hv, rfl⟩
  · rename_i h2; rw [ht] at h2; cases h2
  · cases h

theorem SAttrs.emit_some {a : SAttrs} {da : DAttrs} {d : Def} {r ds : DFields} (ht : a.temp.isSome = true)
    (h : a.emit da d r = some ds) : ∃ v, a.temp = some v ∧ a.validate = true ∧ ds = .temp da d v r := by
  unfold SAttrs.emit at h
  split at h
  · rename_i h2; rw [h2] at ht; cases ht
  · rename_i v hv h2; cases h; exact ⟨v, h2, hv, rfl⟩
  · cases h

theorem SAttrs.bare_toAttrs {a : SAttrs} (h : a.bare = true) (order : Option Order) (dflt : Val) :
    (a.rest order dflt).toAttrs.Bare := by
  simp only [SAttrs.bare, Bool.and_eq_true, Option.isNone_iff_eq_none] at h
  obtain ⟨⟨⟨⟨⟨h1, h2⟩, h3⟩, h4⟩, h5⟩, h6⟩ := h
  constructor <;> intros <;>
    simp [SAttrs.rest, DAttrs.toAttrs, h1, h2, h3, h4, h5, Attrs.isRead, Attrs.isWritten, padOf]

theorem SAttrs.bare_default {a : SAttrs} (h : a.bare = true) (x y : Option Val) :
    a.defaultValue x = a.defaultValue y := by
  simp only [SAttrs.bare, Bool.and_eq_true, Option.isNone_iff_eq_none] at h
  obtain ⟨⟨⟨⟨⟨h1, h2⟩, h3⟩, h4⟩, h5⟩, h6⟩ := h
  simp only [SAttrs.defaultValue, h1, h2]
  cases a.default <;> rfl

theorem Edit.isVecU8 {e : Edit} {t t' : STy} (h : e.MakesS t t') : t'.isVecU8 = t.isVecU8 := by
  cases e <;> rw [Edit.MakesS] at h
  · rw [h]
  · obtain ⟨_, _, rfl, rfl, _⟩ := h; rfl
  · obtain ⟨_, _, _, rfl, rfl, _⟩ := h; rfl
  · obtain ⟨_, _, _, rfl, rfl, _⟩ := h; rfl
  · obtain ⟨_, _, _, _, rfl, rfl, _⟩ := h; rfl

theorem VEdit.anyPat : ∀ (e : VEdit) (vs vs' : SVariants), e.MakesS vs vs' →
    vs'.anyPat = vs.anyPat ∧ vs'.defaults = vs.defaults
  | .nil, vs, vs', h => by
    rw [VEdit.MakesS] at h
    obtain ⟨rfl, rfl⟩ := h
    exact ⟨rfl, rfl⟩
  | .cons e rest, vs, vs', h => by
    rw [VEdit.MakesS] at h
    obtain ⟨a, fs, fs', ws, ws', rfl, rfl, _, _, _, h⟩ := h
    have := rest.anyPat ws ws' h
    simp only [SVariants.anyPat, SVariants.defaults, this.1, this.2, and_self]

/-- The temporary fields refer to what stays. -/
theorem FEdit.refers_temps (c : Container) (sc : List Arg) (m : Machine) (k : Nat) : ∀ (e : FEdit) (fs fs' : SFields),
    e.MakesS fs fs' → e.refers k fs = true → ∀ ds, fs.elab c sc = some ds → ∀ f ∈ (ds.toFields m).temps,
    ∃ t : Temp, f = t.eval ∧ t.field < k
  | .same, fs, fs', h, hr, ds, hd => by
    cases fs with
    | nil => rw [SFields.elab] at hd; cases hd; simp [DFields.toFields, Fields.temps]
    | cons => simp [FEdit.refers] at hr
  | .more, fs, fs', h, hr, ds, hd => by
    rw [FEdit.MakesS] at h
    subst h
    rw [SFields.elab] at hd; cases hd; simp [DFields.toFields, Fields.temps]
  | .field e, fs, fs', h, hr, ds, hd => by
    rw [FEdit.MakesS] at h
    obtain ⟨a, t, rest, rest', rfl, rfl, ha, h⟩ := h
    rw [FEdit.refers] at hr
    simp only [SFields.elab, Option.bind_eq_bind, Option.bind_eq_some_iff] at hd
    obtain ⟨endian, h1, order, h2, ctx, h3, dflt, h4, d, h5, r, h6, h7⟩ := hd
    obtain ⟨_, rfl⟩ := SAttrs.emit_none ha h7
    rw [DFields.toFields, Fields.temps]
    exact e.refers_temps c sc m k rest rest' h hr r h6
  | .temp e, fs, fs', h, hr, ds, hd => by
    rw [FEdit.MakesS] at h
    obtain ⟨a, t, rest, rest', rfl, rfl, ha, h⟩ := h
    rw [FEdit.refers] at hr
    simp only [SFields.elab, Option.bind_eq_bind, Option.bind_eq_some_iff] at hd
    obtain ⟨endian, h1, order, h2, ctx, h3, dflt, h4, d, h5, r, h6, h7⟩ := hd
    obtain ⟨v, hv, _, rfl⟩ := SAttrs.emit_some ha h7
    rw [hv] at hr
    simp only [Bool.and_eq_true, decide_eq_true_eq] at hr
    rw [DFields.toFields, Fields.temps]
    intro f hf
    simp only [Option.toList, List.mem_append, List.mem_singleton] at hf
    rcases hf with rfl | hf
    · exact ⟨v, rfl, hr.1⟩
    · exact e.refers_temps c sc m k rest rest' h hr.2 r h6 f hf
  | .last e, fs, fs', h, hr, ds, hd => by
    rw [FEdit.MakesS] at h
    obtain ⟨a, t, t', rfl, rfl, ha, h⟩ := h
    simp only [SFields.elab, Option.bind_eq_bind, Option.bind_eq_some_iff] at hd
    obtain ⟨endian, h1, order, h2, ctx, h3, dflt, h4, d, h5, r, h6, h7⟩ := hd
    simp only [SAttrs.bare, Bool.and_eq_true, Option.isNone_iff_eq_none] at ha
    obtain ⟨_, rfl⟩ := SAttrs.emit_none ha.2 h7
    cases h6
    simp [DFields.toFields, Fields.temps]

mutual

theorem Edit.elab_makes (m : Machine) : ∀ (e : Edit) (old new : STy), e.MakesS old new → ∀ lim args d',
    new.elab lim args = some d' →
    ∃ d, old.elab lim args = some d ∧ e.Makes (FromDef m) (d.toTy m) (d'.toTy m) ∧ e.Temps (d.toTy m)
  | .same, old, new, h, lim, args, d', hd => by
    rw [Edit.MakesS] at h
    subst h
    exact ⟨d', hd, by rw [Edit.Makes], by rw [Edit.Temps]; trivial⟩
  | .option e, old, new, h, lim, args, d', hd => by
    rw [Edit.MakesS] at h
    obtain ⟨t, t', rfl, rfl, h⟩ := h
    simp only [STy.elab, Option.bind_eq_bind, Option.bind_eq_some_iff, Option.pure_def, Option.some.injEq] at hd
    obtain ⟨x', hx', rfl⟩ := hd
    obtain ⟨x, hx, h1, h2⟩ := e.elab_makes m t t' h _ _ x' hx'
    refine ⟨.option x, by simp [STy.elab, hx], ?_, ?_⟩
    · simp only [Def.toTy, Edit.Makes]; exact ⟨_, _, rfl, rfl, h1⟩
    · simp only [Def.toTy, Edit.Temps]; exact h2
  | .pair e, old, new, h, lim, args, d', hd => by
    rw [Edit.MakesS] at h
    obtain ⟨a, b, b', rfl, rfl, h⟩ := h
    simp only [STy.elab, Option.bind_eq_bind, Option.bind_eq_some_iff, Option.pure_def, Option.some.injEq] at hd
    obtain ⟨x, hx, y', hy', rfl⟩ := hd
    obtain ⟨y, hy, h1, h2⟩ := e.elab_makes m b b' h _ _ y' hy'
    refine ⟨.pair x y, by simp [STy.elab, hx, hy], ?_, ?_⟩
    · simp only [Def.toTy, Edit.Makes]; exact ⟨_, _, _, rfl, rfl, h1⟩
    · simp only [Def.toTy, Edit.Temps]; exact h2
  | .struct e, old, new, h, lim, args, d', hd => by
    rw [Edit.MakesS] at h
    obtain ⟨c, fs, fs', rfl, rfl, h, hr⟩ := h
    rw [STy.elab] at hd
    split at hd
    · cases hd
    · rename_i hl
      simp only [Option.bind_eq_bind, Option.bind_eq_some_iff, Option.pure_def, Option.some.injEq] at hd
      obtain ⟨sc, hs, x', hx', rfl⟩ := hd
      obtain ⟨x, hx, h1, h2⟩ := e.elab_makes m fs fs' h c sc x' hx'
      refine ⟨.struct (sc.map Arg.expr) c.magic x, by rw [STy.elab, if_neg hl]; simp [hs, hx], ?_, ?_⟩
      · simp only [Def.toTy, Edit.Makes]; exact ⟨_, _, _, _, _, rfl, rfl, h1⟩
      · simp only [Def.toTy, Edit.Temps]
        refine ⟨fun f hf u => ?_, h2⟩
        obtain ⟨t, rfl, ht⟩ := e.refers_temps c sc m _ fs fs' h hr x hx f hf
        exact t.eval_cut e ht u
  | .enum e, old, new, h, lim, args, d', hd => by
    rw [Edit.MakesS] at h
    obtain ⟨c, id, vs, vs', rfl, rfl, h⟩ := h
    rw [STy.elab, (e.anyPat vs vs' h).2] at hd
    split at hd
    · cases hd
    · rename_i hl
      simp only [Option.bind_eq_bind, Option.bind_eq_some_iff, Option.pure_def, Option.some.injEq] at hd
      obtain ⟨sc, hs, did, hdid, x', hx', rfl⟩ := hd
      rw [(e.anyPat vs vs' h).1] at hdid
      obtain ⟨x, hx, h1, h2⟩ := e.elab_makes m vs vs' h c sc id.size x' hx'
      refine ⟨.enum (sc.map Arg.expr) c.magic did x, by rw [STy.elab, if_neg hl]; simp [hs, hdid, hx], ?_, ?_⟩
      · simp only [Def.toTy, Edit.Makes]; exact ⟨_, _, _, _, _, _, rfl, rfl, h1⟩
      · simp only [Def.toTy, Edit.Temps]; exact h2

theorem FEdit.elab_makes (m : Machine) : ∀ (e : FEdit) (fs fs' : SFields), e.MakesS fs fs' → ∀ c sc ds',
    fs'.elab c sc = some ds' →
    ∃ ds, fs.elab c sc = some ds ∧ e.Makes (FromDef m) (ds.toFields m) (ds'.toFields m) ∧ e.Temps (ds.toFields m)
  | .same, fs, fs', h, c, sc, ds', hd => by
    rw [FEdit.MakesS] at h
    subst h
    exact ⟨ds', hd, by rw [FEdit.Makes], by rw [FEdit.Temps]; trivial⟩
  | .more, fs, fs', h, c, sc, ds', hd => by
    rw [FEdit.MakesS] at h
    subst h
    refine ⟨.nil, by rw [SFields.elab], ?_, by rw [FEdit.Temps]; trivial⟩
    rw [FEdit.Makes, DFields.toFields]
    exact ⟨rfl, ds', rfl⟩
  | .field e, fs, fs', h, c, sc, ds', hd => by
    rw [FEdit.MakesS] at h
    obtain ⟨a, t, rest, rest', rfl, rfl, ha, h⟩ := h
    simp only [SFields.elab, Option.bind_eq_bind, Option.bind_eq_some_iff] at hd
    obtain ⟨endian, h1, order, h2, ctx, h3, dflt, h4, d, h5, r', h6, h7⟩ := hd
    obtain ⟨hv, rfl⟩ := SAttrs.emit_none ha h7
    obtain ⟨r, hr, g1, g2⟩ := e.elab_makes m rest rest' h c sc r' h6
    refine ⟨.cons (a.rest order dflt) d r, ?_, ?_, ?_⟩
    · simp only [SFields.elab, h1, h2, h3, h4, h5, hr, Option.bind_eq_bind, Option.bind_some, SAttrs.emit, hv, ha]
    · simp only [DFields.toFields, FEdit.Makes]; exact ⟨_, _, _, _, rfl, rfl, g1⟩
    · simp only [DFields.toFields, FEdit.Temps]; exact g2
  | .temp e, fs, fs', h, c, sc, ds', hd => by
    rw [FEdit.MakesS] at h
    obtain ⟨a, t, rest, rest', rfl, rfl, ha, h⟩ := h
    simp only [SFields.elab, Option.bind_eq_bind, Option.bind_eq_some_iff] at hd
    obtain ⟨endian, h1, order, h2, ctx, h3, dflt, h4, d, h5, r', h6, h7⟩ := hd
    obtain ⟨v, ht, hv, rfl⟩ := SAttrs.emit_some ha h7
    obtain ⟨r, hr, g1, g2⟩ := e.elab_makes m rest rest' h c sc r' h6
    refine ⟨.temp (a.rest order dflt) d v r, ?_, ?_, ?_⟩
    · simp only [SFields.elab, h1, h2, h3, h4, h5, hr, Option.bind_eq_bind, Option.bind_some, SAttrs.emit, hv, ht]
    · simp only [DFields.toFields, FEdit.Makes]; exact ⟨_, _, _, _, _, rfl, rfl, g1⟩
    · simp only [DFields.toFields, FEdit.Temps]; exact g2
  | .last e, fs, fs', h, c, sc, ds', hd => by
    rw [FEdit.MakesS] at h
    obtain ⟨a, t, t', rfl, rfl, ha, h⟩ := h
    simp only [SFields.elab, Option.bind_eq_bind, Option.bind_eq_some_iff] at hd
    obtain ⟨endian, h1, order, h2, ctx, h3, dflt, h4, d', h5, r', h6, h7⟩ := hd
    have ht : a.temp = none := by
      simp only [SAttrs.bare, Bool.and_eq_true, Option.isNone_iff_eq_none] at ha
      exact ha.2
    obtain ⟨hv, rfl⟩ := SAttrs.emit_none ht h7
    cases h6
    rw [Edit.isVecU8 h] at h5
    rw [SAttrs.bare_default ha t'.default t.default] at h4
    have hx : ∃ d, a.fast t.isVecU8 (fieldArgs endian a.bits a.bytes order ctx)
        (t.elab a.limit (fieldArgs endian a.bits a.bytes order ctx)) = some d ∧
        e.Makes (FromDef m) (d.toTy m) (d'.toTy m) ∧ e.Temps (d.toTy m) := by
      unfold SAttrs.fast at h5 ⊢
      split at h5
      · rename_i n hn hu
        cases e with
        | same =>
          rw [Edit.MakesS] at h
          subst h
          exact ⟨d', h5, by rw [Edit.Makes], by rw [Edit.Temps]; trivial⟩
        | option e => rw [Edit.MakesS] at h; obtain ⟨_, _, rfl, rfl, _⟩ := h; cases hu
        | pair e => rw [Edit.MakesS] at h; obtain ⟨_, _, _, rfl, rfl, _⟩ := h; cases hu
        | struct e => rw [Edit.MakesS] at h; obtain ⟨_, _, _, rfl, rfl, _⟩ := h; cases hu
        | enum e => rw [Edit.MakesS] at h; obtain ⟨_, _, _, _, rfl, rfl, _⟩ := h; cases hu
      · exact e.elab_makes m t t' h _ _ d' h5
    obtain ⟨d, hd, g1, g2⟩ := hx
    refine ⟨.cons (a.rest order dflt) d .nil, ?_, ?_, ?_⟩
    · simp only [SFields.elab, h1, h2, h3, h4, hd, Option.bind_eq_bind, Option.bind_some, SAttrs.emit, hv, ht]
    · simp only [DFields.toFields, FEdit.Makes]
      exact ⟨_, _, _, rfl, rfl, SAttrs.bare_toAttrs ha _ _, g1⟩
    · simp only [DFields.toFields, FEdit.Temps]; exact g2

theorem VEdit.elab_makes (m : Machine) : ∀ (e : VEdit) (vs vs' : SVariants), e.MakesS vs vs' → ∀ c sc typed ds',
    vs'.elab c sc typed = some ds' →
    ∃ ds, vs.elab c sc typed = some ds ∧ e.Makes (FromDef m) (ds.toVariants m) (ds'.toVariants m) ∧
      e.Temps (ds.toVariants m)
  | .nil, vs, vs', h, c, sc, typed, ds', hd => by
    rw [VEdit.MakesS] at h
    obtain ⟨rfl, rfl⟩ := h
    rw [SVariants.elab] at hd
    cases hd
    refine ⟨.nil, by rw [SVariants.elab], ?_, by rw [VEdit.Temps]; trivial⟩
    rw [VEdit.Makes, DVariants.toVariants]
    exact ⟨rfl, rfl⟩
  | .cons e rest, vs, vs', h, c, sc, typed, ds', hd => by
    rw [VEdit.MakesS] at h
    obtain ⟨a, fs, fs', ws, ws', rfl, rfl, h, hr, hp, hw⟩ := h
    obtain ⟨x', y', hx', hy', rfl⟩ := SVariants.elab_cons c sc typed a fs' ws' ds' hd
    obtain ⟨y, hy, k1, k2⟩ := rest.elab_makes m ws ws' hw c sc typed y' hy'
    have hx : ∃ x, (if a.kind.isPat then fs.elabStored c sc typed else fs.elab c sc) = some x ∧
        e.Makes (FromDef m) (x.toFields m) (x'.toFields m) ∧ e.Temps (x.toFields m) ∧
        ∀ f ∈ (x.toFields m).temps, ∀ u, f (e.cut u) = f u := by
      by_cases hk : a.kind.isPat = true
      · rw [if_pos hk] at hx' ⊢
        have hl := hp hk
        cases e with
        | same =>
          rw [FEdit.MakesS] at h
          subst h
          exact ⟨x', hx', by rw [FEdit.Makes], by rw [FEdit.Temps]; trivial, fun f _ u => by rw [FEdit.cut]⟩
        | more => exact absurd hl (by simp [FEdit.keepsFirst])
        | last e => exact absurd hl (by simp [FEdit.keepsFirst])
        | field e =>
          rw [FEdit.MakesS] at h
          obtain ⟨b, t, l, l', rfl, rfl, hb, h⟩ := h
          unfold SFields.elabStored at hx' ⊢
          split at hx'
          · rename_i W W'
            split at hx'
            · rename_i hc
              simp only [Option.bind_eq_bind, Option.bind_eq_some_iff, Option.pure_def, Option.some.injEq] at hx'
              obtain ⟨z', hz', rfl⟩ := hx'
              obtain ⟨z, hz, g1, g2⟩ := e.elab_makes m l l' h c sc z' hz'
              refine ⟨_, by rw [if_pos hc, hz]; rfl, ?_, ?_, ?_⟩
              · simp only [DFields.toFields, FEdit.Makes]; exact ⟨_, _, _, _, rfl, rfl, g1⟩
              · simp only [DFields.toFields, FEdit.Temps]; exact g2
              · rw [DFields.toFields, Fields.temps]
                intro f hf u
                rcases hr with hr | hr
                · cases hr
                · rw [FEdit.refers] at hr
                  obtain ⟨t, rfl, ht⟩ := e.refers_temps c sc m _ l l' h hr z hz f hf
                  exact t.eval_cut (.field e) ht u
            · cases hx'
          · cases hx'
        | temp e =>
          rw [FEdit.MakesS] at h
          obtain ⟨b, t, l, l', rfl, rfl, hb, h⟩ := h
          unfold SFields.elabStored at hx'
          split at hx'
          · split at hx'
            · rename_i hc
              have := hc.1
              simp only [SAttrs.anySet, Bool.or_eq_false_iff] at this
              simp_all
            · cases hx'
          · cases hx'
      · rw [if_neg hk] at hx' ⊢
        obtain ⟨x, hx, g1, g2⟩ := e.elab_makes m fs fs' h c sc x' hx'
        refine ⟨x, hx, g1, g2, fun f hf u => ?_⟩
        rcases hr with rfl | hr
        · rw [FEdit.cut]
        · obtain ⟨t, rfl, ht⟩ := e.refers_temps c sc m _ fs fs' h hr x hx f hf
          exact t.eval_cut e ht u
    obtain ⟨x, hx, g1, g2, g3⟩ := hx
    refine ⟨.cons a x y, ?_, ?_, ?_⟩
    · rw [SVariants.elab]
      by_cases hk : a.kind.isPat = true
      · rw [if_pos hk] at hx ⊢; simp [hx, hy]
      · rw [if_neg hk] at hx ⊢; simp [hx, hy]
    · simp only [DVariants.toVariants, VEdit.Makes]
      exact ⟨_, _, _, _, _, rfl, rfl, g1, hp, k1⟩
    · simp only [DVariants.toVariants, VEdit.Temps]
      exact ⟨g3, g2, k2⟩

end

end Deku
