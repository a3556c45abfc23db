import Verif.Spec.Source
import Verif.Spec.Core

/-! # Lemmas about sources -/

namespace Deku

theorem SVariants.spread_defaults (c : Container) : ∀ vs : SVariants, (vs.spread c).defaults = vs.defaults
  | .nil => by simp [SVariants.spread]
  | .cons a fs rest => by
    rw [SVariants.spread, SVariants.defaults, SVariants.defaults, SVariants.spread_defaults c rest]

theorem SVariants.spread_anyPat (c : Container) : ∀ vs : SVariants, (vs.spread c).anyPat = vs.anyPat
  | .nil => by simp [SVariants.spread]
  | .cons a fs rest => by
    rw [SVariants.spread, SVariants.anyPat, SVariants.anyPat, SVariants.spread_anyPat c rest]

mutual

theorem STy.spread_default : ∀ t : STy, t.spread.default = t.default
  | .base b => by simp [STy.spread]
  | .option t => by simp [STy.spread, STy.default]
  | .array n t => by simp [STy.spread, STy.default, STy.spread_default t]
  | .pair a b => by simp [STy.spread, STy.default, STy.spread_default a, STy.spread_default b]
  | .vec _ _ => by simp [STy.spread, STy.default]
  | .struct c fs => by simp [STy.spread, STy.default, SFields.spread_default c fs]
  | .enum _ _ _ => by simp [STy.spread, STy.default]

theorem SFields.spread_default (c : Container) : ∀ fs : SFields, (fs.spread c).default = fs.default
  | .nil => by simp [SFields.spread]
  | .cons a t rest => by
    simp [SFields.spread, SFields.default, SAttrs.inherit, STy.spread_default t, SFields.spread_default c rest]

end

theorem STy.spread_isVecU8 (t : STy) : t.spread.isVecU8 = t.isVecU8 := by
  cases t <;> simp only [STy.spread, STy.isVecU8]
  rename_i z u
  cases u <;> simp only [STy.spread]

theorem Container.bind_congr (c c' : Container) (h1 : c'.params = c.params) (h2 : c'.ctxDefault = c.ctxDefault)
    (args : List Arg) : c'.bind args = c.bind args := by
  unfold Container.bind; rw [h1, h2]

theorem SId.spread_validate (c : Container) (id : SId) : (id.spread c).validate = id.validate := by
  cases id <;> rfl

theorem SId.spread_size (c : Container) (id : SId) : (id.spread c).size = id.size := by
  cases id <;> rfl

theorem SId.spread_elab (c : Container) (id : SId) (pat : Bool) (h : id.named c pat = true) (env : List Arg) :
    (id.spread c).elab { c with endian := none } env pat = id.elab c env pat := by
  cases id with
  | ctx e => rfl
  | typed W e bits bytes =>
    simp only [SId.spread, SId.elab, Option.or_none]
    cases pat with
    | false => rfl
    | true =>
      have : e.or c.endian = e := by
        simp only [SId.named, Bool.not_true, Bool.false_or, Bool.or_eq_true, Option.isSome_iff_exists,
          Option.isNone_iff_eq_none] at h
        rcases h with ⟨x, rfl⟩ | h
        · rfl
        · rw [h, Option.or_none]
      rw [this]

mutual

theorem STy.spread_elab : ∀ (t : STy), t.idsNamed = true → ∀ lim args, t.spread.elab lim args = t.elab lim args
  | .base b, _ => by intro lim args; simp [STy.spread]
  | .option t, h => by
    intro lim args
    rw [STy.idsNamed] at h
    simp [STy.spread, STy.elab, STy.spread_elab t h]
  | .array n t, h => by
    intro lim args
    rw [STy.idsNamed] at h
    simp [STy.spread, STy.elab, STy.spread_elab t h]
  | .pair a b, h => by
    intro lim args
    rw [STy.idsNamed, Bool.and_eq_true] at h
    simp [STy.spread, STy.elab, STy.spread_elab a h.1, STy.spread_elab b h.2]
  | .vec _ t, h => by
    intro lim args
    rw [STy.idsNamed] at h
    simp [STy.spread, STy.elab, STy.spread_elab t h]
  | .struct c fs, h => by
    intro lim args
    rw [STy.idsNamed] at h
    simp only [STy.spread, STy.elab]
    rw [Container.bind_congr c { c with endian := none, order := none } rfl rfl]
    simp only [SFields.spread_elab c { c with endian := none, order := none } rfl (.inl rfl) fs h]
  | .enum c id vs, h => by
    intro lim args
    rw [STy.idsNamed, Bool.and_eq_true] at h
    obtain ⟨h1, h2⟩ := h
    simp only [STy.spread, STy.elab, SVariants.spread_defaults, SVariants.spread_anyPat, SId.spread_validate,
      SId.spread_size]
    rw [Container.bind_congr c { c with endian := none } rfl rfl]
    simp only [SVariants.spread_elab c { c with endian := none } rfl (.inr rfl) vs h2, SId.spread_elab c id _ h1]

theorem SFields.spread_elab (c c' : Container) (h1 : c'.endian = none) (h2 : c'.order = none ∨ c'.order = c.order) :
    ∀ (fs : SFields), fs.idsNamed = true → ∀ env, (fs.spread c).elab c' env = fs.elab c env
  | .nil, _ => by intro env; simp [SFields.spread, SFields.elab]
  | .cons a t rest, h => by
    intro env
    rw [SFields.idsNamed, Bool.and_eq_true] at h
    have e1 : (a.inherit c).endian.or c'.endian = a.endian.or c.endian := by simp [SAttrs.inherit, h1]
    have e2 : (a.inherit c).order.or c'.order = a.order.or c.order := by
      rcases h2 with h2 | h2 <;> simp only [SAttrs.inherit, h2]
      · simp
      · cases a.order <;> cases c.order <;> rfl
    rw [SFields.spread, SFields.elab, SFields.elab, e1, e2, STy.spread_default, STy.spread_isVecU8]
    simp only [STy.spread_elab t h.1, SFields.spread_elab c c' h1 h2 rest h.2]
    rfl

theorem SFields.spreadStored_elab (c c' : Container) (h1 : c'.endian = none)
    (h2 : c'.order = none ∨ c'.order = c.order) :
    ∀ (fs : SFields), fs.idsNamed = true → ∀ env typed, (fs.spreadStored c).elabStored c' env typed =
      fs.elabStored c env typed
  | .nil, _ => by intro env typed; simp [SFields.spreadStored, SFields.elabStored]
  | .cons a t rest, h => by
    intro env typed
    rw [SFields.idsNamed, Bool.and_eq_true] at h
    simp only [SFields.spreadStored, SFields.elabStored, SFields.spread_elab c c' h1 h2 rest h.2]
    cases t <;> simp only [STy.spread]

theorem SVariants.spread_elab (c c' : Container) (h1 : c'.endian = none) (h2 : c'.order = none ∨ c'.order = c.order) :
    ∀ (vs : SVariants), vs.idsNamed = true → ∀ env typed, (vs.spread c).elab c' env typed = vs.elab c env typed
  | .nil, _ => by intro env typed; simp [SVariants.spread, SVariants.elab]
  | .cons a fs rest, h => by
    intro env typed
    rw [SVariants.idsNamed, Bool.and_eq_true] at h
    rw [SVariants.spread, SVariants.elab, SVariants.elab, SVariants.spread_elab c c' h1 h2 rest h.2]
    by_cases hp : a.kind.isPat = true
    · simp only [hp, if_true, SFields.spreadStored_elab c c' h1 h2 fs h.1]
    · simp only [hp, Bool.false_eq_true, if_false, SFields.spread_elab c c' h1 h2 fs h.1]

end

/-! ### plain definitions -/

def Leaf.plain (s : Style) : Leaf → Bool
  | .uint _ ctx | .nonzero _ ctx | .sint _ ctx | .nonzeroSigned _ ctx | .bool ctx =>
    ctx.noOrder && (!s.whole || !ctx.isBits)
  | _ => true

def DAttrs.plain (s : Style) (a : DAttrs) : Bool :=
  decide (a.padOrder = none) &&
  (!s.whole || decide (a.padBefore.getD 0 % 8 = 0 ∧ a.padAfter.getD 0 % 8 = 0)) &&
  (!s.lax || decide (a.assertEq = none ∧ a.padBefore.getD 0 < 2 ^ 64 ∧ a.padAfter.getD 0 < 2 ^ 64))

def DId.plain (s : Style) (pat : Bool) : DId → Bool
  | .typed _ _ ctx store =>
    ctx.noOrder && (!s.whole || !ctx.isBits) && (!pat || decide (store = ctx))
  | .arg _ => true

def DVariants.anyPat : DVariants → Bool
  | .nil => false
  | .cons a _ rest => a.kind.isPat || rest.anyPat

def DVariants.isNil : DVariants → Bool
  | .nil => true
  | _ => false

mutual

def Def.plain (s : Style) : Def → Bool
  | .leaf _ l => l.plain s
  | .option t => t.plain s
  | .array _ t => t.plain s
  | .pair a b => a.plain s && b.plain s
  | .vec _ _ t => t.plain s
  | .bytes _ ctx => s.whole && !ctx.isBits
  | .struct _ _ fs => fs.plain s
  | .enum _ _ id vs => id.plain s vs.anyPat && !vs.isNil && vs.plain s

def DFields.plain (s : Style) : DFields → Bool
  | .nil => true
  | .cons a t rest => a.plain s && t.plain s && rest.plain s
  | .temp a t _ rest => a.plain s && t.plain s && rest.plain s

def DVariants.plain (s : Style) : DVariants → Bool
  | .nil => true
  | .cons v fs rest => fs.plain s && (!v.kind.isPat || fs.stores) && rest.plain s

end

/-- The argument is not a bit order, and not a size in bits if everything is given in bytes. -/
def Arg.plain (s : Style) : Arg → Bool
  | .order _ => false
  | .bits _ => !s.whole
  | _ => true

theorem intArgs_plain (s : Style) (args : List Arg) (ctx : IntCtx) (h : args.all (Arg.plain s) = true)
    (he : intArgs args = some ctx) : ctx.noOrder = true ∧ (!s.whole || !ctx.isBits) = true := by
  unfold intArgs at he
  split at he <;> simp only [Option.some.injEq, reduceCtorEq] at he <;> subst he <;>
    simp_all [Arg.plain, IntCtx.noOrder, IntCtx.isBits]

theorem nonzeroArgs_plain (s : Style) (args : List Arg) (ctx : IntCtx) (h : args.all (Arg.plain s) = true)
    (he : nonzeroArgs args = some ctx) : ctx.noOrder = true ∧ (!s.whole || !ctx.isBits) = true := by
  unfold nonzeroArgs at he
  split at he <;> simp only [Option.some.injEq, reduceCtorEq] at he <;> subst he <;>
    simp_all [Arg.plain, IntCtx.noOrder, IntCtx.isBits]

theorem Base.leaf_plain (s : Style) (args : List Arg) (b : Base) (l : Leaf) (h : args.all (Arg.plain s) = true)
    (he : b.leaf args = some l) : l.plain s = true := by
  cases b <;> simp only [Base.leaf, Option.map_eq_some_iff] at he
  case cstring =>
    split at he <;> simp only [Option.some.injEq, reduceCtorEq] at he <;> subst he <;> rfl
  case unit => cases he; rfl
  case nonzero =>
    obtain ⟨ctx, h1, rfl⟩ := he
    obtain ⟨h2, h3⟩ := nonzeroArgs_plain s _ _ h h1
    simp only [Leaf.plain, h2, h3, Bool.and_self]
  case nonzeroSigned =>
    obtain ⟨ctx, h1, rfl⟩ := he
    obtain ⟨h2, h3⟩ := nonzeroArgs_plain s _ _ h h1
    simp only [Leaf.plain, h2, h3, Bool.and_self]
  all_goals
    obtain ⟨ctx, h1, rfl⟩ := he
    obtain ⟨h2, h3⟩ := intArgs_plain s _ _ h h1
    simp only [Leaf.plain, h2, h3, Bool.and_self]

theorem CtxArg.eval_plain (s : Style) (env : List Arg) (a : CtxArg) (x : Arg) (h : a.noOrder = true)
    (he : a.eval env = some x) : x.plain s = true := by
  cases a with
  | order g => cases h
  | endian g =>
    simp only [CtxArg.eval, Option.map_eq_some_iff] at he
    obtain ⟨e, _, rfl⟩ := he; rfl
  | num e => cases he; rfl

theorem CtxArg.closed_plain (s : Style) (a : CtxArg) (x : Arg) (h : a.noOrder = true)
    (he : a.closed = some x) : x.plain s = true := by
  unfold CtxArg.closed at he
  split at he
  · cases he; rfl
  · cases he
  · exact CtxArg.eval_plain s _ _ _ h he

theorem mapM_all {α β : Type} (f : α → Option β) (p : α → Bool) (q : β → Bool)
    (hf : ∀ a b, p a = true → f a = some b → q b = true) :
    ∀ (l : List α) (r : List β), l.all p = true → l.mapM f = some r → r.all q = true
  | [], r, _, h => by simp at h; subst h; rfl
  | a :: l, r, hp, h => by
    rw [List.all_cons, Bool.and_eq_true] at hp
    rw [List.mapM_cons] at h
    simp only [Option.bind_eq_bind, Option.bind_eq_some_iff, Option.pure_def, Option.some.injEq] at h
    obtain ⟨b, h1, bs, h2, rfl⟩ := h
    rw [List.all_cons, hf a b hp.1 h1, mapM_all f p q hf l bs hp.2 h2]; rfl

theorem Container.bind_plain (s : Style) (c : Container) (args env : List Arg) (hc : c.plain = true)
    (h : args.all (Arg.plain s) = true) (he : c.bind args = some env) : env.all (Arg.plain s) = true := by
  unfold Container.bind at he
  split at he
  · cases he; exact h
  · cases args with
    | cons _ _ => cases he
    | nil =>
      cases hd : c.ctxDefault with
      | none => rw [hd] at he; cases he
      | some l =>
        rw [hd] at he
        simp only [Container.plain, hd, Bool.and_eq_true, Option.getD_some] at hc
        exact mapM_all _ _ _ (fun a b => CtxArg.closed_plain s a b) _ _ hc.2 he

theorem fieldArgs_plain (s : Style) (endian : Option Endian) (bits bytes : Option Nat) (ctx : List Arg)
    (hb : (!s.whole || bits.isNone) = true) (h : ctx.all (Arg.plain s) = true) :
    (fieldArgs endian bits bytes none ctx).all (Arg.plain s) = true := by
  unfold fieldArgs
  simp only [List.all_append, h]
  cases endian <;> cases bits <;> cases bytes <;> simp_all [Arg.plain]

theorem padOf_mod (bytes : Option Nat) : (padOf none bytes).getD 0 % 8 = 0 := by
  cases bytes <;> simp [padOf]

theorem padOf_getD (bits bytes : Option Nat) : (padOf bits bytes).getD 0 = bits.getD 0 + 8 * bytes.getD 0 := by
  cases bits <;> cases bytes <;> simp [padOf, Nat.mul_comm]

theorem SAttrs.rest_plain (s : Style) (a : SAttrs) (v : Val) (h : a.plain s = true) :
    (a.rest none v).plain s = true := by
  obtain ⟨w, x⟩ := s
  simp only [SAttrs.plain, padSmall, Bool.and_eq_true, Option.isNone_iff_eq_none] at h
  simp only [DAttrs.plain, SAttrs.rest, padOf_getD]
  cases w <;> cases x <;> simp_all
  omega

theorem SFields.elab_cons (c : Container) (env : List Arg) (a : SAttrs) (t : STy) (rest : SFields) (ds : DFields)
    (h : (SFields.cons a t rest).elab c env = some ds) :
    ∃ endian order ctx dflt d rest', evalOpt (·.endian env) (a.endian.or c.endian) = some endian ∧
      evalOpt (·.order env) (a.order.or c.order) = some order ∧ a.ctx.mapM (·.eval env) = some ctx ∧
      a.defaultValue t.default = some dflt ∧
      ((∃ n u, a.count = some n ∧ t.isVecU8 = true ∧ intArgs (fieldArgs endian a.bits a.bytes order ctx) = some u ∧
          d = .bytes n u) ∨
        t.elab a.limit (fieldArgs endian a.bits a.bytes order ctx) = some d) ∧
      rest.elab c env = some rest' ∧ a.validate = true ∧
      (a.temp = none ∧ ds = .cons (a.rest order dflt) d rest' ∨
        ∃ v, a.temp = some v ∧ ds = .temp (a.rest order dflt) d v rest') := by
  simp only [SFields.elab, Option.bind_eq_bind, Option.bind_eq_some_iff] at h
  obtain ⟨endian, h1, order, h2, ctx, h3, dflt, h4, d, h5, rest', h6, h7⟩ := h
  refine ⟨endian, order, ctx, dflt, d, rest', h1, h2, h3, h4, ?_, h6, ?_⟩
  · unfold SAttrs.fast at h5
    split at h5
    · rename_i n e1 e2
      simp only [Option.map_eq_some_iff] at h5
      obtain ⟨u, e3, rfl⟩ := h5
      exact .inl ⟨n, u, e1, e2, e3, rfl⟩
    · exact .inr h5
  · unfold SAttrs.emit at h7
    split at h7 <;> cases h7
    · rename_i e1 e2; exact ⟨e1, .inl ⟨e2, rfl⟩⟩
    · rename_i v e1 e2; exact ⟨e1, .inr ⟨v, e2, rfl⟩⟩

theorem SFields.elabStored_cons (c : Container) (env : List Arg) (typed : Option Nat) (a : SAttrs) (t : STy)
    (rest : SFields) (ds : DFields) (h : (SFields.cons a t rest).elabStored c env typed = some ds) :
    ∃ W rest', rest.elab c env = some rest' ∧ ds = .cons {} (.leaf (some (8 * W)) (.uint W .unit)) rest' := by
  unfold SFields.elabStored at h
  split at h
  · split at h
    · simp only [Option.bind_eq_bind, Option.bind_eq_some_iff, Option.pure_def, Option.some.injEq] at h
      obtain ⟨r, h1, rfl⟩ := h
      exact ⟨_, _, h1, rfl⟩
    · cases h
  · cases h

theorem SVariants.elab_cons (c : Container) (env : List Arg) (typed : Option Nat) (a : DVAttrs) (fs : SFields)
    (rest : SVariants) (ds : DVariants) (h : (SVariants.cons a fs rest).elab c env typed = some ds) :
    ∃ fs' rest', (if a.kind.isPat = true then fs.elabStored c env typed else fs.elab c env) = some fs' ∧
      rest.elab c env typed = some rest' ∧ ds = .cons a fs' rest' := by
  rw [SVariants.elab] at h
  by_cases hk : a.kind.isPat = true
  · simp only [hk, if_true, Option.bind_eq_bind, Option.bind_eq_some_iff, Option.pure_def, Option.some.injEq] at h ⊢
    obtain ⟨x, h1, y, h2, rfl⟩ := h
    exact ⟨x, y, h1, h2, rfl⟩
  · simp only [hk, Bool.false_eq_true, if_false, Option.bind_eq_bind, Option.bind_eq_some_iff, Option.pure_def,
      Option.some.injEq] at h ⊢
    obtain ⟨x, h1, y, h2, rfl⟩ := h
    exact ⟨x, y, h1, h2, rfl⟩

theorem SVariants.elab_anyPat (c : Container) (env : List Arg) (typed : Option Nat) :
    ∀ (vs : SVariants) (ds : DVariants), vs.elab c env typed = some ds →
      ds.anyPat = vs.anyPat ∧ ds.isNil = vs.isNil
  | .nil, ds, h => by
    simp only [SVariants.elab, Option.some.injEq] at h; subst h; exact ⟨rfl, rfl⟩
  | .cons a fs rest, ds, h => by
    obtain ⟨fs', rest', _, h2, rfl⟩ := SVariants.elab_cons c env typed a fs rest ds h
    rw [DVariants.anyPat, SVariants.anyPat, (SVariants.elab_anyPat c env typed rest rest' h2).1]
    exact ⟨rfl, rfl⟩

theorem SId.elab_plain (s : Style) (c : Container) (env : List Arg) (pat : Bool) (hc : c.order = none) (id : SId)
    (did : DId) (hp : id.plain s c pat = true) (h : id.elab c env pat = some did) : did.plain s pat = true := by
  cases id with
  | ctx e => cases h; rfl
  | typed W e bits bytes =>
    simp only [SId.plain, Bool.and_eq_true] at hp
    simp only [SId.elab, Option.bind_eq_bind, Option.bind_eq_some_iff, Option.pure_def, Option.some.injEq] at h
    obtain ⟨e', h1, o, ho, ctx, h2, e'', h3, store, h4, rfl⟩ := h
    rw [hc] at ho
    cases ho
    have := intArgs_plain s _ _ (fieldArgs_plain s e' bits bytes [] hp.1 rfl) h2
    have he : (if pat = true then e else e.or c.endian) = e.or c.endian := by
      split
      · rename_i hpat
        have := hp.2
        simp only [SId.named, hpat, Bool.not_true, Bool.false_or, Bool.or_eq_true, Option.isSome_iff_exists,
          Option.isNone_iff_eq_none] at this
        rcases this with ⟨x, rfl⟩ | h
        · rfl
        · rw [h, Option.or_none]
      · rfl
    rw [he, h1] at h3
    cases h3
    rw [h2] at h4
    cases h4
    rw [DId.plain, this.1, this.2]
    simp

mutual

theorem STy.elab_plain (s : Style) : ∀ (t : STy) (lim : Option Lim) (args : List Arg) (d : Def), t.plain s = true →
    args.all (Arg.plain s) = true → t.elab lim args = some d → d.plain s = true
  | .base b, lim, args, d, _, ha, h => by
    rw [STy.elab] at h
    split at h
    · cases h
    · simp only [Option.bind_eq_bind, Option.bind_eq_some_iff, Option.pure_def, Option.some.injEq] at h
      obtain ⟨l, h1, rfl⟩ := h
      rw [Def.plain]
      exact Base.leaf_plain s args b l ha h1
  | .option t, lim, args, d, hp, ha, h => by
    simp only [STy.elab, Option.bind_eq_bind, Option.bind_eq_some_iff, Option.pure_def, Option.some.injEq] at h
    obtain ⟨x, h1, rfl⟩ := h
    rw [STy.plain] at hp
    rw [Def.plain]
    exact STy.elab_plain s t _ _ _ hp ha h1
  | .array n t, lim, args, d, hp, ha, h => by
    simp only [STy.elab, Option.bind_eq_bind, Option.bind_eq_some_iff, Option.pure_def, Option.some.injEq] at h
    obtain ⟨x, h1, rfl⟩ := h
    rw [STy.plain] at hp
    rw [Def.plain]
    exact STy.elab_plain s t _ _ _ hp ha h1
  | .pair a b, lim, args, d, hp, ha, h => by
    simp only [STy.elab, Option.bind_eq_bind, Option.bind_eq_some_iff, Option.pure_def, Option.some.injEq] at h
    obtain ⟨x, h1, y, h2, rfl⟩ := h
    rw [STy.plain, Bool.and_eq_true] at hp
    rw [Def.plain, STy.elab_plain s a _ _ _ hp.1 ha h1, STy.elab_plain s b _ _ _ hp.2 ha h2]
    rfl
  | .vec z t, none, args, d, hp, ha, h => by simp [STy.elab] at h
  | .vec z t, some l, args, d, hp, ha, h => by
      simp only [STy.elab, Option.bind_eq_bind, Option.bind_eq_some_iff, Option.pure_def, Option.some.injEq] at h
      obtain ⟨x, h1, rfl⟩ := h
      rw [STy.plain] at hp
      rw [Def.plain]
      exact STy.elab_plain s t _ _ _ hp ha h1
  | .struct c fs, lim, args, d, hp, ha, h => by
    rw [STy.elab] at h
    split at h
    · cases h
    · simp only [Option.bind_eq_bind, Option.bind_eq_some_iff, Option.pure_def, Option.some.injEq] at h
      obtain ⟨env, h1, ds, h2, rfl⟩ := h
      rw [STy.plain, Bool.and_eq_true] at hp
      have he := Container.bind_plain s c args env hp.1 ha h1
      have hc : c.order = none := by
        have := hp.1
        simp only [Container.plain, Bool.and_eq_true, Option.isNone_iff_eq_none] at this
        exact this.1
      rw [Def.plain]
      exact SFields.elab_plain s c env hc fs ds hp.2 h2
  | .enum c id vs, lim, args, d, hp, ha, h => by
    rw [STy.elab] at h
    split at h
    · cases h
    · simp only [Option.bind_eq_bind, Option.bind_eq_some_iff, Option.pure_def, Option.some.injEq] at h
      obtain ⟨env, h1, did, h2, ds, h3, rfl⟩ := h
      simp only [STy.plain, Bool.and_eq_true] at hp
      obtain ⟨⟨⟨hp1, hp2⟩, hp3⟩, hp4⟩ := hp
      have hc : c.order = none := by
        have := hp1
        simp only [Container.plain, Bool.and_eq_true, Option.isNone_iff_eq_none] at this
        exact this.1
      obtain ⟨e1, e2⟩ := SVariants.elab_anyPat c env _ vs ds h3
      rw [Def.plain, e1, e2, hp3, SVariants.elab_plain s c env _ hc vs ds hp4 h3,
        SId.elab_plain s c env _ hc id did hp2 h2]
      rfl

theorem SFields.elab_plain (s : Style) (c : Container) (env : List Arg) (hc : c.order = none) :
    ∀ (fs : SFields) (ds : DFields), fs.plain s = true → fs.elab c env = some ds → ds.plain s = true
  | .nil, ds, _, h => by
    simp only [SFields.elab, Option.some.injEq] at h; subst h; rw [DFields.plain]
  | .cons a t rest, ds, hp, h => by
    simp only [SFields.plain, Bool.and_eq_true] at hp
    obtain ⟨⟨⟨hp1, hp2⟩, hp3⟩, hp4⟩ := hp
    obtain ⟨endian, order, ctx, dflt, d, rest', h1, h2, h3, h4, h5, h6, h7⟩ := SFields.elab_cons c env a t rest ds h
    have ho : order = none := by
      have : a.order = none := by
        have := hp1
        simp only [SAttrs.plain, Bool.and_eq_true, Option.isNone_iff_eq_none] at this
        exact this.1.1.1
      rw [this, hc] at h2
      cases h2; rfl
    subst ho
    have hctx : ctx.all (Arg.plain s) = true := by
      have := hp1
      simp only [SAttrs.plain, Bool.and_eq_true] at this
      exact mapM_all _ _ _ (fun x y => CtxArg.eval_plain s env x y) _ _ this.1.1.2 h3
    have hargs : (fieldArgs endian a.bits a.bytes none ctx).all (Arg.plain s) = true := by
      refine fieldArgs_plain s _ _ _ _ ?_ hctx
      have := hp1
      simp only [SAttrs.plain, Bool.and_eq_true, Bool.or_eq_true] at this
      rcases this.1.2 with h | h
      · rw [h]; rfl
      · rw [h.1.1]; simp
    have hd : d.plain s = true := by
      rcases h5 with ⟨n, u, e1, e2, e3, rfl⟩ | e
      · rw [Def.plain]
        have hw : s.whole = true := by
          rw [e1, e2] at hp2
          simpa using hp2
        have := (intArgs_plain s _ _ hargs e3).2
        rw [hw] at this ⊢
        simpa using this
      · exact STy.elab_plain s t _ _ _ hp3 hargs e
    have hr := SFields.elab_plain s c env hc rest rest' hp4 h6
    have ha := SAttrs.rest_plain s a dflt hp1
    rcases h7.2 with ⟨_, rfl⟩ | ⟨v, _, rfl⟩ <;> rw [DFields.plain, ha, hd, hr] <;> rfl

theorem SFields.elabStored_plain (s : Style) (c : Container) (env : List Arg) (typed : Option Nat)
    (hc : c.order = none) :
    ∀ (fs : SFields) (ds : DFields), fs.plain s = true → fs.elabStored c env typed = some ds →
      ds.plain s = true ∧ ds.stores = true
  | .nil, ds, _, h => by rw [SFields.elabStored] at h; cases h
  | .cons a t rest, ds, hp, h => by
    simp only [SFields.plain, Bool.and_eq_true] at hp
    obtain ⟨W, rest', h1, rfl⟩ := SFields.elabStored_cons c env typed a t rest ds h
    refine ⟨?_, rfl⟩
    rw [DFields.plain, SFields.elab_plain s c env hc rest rest' hp.2 h1, Def.plain]
    cases s with | mk w x => cases w <;> cases x <;> rfl

theorem SVariants.elab_plain (s : Style) (c : Container) (env : List Arg) (typed : Option Nat) (hc : c.order = none) :
    ∀ (vs : SVariants) (ds : DVariants), vs.plain s = true → vs.elab c env typed = some ds → ds.plain s = true
  | .nil, ds, _, h => by
    simp only [SVariants.elab, Option.some.injEq] at h; subst h; rw [DVariants.plain]
  | .cons a fs rest, ds, hp, h => by
    simp only [SVariants.plain, Bool.and_eq_true] at hp
    obtain ⟨fs', rest', h1, h2, rfl⟩ := SVariants.elab_cons c env typed a fs rest ds h
    have hr := SVariants.elab_plain s c env typed hc rest rest' hp.2 h2
    by_cases hk : a.kind.isPat = true
    · rw [if_pos hk] at h1
      obtain ⟨e1, e2⟩ := SFields.elabStored_plain s c env typed hc fs fs' hp.1 h1
      rw [DVariants.plain, e1, e2, hr]; simp
    · rw [if_neg hk] at h1
      rw [DVariants.plain, SFields.elab_plain s c env hc fs fs' hp.1 h1, hr]; simp [hk]

end

/-! ### what plain definitions are checked to be -/

theorem DId.plain_or (s : Style) (id : DId) (p q : Bool) (h : id.plain s (p || q) = true) : id.plain s q = true := by
  cases id with
  | arg e => rfl
  | typed size W ctx store => cases p <;> cases q <;> simp_all [DId.plain]

theorem IntCtx.shape_msb (native : Endian) (W : Nat) (ctx : IntCtx) (h : ctx.noOrder = true) :
    (ctx.shape native W).2.2 = .msb0 := by
  cases ctx <;> first | rfl | cases h

theorem IntCtx.sshape_msb (native : Endian) (W : Nat) (ctx : IntCtx) (h : ctx.noOrder = true) :
    (ctx.sshape native W).2.2 = .msb0 := by
  cases ctx <;> first | rfl | cases h

theorem IntCtx.shape_whole (native : Endian) (W : Nat) (ctx : IntCtx) (h : ctx.isBits = false) :
    (ctx.shape native W).2.1 % 8 = 0 := by
  cases ctx <;> simp only [IntCtx.isBits, Bool.true_eq_false] at h <;> simp only [IntCtx.shape] <;> (try split) <;> omega

theorem IntCtx.sshape_whole (native : Endian) (W : Nat) (ctx : IntCtx) (h : ctx.isBits = false) :
    (ctx.sshape native W).2.1 % 8 = 0 := by
  cases ctx <;> simp only [IntCtx.isBits, Bool.true_eq_false] at h <;> simp only [IntCtx.sshape, IntCtx.shape] <;>
    (try split) <;> omega

theorem intFits_msb (W : Nat) (bits : Bool) (shape : Endian × Nat × Order) (a : Align) (h : shape.2.2 = .msb0) :
    intFits .msb0 W bits shape a = true := by
  cases bits <;> simp [intFits, h]

theorem Leaf.check_msb (native : Endian) (s : Style) (l : Leaf) (h : l.plain s = true) (a : Align) :
    (l.check native .msb0 a).isSome = true := by
  cases l <;> simp only [Leaf.plain, Bool.and_eq_true] at h <;>
    simp only [Leaf.check, if_true, Option.isSome_some]
  case uint => rw [if_pos (intFits_msb _ _ _ _ (IntCtx.shape_msb _ _ _ h.1))]; rfl
  case nonzero => rw [if_pos (intFits_msb _ _ _ _ (IntCtx.shape_msb _ _ _ h.1))]; rfl
  case bool => rw [if_pos (intFits_msb _ _ _ _ (IntCtx.shape_msb _ _ _ h.1))]; rfl
  case sint => rw [if_pos (intFits_msb _ _ _ _ (IntCtx.sshape_msb _ _ _ h.1))]; rfl
  case nonzeroSigned => rw [if_pos (intFits_msb _ _ _ _ (IntCtx.sshape_msb _ _ _ h.1))]; rfl

theorem Align.add_whole (n : Nat) (h : n % 8 = 0) : Align.add (some 0) n = some 0 := by
  simp only [Align.add, Option.map_some, Nat.zero_add, h]

theorem Leaf.check_whole (native : Endian) (x : Bool) (l : Leaf) (h : l.plain ⟨true, x⟩ = true) :
    l.check native .msb0 (some 0) = some (some 0) := by
  cases l <;> simp only [Leaf.plain, Bool.and_eq_true, Bool.not_true, Bool.false_or, Bool.not_eq_true'] at h <;>
    simp only [Leaf.check, if_true]
  case uint =>
    rw [if_pos (intFits_msb _ _ _ _ (IntCtx.shape_msb _ _ _ h.1)), Align.add_whole _ (IntCtx.shape_whole _ _ _ h.2)]
  case nonzero =>
    rw [if_pos (intFits_msb _ _ _ _ (IntCtx.shape_msb _ _ _ h.1)), Align.add_whole _ (IntCtx.shape_whole _ _ _ h.2)]
  case bool =>
    rw [if_pos (intFits_msb _ _ _ _ (IntCtx.shape_msb _ _ _ h.1)), Align.add_whole _ (IntCtx.shape_whole _ _ _ h.2)]
  case sint =>
    rw [if_pos (intFits_msb _ _ _ _ (IntCtx.sshape_msb _ _ _ h.1)), Align.add_whole _ (IntCtx.sshape_whole _ _ _ h.2)]
  case nonzeroSigned =>
    rw [if_pos (intFits_msb _ _ _ _ (IntCtx.sshape_msb _ _ _ h.1)), Align.add_whole _ (IntCtx.sshape_whole _ _ _ h.2)]

theorem Align.joins_whole : ∀ l : List Align, l ≠ [] → (∀ a ∈ l, a = some 0) → Align.joins l = some 0
  | [], h, _ => absurd rfl h
  | [a], _, h => h a (by simp)
  | a :: b :: l, _, h => by
    rw [Align.joins, Align.joins_whole (b :: l) (by simp) (fun x hx => h x (List.mem_cons_of_mem _ hx)),
      h a (by simp)]
    · rfl
    · simp

theorem DAttrs.check_whole (x : Bool) (a : DAttrs) (h : a.plain ⟨true, x⟩ = true) (ty : Align → Option Align)
    (ht : ty (some 0) = some (some 0)) : a.check .msb0 ty (some 0) = some (some 0) := by
  simp only [DAttrs.plain, Bool.not_true, Bool.false_or, Bool.and_eq_true, decide_eq_true_eq] at h
  obtain ⟨⟨h1, h2, h3⟩, _⟩ := h
  unfold DAttrs.check
  rw [if_pos ⟨.inr rfl, .inr (by rw [h1]; rfl)⟩, Align.add_whole _ h2, ht]
  simp only [Align.join, if_true, ite_self, Align.add_whole _ h3]

theorem DAttrs.check_msb (s : Style) (a : DAttrs) (h : a.plain s = true) (ty : Align → Option Align)
    (ht : ∀ al, (ty al).isSome = true) (al : Align) : (a.check .msb0 ty al).isSome = true := by
  simp only [DAttrs.plain, Bool.and_eq_true, decide_eq_true_eq] at h
  obtain ⟨⟨h1, _⟩, _⟩ := h
  unfold DAttrs.check
  rw [if_pos ⟨.inr rfl, .inr (by rw [h1]; rfl)⟩]
  have := ht (al.add (a.padBefore.getD 0))
  split
  · rename_i e; rw [e] at this; cases this
  · rfl

theorem Align.loop_whole (f : Align → Option Align) (h : f (some 0) = some (some 0)) :
    Align.loop f (some 0) = some (some 0) := by
  unfold Align.loop; rw [if_pos h]

theorem Align.loop_msb (f : Align → Option Align) (h : ∀ a, (f a).isSome = true) (a : Align) :
    (Align.loop f a).isSome = true := by
  unfold Align.loop; rw [h none]; split <;> simp

mutual

theorem Def.check_whole (native : Endian) (x : Bool) : ∀ d : Def, d.plain ⟨true, x⟩ = true →
    d.check native .msb0 (some 0) = some (some 0)
  | .leaf _ l, h => by rw [Def.plain] at h; rw [Def.check]; exact l.check_whole native x h
  | .option t, h => by rw [Def.plain] at h; rw [Def.check]; exact t.check_whole native x h
  | .array _ t, h => by rw [Def.plain] at h; rw [Def.check]; exact Align.loop_whole _ (t.check_whole native x h)
  | .pair a b, h => by
    rw [Def.plain, Bool.and_eq_true] at h
    rw [Def.check, a.check_whole native x h.1]
    exact b.check_whole native x h.2
  | .vec _ _ t, h => by rw [Def.plain] at h; rw [Def.check]; exact Align.loop_whole _ (t.check_whole native x h)
  | .bytes _ ctx, h => by
    simp only [Def.plain, Bool.true_and, Bool.not_eq_true'] at h
    rw [Def.check, if_pos ⟨rfl, h⟩]
  | .struct _ _ fs, h => by
    rw [Def.plain] at h
    rw [Def.check, if_pos (.inr rfl)]
    exact fs.check_whole native x h
  | .enum _ _ id vs, h => by
    simp only [Def.plain, Bool.and_eq_true, Bool.not_eq_true'] at h
    obtain ⟨⟨h1, h2⟩, h3⟩ := h
    obtain ⟨l, e1, e2, e3⟩ := vs.check_whole native x id h1 h3
    rw [Def.check, if_pos (.inr rfl), e1]
    simp only
    rw [Align.joins_whole l (fun e => by rw [e3 e] at h2; cases h2) e2]

theorem DFields.check_whole (native : Endian) (x : Bool) : ∀ fs : DFields, fs.plain ⟨true, x⟩ = true →
    fs.check native .msb0 (some 0) = some (some 0)
  | .nil, _ => by rw [DFields.check]
  | .cons a t rest, h => by
    simp only [DFields.plain, Bool.and_eq_true] at h
    rw [DFields.check, a.check_whole x h.1.1 _ (t.check_whole native x h.1.2)]
    exact rest.check_whole native x h.2
  | .temp a t _ rest, h => by
    simp only [DFields.plain, Bool.and_eq_true] at h
    rw [DFields.check, a.check_whole x h.1.1 _ (t.check_whole native x h.1.2)]
    exact rest.check_whole native x h.2

theorem DFields.checkStored_whole (native : Endian) (x : Bool) : ∀ fs : DFields, fs.plain ⟨true, x⟩ = true →
    fs.stores = true → fs.checkStored native .msb0 (some 0) = some (some 0)
  | .nil, _, h => by cases h
  | .cons a t rest, h, _ => by
    simp only [DFields.plain, Bool.and_eq_true] at h
    rw [DFields.checkStored]
    exact rest.check_whole native x h.2
  | .temp _ _ _ _, _, h => by cases h

theorem DVariants.check_whole (native : Endian) (x : Bool) (id : DId) : ∀ vs : DVariants,
    id.plain ⟨true, x⟩ vs.anyPat = true → vs.plain ⟨true, x⟩ = true →
    ∃ l, vs.check native .msb0 id (some 0) = some l ∧ (∀ a ∈ l, a = some 0) ∧ (l = [] → vs.isNil = true)
  | .nil, _, _ => ⟨[], by rw [DVariants.check], by simp, fun _ => rfl⟩
  | .cons v fs rest, hid, h => by
    simp only [DVariants.plain, Bool.and_eq_true] at h
    obtain ⟨⟨h1, h2⟩, h3⟩ := h
    have hrest : id.plain ⟨true, x⟩ rest.anyPat = true := DId.plain_or _ id _ _ hid
    obtain ⟨l, e1, e2, _⟩ := rest.check_whole native x id hrest h3
    refine ⟨some 0 :: l, ?_, ?_, by simp⟩
    · simp only [DVariants.check, e1]
      cases id with
      | arg e => simp only [fs.check_whole native x h1]
      | typed size W ctx store =>
        simp only [DId.plain, DVariants.anyPat, Bool.and_eq_true] at hid
        have hl : (Leaf.uint W ctx).check native .msb0 (some 0) = some (some 0) :=
          Leaf.check_whole native x _ (by simp only [Leaf.plain, Bool.and_eq_true]; exact hid.1)
        simp only [hl]
        by_cases hk : v.kind.isPat = true
        · have hs : store = ctx := by have := hid.2; simpa [hk] using this
          have hst : fs.stores = true := by simpa [hk] using h2
          simp only [hk, if_true, hs, fs.checkStored_whole native x h1 hst]
        · simp only [hk, Bool.false_eq_true, if_false, fs.check_whole native x h1]
    · intro a ha
      rcases List.mem_cons.1 ha with rfl | ha
      · rfl
      · exact e2 a ha

end

mutual

theorem Def.check_msb (native : Endian) (x : Bool) : ∀ d : Def, d.plain ⟨false, x⟩ = true → ∀ al,
    (d.check native .msb0 al).isSome = true
  | .leaf _ l, h => by intro al; rw [Def.plain] at h; rw [Def.check]; exact l.check_msb native _ h al
  | .option t, h => by intro al; rw [Def.plain] at h; rw [Def.check]; exact t.check_msb native x h al
  | .array _ t, h => by
    intro al; rw [Def.plain] at h; rw [Def.check]; exact Align.loop_msb _ (t.check_msb native x h) al
  | .pair a b, h => by
    intro al
    rw [Def.plain, Bool.and_eq_true] at h
    rw [Def.check]
    obtain ⟨b', e⟩ := Option.isSome_iff_exists.1 (a.check_msb native x h.1 al)
    rw [e]
    exact b.check_msb native x h.2 b'
  | .vec _ _ t, h => by
    intro al; rw [Def.plain] at h; rw [Def.check]; exact Align.loop_msb _ (t.check_msb native x h) al
  | .bytes _ ctx, h => by simp [Def.plain] at h
  | .struct _ _ fs, h => by
    intro al
    rw [Def.plain] at h
    rw [Def.check, if_pos (.inr rfl)]
    exact fs.check_msb native x h al
  | .enum _ _ id vs, h => by
    intro al
    simp only [Def.plain, Bool.and_eq_true, Bool.not_eq_true'] at h
    obtain ⟨⟨h1, h2⟩, h3⟩ := h
    obtain ⟨l, e⟩ := Option.isSome_iff_exists.1 (vs.check_msb native x id h1 h3 al)
    rw [Def.check, if_pos (.inr rfl), e]
    rfl

theorem DFields.check_msb (native : Endian) (x : Bool) : ∀ fs : DFields, fs.plain ⟨false, x⟩ = true → ∀ al,
    (fs.check native .msb0 al).isSome = true
  | .nil, _ => by intro al; rw [DFields.check]; rfl
  | .cons a t rest, h => by
    intro al
    simp only [DFields.plain, Bool.and_eq_true] at h
    rw [DFields.check]
    obtain ⟨b, e⟩ := Option.isSome_iff_exists.1 (a.check_msb _ h.1.1 _ (t.check_msb native x h.1.2) al)
    rw [e]
    exact rest.check_msb native x h.2 b
  | .temp a t _ rest, h => by
    intro al
    simp only [DFields.plain, Bool.and_eq_true] at h
    rw [DFields.check]
    obtain ⟨b, e⟩ := Option.isSome_iff_exists.1 (a.check_msb _ h.1.1 _ (t.check_msb native x h.1.2) al)
    rw [e]
    exact rest.check_msb native x h.2 b

theorem DFields.checkStored_msb (native : Endian) (x : Bool) : ∀ fs : DFields, fs.plain ⟨false, x⟩ = true →
    fs.stores = true → ∀ al, (fs.checkStored native .msb0 al).isSome = true
  | .nil, _, h => by cases h
  | .cons a t rest, h, _ => by
    intro al
    simp only [DFields.plain, Bool.and_eq_true] at h
    rw [DFields.checkStored]
    exact rest.check_msb native x h.2 al
  | .temp _ _ _ _, _, h => by cases h

theorem DVariants.check_msb (native : Endian) (x : Bool) (id : DId) : ∀ vs : DVariants,
    id.plain ⟨false, x⟩ vs.anyPat = true → vs.plain ⟨false, x⟩ = true → ∀ al,
    (vs.check native .msb0 id al).isSome = true
  | .nil, _, _ => by intro al; rw [DVariants.check]; rfl
  | .cons v fs rest, hid, h => by
    intro al
    simp only [DVariants.plain, Bool.and_eq_true] at h
    obtain ⟨⟨h1, h2⟩, h3⟩ := h
    have hrest : id.plain ⟨false, x⟩ rest.anyPat = true := DId.plain_or _ id _ _ hid
    obtain ⟨l, e1⟩ := Option.isSome_iff_exists.1 (rest.check_msb native x id hrest h3 al)
    simp only [DVariants.check, e1]
    cases id with
    | arg e =>
      obtain ⟨b, e2⟩ := Option.isSome_iff_exists.1 (fs.check_msb native x h1 al)
      simp only [e2]; rfl
    | typed size W ctx store =>
      simp only [DId.plain, DVariants.anyPat, Bool.and_eq_true] at hid
      obtain ⟨c, hl⟩ := Option.isSome_iff_exists.1 (Leaf.check_msb native ⟨false, x⟩ (.uint W ctx)
        (by simp only [Leaf.plain, Bool.and_eq_true]; exact hid.1) al)
      simp only [hl]
      by_cases hk : v.kind.isPat = true
      · have hs : store = ctx := by have := hid.2; simpa [hk] using this
        have hst : fs.stores = true := by simpa [hk] using h2
        obtain ⟨b, e2⟩ := Option.isSome_iff_exists.1 (fs.checkStored_msb native x h1 hst c)
        simp only [hk, if_true, hs, e2]; rfl
      · obtain ⟨b, e2⟩ := Option.isSome_iff_exists.1 (fs.check_msb native x h1 c)
        simp only [hk, Bool.false_eq_true, if_false, e2]; rfl

end

/-! ### what plain definitions refuse -/

theorem Leaf.refusal_whole (native : Endian) (x : Bool) (l : Leaf) (h : l.plain ⟨true, x⟩ = true) (v : Val) :
    l.refusal native v = none := by
  cases l <;> simp only [Leaf.plain, Bool.and_eq_true, Bool.not_true, Bool.false_or, Bool.not_eq_true'] at h <;>
    cases v <;>
    first | rfl | simp only [Leaf.refusal, fieldRefusal, h.2, Bool.false_and, Bool.false_eq_true, if_false]

theorem padRefusal_small (p : Option Nat) (h : p.getD 0 < 2 ^ 64) : padRefusal p = none := by
  unfold padRefusal; rw [if_pos h]

theorem DAttrs.refusal_lax (a : DAttrs) (s : Style) (hs : s.lax = true) (h : a.plain s = true)
    (ty : Env → Val → Option DekuError) (ht : ∀ env v, ty env v = none) (env : Env) (x : Val) :
    a.refusal ty env x = none := by
  simp only [DAttrs.plain, hs, Bool.not_true, Bool.false_or, Bool.and_eq_true, decide_eq_true_eq] at h
  obtain ⟨_, h1, h2, h3⟩ := h
  unfold DAttrs.refusal
  rw [padRefusal_small _ h2, padRefusal_small _ h3, h1]
  simp only [ht, ite_self, Option.or_none]

theorem findSome?_none {α β : Type} (f : α → Option β) (h : ∀ a, f a = none) (l : List α) : l.findSome? f = none := by
  rw [List.findSome?_eq_none_iff]; exact fun a _ => h a

mutual

theorem Def.refusal_plain (native : Endian) : ∀ d : Def, d.plain ⟨true, true⟩ = true → ∀ env v,
    d.refusal native env v = none
  | .leaf _ l, h => by
    intro env v; rw [Def.plain] at h; rw [Def.refusal]; exact l.refusal_whole native true h v
  | .option t, h => by
    intro env v
    rw [Def.plain] at h
    have := t.refusal_plain native h
    cases v <;> simp only [Def.refusal, this]
  | .array _ t, h => by
    intro env v; rw [Def.plain] at h; rw [Def.refusal]
    exact findSome?_none _ (t.refusal_plain native h env) _
  | .pair a b, h => by
    intro env v
    rw [Def.plain, Bool.and_eq_true] at h
    have h1 := a.refusal_plain native h.1 env
    have h2 := b.refusal_plain native h.2 env
    rw [Def.refusal.eq_def]
    simp only [h1, h2, Option.or_none]
    split <;> rfl
  | .vec _ _ t, h => by
    intro env v; rw [Def.plain] at h; rw [Def.refusal]
    exact findSome?_none _ (t.refusal_plain native h env) _
  | .bytes _ ctx, h => by
    intro env v
    simp only [Def.plain, Bool.true_and, Bool.not_eq_true'] at h
    rw [Def.refusal]
    refine findSome?_none _ (fun x => ?_) _
    cases x <;> simp only [Leaf.refusal, fieldRefusal, h, Bool.false_and, Bool.false_eq_true, if_false]
  | .struct _ _ fs, h => by
    intro env v; rw [Def.plain] at h; rw [Def.refusal]; exact fs.refusal_plain native h _ _ _
  | .enum _ _ id vs, h => by
    intro env v
    simp only [Def.plain, Bool.and_eq_true] at h
    have := vs.refusal_plain native id h.1.1 h.2
    cases v <;> simp only [Def.refusal, this]

theorem DFields.refusal_plain (native : Endian) : ∀ fs : DFields, fs.plain ⟨true, true⟩ = true → ∀ env all v,
    fs.refusal native env all v = none
  | .nil, _ => by intro env all v; rw [DFields.refusal]
  | .cons a t rest, h => by
    intro env all v
    simp only [DFields.plain, Bool.and_eq_true] at h
    have h1 := a.refusal_lax _ rfl h.1.1 _ (t.refusal_plain native h.1.2)
    have h2 := rest.refusal_plain native h.2
    cases v <;> simp only [DFields.refusal, h1, h2, Option.or_none]
  | .temp a t _ rest, h => by
    intro env all v
    simp only [DFields.plain, Bool.and_eq_true] at h
    rw [DFields.refusal, a.refusal_lax _ rfl h.1.1 _ (t.refusal_plain native h.1.2), rest.refusal_plain native h.2]
    rfl

theorem DFields.refusalStored_plain (native : Endian) (l : Leaf) (hl : ∀ v, l.refusal native v = none) :
    ∀ fs : DFields, fs.plain ⟨true, true⟩ = true → ∀ env v, fs.refusalStored native l env v = none
  | .nil, _ => by intro env v; simp [DFields.refusalStored]
  | .cons a t rest, h => by
    intro env v
    simp only [DFields.plain, Bool.and_eq_true] at h
    have h2 := rest.refusal_plain native h.2
    cases v <;> simp only [DFields.refusalStored, hl, h2, Option.or_none]
  | .temp _ _ _ _, _ => by intro env v; simp [DFields.refusalStored]

theorem DVariants.refusal_plain (native : Endian) (id : DId) : ∀ vs : DVariants,
    id.plain ⟨true, true⟩ vs.anyPat = true → vs.plain ⟨true, true⟩ = true → ∀ i env v,
    vs.refusalAt native id i env v = none
  | .nil, _, _ => by intro i env v; simp [DVariants.refusalAt]
  | .cons a fs rest, hid, h => by
    intro i env v
    simp only [DVariants.plain, Bool.and_eq_true] at h
    obtain ⟨⟨h1, h2⟩, h3⟩ := h
    cases i with
    | succ i =>
      rw [DVariants.refusalAt]
      exact rest.refusal_plain native id (DId.plain_or _ id _ _ hid) h3 i env v
    | zero =>
      simp only [DVariants.refusalAt]
      cases id with
      | arg e => exact fs.refusal_plain native h1 _ _ _
      | typed size W ctx store =>
        simp only [DId.plain, DVariants.anyPat, Bool.and_eq_true] at hid
        have hc : ∀ v, (Leaf.uint W ctx).refusal native v = none :=
          Leaf.refusal_whole native true _ (by simp only [Leaf.plain, Bool.and_eq_true]; exact hid.1)
        cases hk : a.kind with
        | id n => simp only [hc, fs.refusal_plain native h1, Option.or_none]
        | any =>
          have hs : store = ctx := by have := hid.2; simpa [hk, VKind.isPat] using this
          simp only [hs]
          exact fs.refusalStored_plain native _ hc h1 _ _
        | range lo hi =>
          have hs : store = ctx := by have := hid.2; simpa [hk, VKind.isPat] using this
          simp only [hs]
          exact fs.refusalStored_plain native _ hc h1 _ _

end

/-! ### limits -/

theorem SAttrs.limits_alone (a : SAttrs) (h : a.validate = true) (hu : a.untilAlone = true) :
    a.limits = a.limit.toList := by
  simp only [SAttrs.validate, SAttrs.untilAlone, SAttrs.limits, SAttrs.limit] at *
  cases h1 : a.count <;> cases h2 : a.bytesRead <;> cases h3 : a.bitsRead <;> cases h4 : a.untilEq <;>
    cases h5 : a.readAll <;> simp_all

theorem SAttrs.limit_mem (a : SAttrs) (l : Lim) (h : a.limit = some l) : l ∈ a.limits := by
  simp only [SAttrs.limits, SAttrs.limit] at *
  cases h1 : a.count <;> cases h2 : a.bytesRead <;> cases h3 : a.bitsRead <;> cases h4 : a.untilEq <;>
    cases h5 : a.readAll <;> simp_all

theorem SAttrs.limits_ignored (a : SAttrs) (h : a.validate = true) :
    (∃ l ∈ a.limits, a.limit ≠ some l) ↔ a.untilAlone = false := by
  simp only [SAttrs.validate, SAttrs.untilAlone, SAttrs.limits, SAttrs.limit] at *
  cases h1 : a.count <;> cases h2 : a.bytesRead <;> cases h3 : a.bitsRead <;> cases h4 : a.untilEq <;>
    cases h5 : a.readAll <;> simp_all

theorem SAttrs.always_reads (a : SAttrs) (o : Option Order) (v : Val) (h : a.always = true) (args before : List Val) :
    (a.rest o v).Reads args before true := by
  simp only [SAttrs.always, Bool.and_eq_true, Bool.or_eq_true, Option.isNone_iff_eq_none, decide_eq_true_eq] at h
  unfold DAttrs.Reads SAttrs.rest
  rcases h with ⟨h | h, hc⟩ <;> rw [h, hc]

theorem SFields.kept (c : Container) (env : List Arg) : ∀ (fs : SFields) (ds : DFields) (args before : List Val)
    (v : Val), fs.all (·.untilAlone) = true → fs.elab c env = some ds → ds.Conforms args before v →
    fs.Kept args before v
  | .nil, ds, args, before, v, _, _, _ => by rw [SFields.Kept]; trivial
  | .cons a t rest, ds, args, before, v, hu, h, hc => by
    rw [SFields.all, Bool.and_eq_true] at hu
    obtain ⟨endian, order, ctx, dflt, d, rest', h1, h2, h3, h4, h5, h6, h7, h8⟩ := SFields.elab_cons c env a t rest ds h
    have ih := SFields.kept c env rest rest'
    rw [SFields.Kept]
    rcases h8 with ⟨e, rfl⟩ | ⟨tv, e, rfl⟩
    · rw [e, if_neg (by simp)]
      rw [DFields.Conforms] at hc
      obtain ⟨x, xs, rfl, k1, k2, k3, k4⟩ := hc
      refine ⟨x, xs, rfl, ih _ _ _ hu.2 h6 k4, ?_⟩
      rintro ha ⟨u, rfl⟩ l hl
      have hd := k1 (a.always_reads _ _ ha _ _)
      rw [a.limits_alone h7 hu.1, Option.mem_toList] at hl
      rcases h5 with ⟨n, ic, e1, e2, e3, rfl⟩ | e5
      · have : a.limit = some (.count n) := by unfold SAttrs.limit; rw [e1]
        rw [this] at hl
        cases hl
        rw [Def.Conforms] at hd
        exact hd
      · rw [hl] at e5
        simp only [STy.elab, Option.bind_eq_bind, Option.bind_eq_some_iff, Option.pure_def, Option.some.injEq] at e5
        obtain ⟨du, _, rfl⟩ := e5
        rw [Def.Conforms] at hd
        exact hd.2 rfl
    · rw [e, if_pos (by simp)]
      rw [DFields.Conforms] at hc
      obtain ⟨x, k1, k2, k3, k4⟩ := hc
      exact ⟨x, ih _ _ _ hu.2 h6 k4⟩

end Deku
