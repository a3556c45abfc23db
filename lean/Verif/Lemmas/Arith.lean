import Verif.Lemmas.ArithExpr
import Verif.Lemmas.CoreQuiet

/-! # Definitions whose expressions do not overflow -/

namespace Deku

open Reader

variable {σ : Type} {ar : Arith} {sp : Spans} {env : Env} {m : Machine}

/-! ### what is in scope -/

namespace Spans.holds

theorem «at» (h : sp.holds env) (off : Nat) : sp.holds (env.at off) := h

theorem push (h : sp.holds env) {s : Span} {v : Val} (hv : s.has v.number) : (sp.push s).holds (env.push v) := by
  refine ⟨fun i a b e => ?_, h.2⟩
  cases i with
  | zero =>
    simp only [Spans.push, List.getElem?_cons_zero, Option.some.injEq] at e
    have := hv a b e
    have hn : (Expr.field 0).eval (env.push v) = v.number := by
      simp only [Expr.eval, Env.push, List.getElem?_cons_zero]
      cases v <;> rfl
    rw [hn]
    exact this
  | succ i =>
    simp only [Spans.push, List.getElem?_cons_succ] at e
    exact h.1 i a b e

theorem inside (h : sp.holds env) (args : List Expr) : (ar.inside sp args).holds (Deku.inside args env) := by
  refine ⟨fun i a b e => by simp [Arith.inside] at e, fun i a b e => ?_⟩
  simp only [Arith.inside, List.getElem?_map, Option.map_eq_some_iff] at e
  obtain ⟨x, hx, hs⟩ := e
  have hn : (Expr.arg i).eval (Deku.inside args env) = x.eval env := by
    simp only [Expr.eval, Deku.inside, List.getElem?_map, hx, Option.map_some, Expr.val]
  rw [hn]
  exact Arith.span_has h x a b hs

end Spans.holds

/-! ### what is read -/

theorem Leaf.span_has {l : Leaf} {v : Val} (h : l.has v = true) : (l.span none).has v.number := by
  cases l with
  | uint W ctx =>
    obtain ⟨n, rfl, h1, h2⟩ := Leaf.has_uint.mp h
    simp only [Leaf.span, Span.has_some, Val.number]
    have : ((256 ^ W : Nat) : Int) = 256 ^ W := Int.natCast_pow 256 W
    omega
  | nonzero W ctx =>
    obtain ⟨n, rfl, h1, h2⟩ := Leaf.has_nonzero.mp h
    simp only [Leaf.span, Span.has_some, Val.number]
    have : ((256 ^ W : Nat) : Int) = 256 ^ W := Int.natCast_pow 256 W
    omega
  | sint W ctx => exact Span.has_none _
  | nonzeroSigned W ctx => exact Span.has_none _
  | bool ctx =>
    simp only [Leaf.span, Span.has_some]
    cases v <;> simp_all [Leaf.has, Val.number]
    omega
  | cstring =>
    simp only [Leaf.span, Span.has_some]
    cases v <;> simp_all [Leaf.has, Val.isCString, Val.isBytes, Val.isList, Val.number]
  | cstringSized n =>
    simp only [Leaf.span, Span.has_some]
    cases v <;> simp_all [Leaf.has, Val.isCString, Val.isBytes, Val.isList, Val.number]
  | unit =>
    simp only [Leaf.span, Span.has_some]
    cases v <;> simp_all [Leaf.has, Val.number]

theorem Leaf.span_yields {l : Leaf} (hv : l.valid m.native = true) :
    Yields (fun v => (l.span (some m.native)).has v.number) (l.codec m).read := by
  have hh := Leaf.read_has m l
  cases l with
  | uint W ctx =>
    refine (Prim.readUnsigned_most (ctx := ctx) hv).bind fun n hn => Keeps.pure ?_
    simp only [Leaf.span, Span.has_some, Val.number]
    omega
  | nonzero W ctx =>
    refine Keeps.bind (R := fun n : Nat => 0 < n ∧ (n : Int) ≤ (Leaf.uint W ctx).most m.native) ?_
      fun n hn => Keeps.pure ?_
    · exact (Prim.readUnsigned_most (ctx := ctx) hv).bind fun n hn =>
        Yields.ite (fun _ => Keeps.throw) fun h => Keeps.pure ⟨Nat.pos_of_ne_zero h, hn⟩
    · have he : (Leaf.nonzero W ctx).most m.native = (Leaf.uint W ctx).most m.native := rfl
      simp only [Leaf.span, Span.has_some, Val.number, he]
      omega
  | sint W ctx => exact Yields.of fun _ _ _ _ => Span.has_none _
  | nonzeroSigned W ctx => exact Yields.of fun _ _ _ _ => Span.has_none _
  | bool ctx => exact hh.mono fun v h => Leaf.span_has h
  | cstring => exact hh.mono fun v h => Leaf.span_has h
  | cstringSized n => exact hh.mono fun v h => Leaf.span_has h
  | unit => exact hh.mono fun v h => Leaf.span_has h

theorem Fields.number_zero (m : Machine) : ∀ (fs : Fields) (env : Env), Yields (fun v => v.number = 0) (fs.read m env)
  | .nil, _ => by simp only [Fields.read]; exact Keeps.pure rfl
  | .cons a t tl, env => by
    simp only [Fields.read]
    exact Yields.after fun _ => Yields.after fun _ => Keeps.pure rfl
  | .temp a t f tl, env => by
    simp only [Fields.read]
    exact Yields.after fun v => Fields.number_zero m tl _

theorem has_zero {v : Val} (h : v.number = 0) : Span.has (some (0, 0)) v.number := by
  rw [Span.has_some, h]; exact ⟨Int.le_refl _, Int.le_refl _⟩

theorem Def.span_yields (d : Def) (env : Env) (hv : d.valid m.native = true) :
    Yields (fun v => (d.span (some m.native)).has v.number) ((d.toTy m).read m env) := by
  cases d with
  | leaf size l =>
    simp only [Def.toTy, Ty.read, Def.span]
    exact Leaf.span_yields hv
  | option t =>
    simp only [Def.toTy, Ty.read, Def.span]
    exact Yields.after fun _ => Keeps.pure (has_zero rfl)
  | array n t =>
    simp only [Def.toTy, Ty.read, Def.span]
    exact Yields.after fun _ => Keeps.pure (has_zero (number_ofList _))
  | pair a b =>
    simp only [Def.toTy, Ty.read, Def.span]
    exact Yields.after fun _ => Yields.after fun _ => Keeps.pure (has_zero rfl)
  | vec zst l t =>
    simp only [Def.toTy, Ty.read, Def.span]
    exact Yields.after fun _ => Yields.after fun _ => Keeps.pure (has_zero (number_ofList _))
  | bytes n ctx =>
    simp only [Def.toTy, Ty.read, Def.span]
    exact Yields.after fun _ => Yields.after fun _ => Keeps.pure (has_zero (number_ofList _))
  | struct args magic fs =>
    simp only [Def.toTy, Ty.read, Def.span]
    exact Yields.after fun _ => Yields.after fun _ => (Fields.number_zero m _ _).mono fun v h => has_zero h
  | enum args magic id vs =>
    have hd : ∀ sel arm, Yields (fun v => Span.has (some (0, 0)) v.number) (dispatch sel arm) := by
      intro sel arm
      cases sel with
      | none => exact Keeps.throw
      | some i => exact Yields.after fun _ => Keeps.pure (has_zero rfl)
    simp only [Def.toTy, Ty.read, Def.span]
    refine Yields.after fun _ => ?_
    cases id with
    | arg e => exact hd _ _
    | typed size W c st => exact Yields.after fun x => hd _ _

/-! ### fields -/

namespace Arith

theorem check_eq (hh : sp.holds env) {a : DAttrs} (h : ∀ e, a.assertEq = some e → ar.ok sp e = true) (v : Val) :
    (ar.check a env v : M σ Unit) = a.toAttrs.check env v := by
  simp only [check, Attrs.check, DAttrs.toAttrs]
  cases he : a.assertEq with
  | none => rfl
  | some e => simp only [get_eq hh (h e he)]; rfl

theorem isRead_eq (hh : sp.holds env) {a : DAttrs}
    (h : ∀ c, a.skip ≠ some .write → a.cond = some c → ar.okCond sp c = true) :
    (ar.isRead a env : M σ Bool) = pure (a.toAttrs.isRead env) := by
  simp only [isRead, Attrs.isRead, DAttrs.toAttrs]
  cases hs : a.skip with
  | none =>
    cases hc : a.cond with
    | none => rfl
    | some c => simp only [test_eq hh (h c (by simp [hs]) hc), must, Option.map_some]
  | some k =>
    cases k with
    | all =>
      cases hc : a.cond with
      | none => rfl
      | some c => simp only [test_eq hh (h c (by simp [hs]) hc), must, Option.map_some]; rfl
    | read =>
      cases hc : a.cond with
      | none => rfl
      | some c => simp only [test_eq hh (h c (by simp [hs]) hc), must, Option.map_some]; rfl
    | write => cases hc : a.cond <;> rfl

theorem isWritten_eq (hh : sp.holds env) {a : DAttrs}
    (h : ∀ c, a.skip = some .all ∨ a.skip = some .write → a.cond = some c → ar.okCond sp c = true) :
    (ar.isWritten a env : M σ Bool) = pure (a.toAttrs.isWritten env) := by
  simp only [isWritten, Attrs.isWritten, DAttrs.toAttrs]
  cases hs : a.skip with
  | none => cases hc : a.cond <;> rfl
  | some k =>
    cases k with
    | all =>
      cases hc : a.cond with
      | none => rfl
      | some c => simp only [test_eq hh (h c (by simp [hs]) hc), must, Option.map_some]; rfl
    | write =>
      cases hc : a.cond with
      | none => rfl
      | some c => simp only [test_eq hh (h c (by simp [hs]) hc), must, Option.map_some]; rfl
    | read => cases hc : a.cond <;> rfl

theorem exact_parts {rd : Option Endian} {a : DAttrs} (h : a.exact ar rd sp = true) :
    (∀ c, a.asks rd = true → a.cond = some c → ar.okCond sp c = true) ∧
    ∀ e, a.assertEq = some e → ar.ok sp e = true := by
  simp only [DAttrs.exact, Bool.and_eq_true, Bool.or_eq_true, Bool.not_eq_true'] at h
  refine ⟨fun c ha hc => ?_, fun e he => ?_⟩
  · rcases h.1 with h1 | h1
    · rw [h1] at ha; cases ha
    · rw [hc] at h1; exact h1
  · have := h.2
    rw [he] at this
    exact this

theorem read_toAttrs (a : DAttrs) (native : Endian) (rd : Env → M Reader Val) (env : Env) :
    a.toAttrs.read native rd env = (do
      magicRead native a.magic
      padRead a.padOrder (a.padBefore.map fun n _ => n) env
      let v ← a.toAttrs.value rd (env.at 0)
      a.toAttrs.check (env.at 0) v
      padRead a.padOrder (a.padAfter.map fun n _ => n) ((env.at 0).push v)
      pure v) := rfl

theorem write_toAttrs (a : DAttrs) (native : Endian) (wr : Env → Val → M Writer Unit) (env : Env) (v : Val) :
    a.toAttrs.write native wr env v = (do
      magicWrite native a.magic
      padWrite a.padOrder (a.padBefore.map fun n _ => n) env
      a.toAttrs.check (env.at 0) v
      a.toAttrs.put wr (env.at 0) v
      padWrite a.padOrder (a.padAfter.map fun n _ => n) ((env.at 0).push v)) := rfl

theorem bind_pure_left {τ α β : Type} (x : α) (f : α → M τ β) : ((pure x : M τ α) >>= f) = f x := rfl

theorem bind_pure_right {τ α : Type} (x : M τ α) : (x >>= fun v => pure v) = x := by
  funext s
  rw [M.bind_def]
  cases x s with
  | mk r s' => cases r <;> rfl

theorem readField_eq (hh : sp.holds env) {a : DAttrs} (h : a.exact ar (some m.native) sp = true)
    {rd rd' : Env → M Reader Val} (he : rd (env.at 0) = rd' (env.at 0)) :
    ar.readField a m.native rd env = a.toAttrs.read m.native rd' env := by
  obtain ⟨hc, ha⟩ := exact_parts h
  have h1 : (ar.isRead a (env.at 0) : M Reader Bool) = pure (a.toAttrs.isRead (env.at 0)) :=
    isRead_eq (hh.at 0) fun c hs => hc c (by simpa [DAttrs.asks] using hs)
  have hk : ∀ v, (ar.check a (env.at 0) v : M Reader Unit) = a.toAttrs.check (env.at 0) v :=
    fun v => check_eq (hh.at 0) ha v
  have hv : (if a.toAttrs.isRead (env.at 0) = true then rd' (env.at 0) else pure a.default) =
      a.toAttrs.value rd' (env.at 0) := by
    simp only [Attrs.value]
    split
    · exact (bind_pure_right _).symm
    · rfl
  rw [read_toAttrs, ← hv]
  simp only [readField, h1, he, hk, bind_pure_left]
  funext r
  split <;> rfl

theorem writeField_eq (hh : sp.holds env) {a : DAttrs} (h : a.exact ar none sp = true)
    {wr wr' : Env → Val → M Writer Unit} {v : Val} (he : wr (env.at 0) v = wr' (env.at 0) v) :
    ar.writeField a m.native wr env v = a.toAttrs.write m.native wr' env v := by
  obtain ⟨hc, ha⟩ := exact_parts h
  have h1 : (ar.isWritten a (env.at 0) : M Writer Bool) = pure (a.toAttrs.isWritten (env.at 0)) :=
    isWritten_eq (hh.at 0) fun c hs => hc c (by simpa [DAttrs.asks] using hs)
  have hk : (ar.check a (env.at 0) v : M Writer Unit) = a.toAttrs.check (env.at 0) v := check_eq (hh.at 0) ha v
  have hp : a.toAttrs.put wr' (env.at 0) v =
      if a.toAttrs.isWritten (env.at 0) = true then wr' (env.at 0) v else pure () := rfl
  rw [write_toAttrs, hp]
  simp only [writeField, h1, he, hk, bind_pure_left]
  funext r
  split <;> rfl

end Arith

/-- The numbers a field that is read has. -/
theorem DAttrs.span_yields (hh : sp.holds env) {a : DAttrs} {s : Span} {rd : Env → M Reader Val}
    (h : Yields (fun v => s.has v.number) (rd (env.at 0))) :
    Yields (fun v => (a.span ar (some m.native) sp s).has v.number) (a.toAttrs.read m.native rd env) := by
  rw [Arith.read_toAttrs]
  refine Yields.after fun _ => Yields.after fun _ => ?_
  have hv : Yields (fun v => a.assertEq = none → (a.span ar (some m.native) sp s).has v.number)
      (a.toAttrs.value rd (env.at 0)) := by
    simp only [Attrs.value]
    by_cases hr : a.toAttrs.isRead (env.at 0) = true
    · rw [if_pos hr]
      refine h.bind fun v hv => ?_
      refine Keeps.pure fun he => ?_
      simp only [DAttrs.span, he]
      split
      · intro x y e
        match s, hv, e with
        | some (p, q), hv, e =>
          by_cases h0 : 0 ≤ a.default.number
          · rw [if_pos h0] at e
            simp only [Span.join] at e
            cases e
            have := hv p q rfl
            omega
          · rw [if_neg h0] at e
            simp [Span.join] at e
        | none, _, e => simp [Span.join] at e
      · exact hv
    · rw [if_neg hr]
      refine Keeps.pure fun he => ?_
      have hm : a.mayDefault = true := by
        simp only [DAttrs.toAttrs, Attrs.isRead] at hr
        simp only [DAttrs.mayDefault]
        cases hs : a.skip with
        | none => cases hc : a.cond <;> simp_all
        | some k => cases k <;> cases hc : a.cond <;> simp_all
      simp only [DAttrs.span, he, hm, Option.isSome_some, Bool.and_self, if_true]
      intro x y e
      show (x : Int) ≤ a.default.number ∧ a.default.number ≤ y
      by_cases h0 : 0 ≤ a.default.number
      · rw [if_pos h0] at e
        match s, e with
        | some (p, q), e => simp only [Span.join] at e; cases e; omega
        | none, e => simp [Span.join] at e
      · rw [if_neg h0] at e
        cases s <;> simp [Span.join] at e
  refine Keeps.bind hv fun v hv => ?_
  refine Keeps.bind (R := fun _ => (a.span ar (some m.native) sp s).has v.number) ?_ fun _ hs =>
    Yields.after fun _ => Keeps.pure hs
  cases he : a.assertEq with
  | none => exact Yields.of fun _ _ _ _ => hv he
  | some e =>
    refine Yields.of fun s u s' hk => ?_
    simp only [Attrs.check, DAttrs.toAttrs, he, Option.map_some, Bool.true_eq_false, if_false] at hk
    by_cases hx : v = e.val (env.at 0)
    · subst hx
      simp only [DAttrs.span, he]
      exact Arith.span_has (hh.at 0) e
    · rw [if_pos hx] at hk
      cases hk

end Deku
