import Verif.Lemmas.Arith

/-! # Reading and writing definitions whose expressions do not overflow -/

namespace Deku

open Reader

variable {ar : Arith} {m : Machine}

theorem Def.given_ok {rd : Option Endian} {sp : Spans} : ∀ (d : Def), d.exact ar rd sp = true → ∀ e ∈ d.given, ar.ok sp e = true
  | .leaf _ _, _, e, he => by simp [Def.given] at he
  | .option t, h, e, he => Def.given_ok t (by simpa only [Def.exact] using h) e (by simpa only [Def.given] using he)
  | .array _ t, h, e, he => Def.given_ok t (by simpa only [Def.exact] using h) e (by simpa only [Def.given] using he)
  | .pair a b, h, e, he => by
    simp only [Def.exact, Bool.and_eq_true] at h
    simp only [Def.given, List.mem_append] at he
    rcases he with he | he
    · exact Def.given_ok a h.1 e he
    · exact Def.given_ok b h.2 e he
  | .vec _ _ t, h, e, he => by
    simp only [Def.exact, Bool.and_eq_true] at h
    exact Def.given_ok t h.2 e (by simpa only [Def.given] using he)
  | .bytes _ _, _, e, he => by simp [Def.given] at he
  | .struct args _ fs, h, e, he => by
    simp only [Def.exact, Bool.and_eq_true, List.all_eq_true] at h
    exact h.1 e (by simpa only [Def.given] using he)
  | .enum args _ id vs, h, e, he => by
    simp only [Def.exact, Bool.and_eq_true, List.all_eq_true] at h
    exact h.1.1 e (by simpa only [Def.given] using he)

theorem dispatch_congr {sel : Option Nat} {f g : Nat → M Reader Val} (h : ∀ i, f i = g i) : dispatch sel f = dispatch sel g := by
  rw [show f = g from funext h]

mutual

theorem Def.readIn_eq (m : Machine) (ar : Arith) : ∀ (d : Def) (sp : Spans) (env : Env), d.valid m.native = true →
    d.exact ar (some m.native) sp = true → sp.holds env → d.readIn m ar env = (d.toTy m).read m env
  | .leaf _ l, sp, env, _, _, _ => by simp only [Def.readIn, Def.toTy, Ty.read]
  | .option t, sp, env, hv, he, hh => by
    simp only [Def.valid, Def.exact] at hv he
    simp only [Def.readIn, Def.toTy, Ty.read, Def.readIn_eq m ar t sp env hv he hh]
  | .array n t, sp, env, hv, he, hh => by
    simp only [Def.valid, Def.exact] at hv he
    simp only [Def.readIn, Def.toTy, Ty.read, Def.readIn_eq m ar t sp env hv he hh, Arith.args_eq hh (Def.given_ok t he),
      Arith.bind_pure_left]
  | .pair a b, sp, env, hv, he, hh => by
    simp only [Def.valid, Def.exact, Bool.and_eq_true] at hv he
    have hg : ∀ e ∈ a.given ++ b.given, ar.ok sp e = true := fun e h => by
      rcases List.mem_append.mp h with h | h
      · exact Def.given_ok a he.1 e h
      · exact Def.given_ok b he.2 e h
    simp only [Def.readIn, Def.toTy, Ty.read, Def.readIn_eq m ar a sp env hv.1 he.1 hh,
      Def.readIn_eq m ar b sp env hv.2 he.2 hh, Arith.args_eq hh hg, Arith.bind_pure_left]
  | .vec zst l t, sp, env, hv, he, hh => by
    simp only [Def.valid, Def.exact, Bool.and_eq_true, Option.isNone_some, Bool.false_or] at hv he
    simp only [Def.readIn, Def.toTy, Ty.read, Def.readIn_eq m ar t sp env hv he.2 hh, Arith.limit_eq hh he.1,
      Arith.args_eq hh (Def.given_ok t he.2), Arith.bind_pure_left]
  | .bytes n ctx, sp, env, _, he, hh => by
    simp only [Def.exact, Option.isNone_some, Bool.false_or] at he
    simp only [Def.readIn, Def.toTy, Ty.read, Arith.get_eq hh he, Arith.bind_pure_left]
  | .struct args magic fs, sp, env, hv, he, hh => by
    simp only [Def.valid, Def.exact, Bool.and_eq_true, List.all_eq_true] at hv he
    have hi := DFields.readIn_eq m ar fs (ar.inside sp args) (inside args env) hv he.2 (hh.inside args)
    simp only [inside] at hi
    simp only [Def.readIn, Def.toTy, Ty.read, Arith.args_eq hh he.1, Arith.bind_pure_left, seekRead, hi]
  | .enum args magic id vs, sp, env, hv, he, hh => by
    simp only [Def.valid, Def.exact, Bool.and_eq_true, List.all_eq_true] at hv he
    have hin := hh.inside (ar := ar) args
    have hi := fun x typed i h => DVariants.readInAt_eq m ar vs id (ar.inside sp args) (inside args env) x typed i hv.2
      he.2 hin h
    simp only [inside] at hi hin
    simp only [Def.readIn, Def.toTy, Ty.read, Arith.args_eq hh he.1.1, Arith.bind_pure_left]
    refine congrArg _ (funext fun _ => ?_)
    cases id with
    | arg e =>
      have h2 := he.1.2
      simp only [Option.isNone_some, Bool.false_or] at h2
      simp only [Arith.get_eq hin h2, Arith.bind_pure_left, DId.toSrc]
      exact dispatch_congr fun i => hi _ false i rfl
    | typed size W c st =>
      have hiv : uintValid m.native W c = true := by
        have := hv.1
        simp only [DId.valid, Bool.and_eq_true] at this
        exact this.1
      simp only [DId.toSrc]
      refine (Leaf.span_yields (m := m) (l := .uint W c) hiv).congr fun x hx => ?_
      exact dispatch_congr fun i => hi x true i ⟨rfl, hx⟩

theorem DFields.readIn_eq (m : Machine) (ar : Arith) : ∀ (fs : DFields) (sp : Spans) (env : Env),
    fs.valid m.native = true → fs.exact ar (some m.native) sp = true → sp.holds env →
    fs.readIn m ar env = (fs.toFields m).read m env
  | .nil, sp, env, _, _, _ => by simp only [DFields.readIn, DFields.toFields, Fields.read]
  | .cons a t tl, sp, env, hv, he, hh => by
    simp only [DFields.valid, DFields.exact, Bool.and_eq_true] at hv he
    simp only [DFields.readIn, DFields.toFields, Fields.read]
    rw [Arith.readField_eq (rd' := (t.toTy m).read m) hh he.1.1
      (Def.readIn_eq m ar t sp (env.at 0) hv.1 he.1.2 (hh.at 0))]
    refine (DAttrs.span_yields (ar := ar) hh (Def.span_yields t (env.at 0) hv.1)).congr fun v hx => ?_
    rw [DFields.readIn_eq m ar tl _ (env.push v) hv.2 he.2 (hh.push hx)]
  | .temp a t value tl, sp, env, hv, he, hh => by
    simp only [DFields.valid, DFields.exact, Bool.and_eq_true] at hv he
    simp only [DFields.readIn, DFields.toFields, Fields.read]
    rw [Arith.readField_eq (rd' := (t.toTy m).read m) hh he.1.1
      (Def.readIn_eq m ar t sp (env.at 0) hv.1 he.1.2 (hh.at 0))]
    refine (DAttrs.span_yields (ar := ar) hh (Def.span_yields t (env.at 0) hv.1)).congr fun v hx => ?_
    rw [DFields.readIn_eq m ar tl _ (env.push v) hv.2 he.2 (hh.push hx)]

theorem DFields.readInStored_eq (m : Machine) (ar : Arith) : ∀ (fs : DFields) (s : Span) (sp : Spans) (env : Env) (x : Val),
    fs.valid m.native = true → fs.exactStored ar (some m.native) s sp = true → sp.holds env → s.has x.number →
    fs.readInStored m ar env x = (fs.toFields m).readStored m env x
  | .nil, s, sp, env, x, _, _, _, _ => by simp only [DFields.readInStored, DFields.toFields, Fields.readStored]
  | .cons a t tl, s, sp, env, x, hv, he, hh, hx => by
    simp only [DFields.valid, DFields.exactStored, Bool.and_eq_true] at hv he
    simp only [DFields.readInStored, DFields.toFields, Fields.readStored,
      DFields.readIn_eq m ar tl _ (env.push x) hv.2 he (hh.push hx)]
  | .temp a t value tl, s, sp, env, x, hv, he, hh, hx => by
    simp only [DFields.valid, DFields.exactStored, Bool.and_eq_true] at hv he
    simp only [DFields.readInStored, DFields.toFields, Fields.readStored,
      DFields.readIn_eq m ar tl _ (env.push x) hv.2 he (hh.push hx)]

theorem DVariants.readInAt_eq (m : Machine) (ar : Arith) : ∀ (vs : DVariants) (id : DId) (sp : Spans) (env : Env)
    (x : Val) (typed : Bool) (i : Nat), vs.valid m.native id = true → vs.exact ar (some m.native) id sp = true →
    sp.holds env →
    (match id with
      | .typed _ W c _ => typed = true ∧ ((Leaf.uint W c).span (some m.native)).has x.number
      | .arg _ => typed = false) →
    vs.readInAt m ar env x typed i = (vs.toVariants m).readAt m env x typed i
  | .nil, id, sp, env, x, typed, i, _, _, _, _ => by
    simp only [DVariants.readInAt, DVariants.toVariants, Variants.readAt]
  | .cons a fs tl, id, sp, env, x, typed, 0, hv, he, hh, hx => by
    simp only [DVariants.valid, DVariants.exact, Bool.and_eq_true] at hv he
    simp only [DVariants.readInAt, DVariants.toVariants, Variants.readAt, DVAttrs.toVAttrs]
    match id, hv, he, hx with
    | .arg e, hv, he, hx =>
      subst hx
      simp only [Bool.and_false, Bool.false_eq_true, if_false]
      exact DFields.readIn_eq m ar fs sp env hv.1.2 he.1 hh
    | .typed size W c st, hv, he, hx =>
      obtain ⟨rfl, hx'⟩ := hx
      have h1 := he.1
      dsimp only at h1
      by_cases hk : a.kind.isPat = true
      · simp only [hk, Bool.and_self, if_true] at h1 ⊢
        exact DFields.readInStored_eq m ar fs _ sp env x hv.1.2 h1 hh hx'
      · simp only [hk, Bool.false_eq_true, if_false] at h1
        simp only [hk, Bool.false_and, Bool.false_eq_true, if_false]
        exact DFields.readIn_eq m ar fs sp env hv.1.2 h1 hh
  | .cons a fs tl, id, sp, env, x, typed, i + 1, hv, he, hh, hx => by
    simp only [DVariants.valid, DVariants.exact, Bool.and_eq_true] at hv he
    simp only [DVariants.readInAt, DVariants.toVariants, Variants.readAt]
    exact DVariants.readInAt_eq m ar tl id sp env x typed i hv.2 he.2 hh hx

end

theorem DFields.number_zero : ∀ (fs : DFields) (all v : Val), fs.has all v = true → v.number = 0
  | .nil, all, v, h => by simp only [DFields.has, decide_eq_true_iff] at h; subst h; rfl
  | .cons a t tl, all, v, h => by cases v <;> simp_all [DFields.has, Val.number]
  | .temp a t value tl, all, v, h => by
    simp only [DFields.has, Bool.and_eq_true] at h
    exact DFields.number_zero tl all v h.2

theorem writeAll_congr {α : Type} {f g : α → M Writer Unit} : ∀ {l : List α}, (∀ x ∈ l, f x = g x) →
    Coll.writeAll f l = Coll.writeAll g l
  | [], _ => rfl
  | x :: tl, h => by
    simp only [Coll.writeAll, h x (by simp), writeAll_congr (l := tl) fun y hy => h y (List.mem_cons_of_mem _ hy)]

/-- The numbers a field that is written has. -/
theorem Def.span_has {d : Def} {v : Val} (h : d.has v = true) : (d.span none).has v.number := by
  cases d with
  | leaf size l => exact Leaf.span_has (by simpa only [Def.has] using h)
  | option t => exact has_zero (by cases v <;> simp_all [Def.has, Val.number])
  | array n t => exact has_zero (by cases v <;> simp_all [Def.has, Val.number, Val.isList])
  | pair a b => exact has_zero (by cases v <;> simp_all [Def.has, Val.number])
  | vec zst l t => exact has_zero (by cases v <;> simp_all [Def.has, Val.number, Val.isList])
  | bytes n ctx => exact has_zero (by cases v <;> simp_all [Def.has, Val.number, Val.isBytes, Val.isList])
  | struct args magic fs =>
    exact has_zero (DFields.number_zero fs v v (by simpa only [Def.has] using h))
  | enum args magic id vs => exact has_zero (by cases v <;> simp_all [Def.has, Val.number])

theorem DAttrs.span_written {sp : Spans} {env : Env} (hh : sp.holds env) {a : DAttrs} {s : Span} {v : Val}
    (hv : s.has v.number) {w w' : Writer} (hk : a.toAttrs.check (env.at 0) v w = (.ok (), w')) :
    (a.span ar none sp s).has v.number := by
  cases he : a.assertEq with
  | none => simp only [DAttrs.span, he, Option.isSome_none, Bool.false_and, Bool.false_eq_true, if_false]; exact hv
  | some e =>
    simp only [Attrs.check, DAttrs.toAttrs, he, Option.map_some, Bool.true_eq_false, if_false] at hk
    by_cases hx : v = e.val (env.at 0)
    · subst hx
      simp only [DAttrs.span, he]
      exact Arith.span_has (hh.at 0) e
    · rw [if_pos hx] at hk
      cases hk

/-- A field that is written without an error passes its assertion. -/
theorem Attrs.write_check {a : DAttrs} {native : Endian} {wr : Env → Val → M Writer Unit} {env : Env} {v : Val}
    {w w' : Writer} {u : Unit} (h : a.toAttrs.write native wr env v w = (.ok u, w')) :
    ∃ w1 w2 : Writer, a.toAttrs.check (env.at 0) v w1 = (.ok (), w2) := by
  rw [Arith.write_toAttrs] at h
  obtain ⟨_, w1, _, h⟩ := M.bind_eq_ok h
  obtain ⟨_, w2, _, h⟩ := M.bind_eq_ok h
  obtain ⟨_, w3, h3, _⟩ := M.bind_eq_ok h
  exact ⟨w2, w3, h3⟩

mutual

theorem Def.writeIn_eq (m : Machine) (ar : Arith) : ∀ (d : Def) (sp : Spans) (env : Env) (v : Val),
    d.valid m.native = true → d.exact ar none sp = true → sp.holds env → d.has v = true →
    d.writeIn m ar env v = (d.toTy m).write m env v
  | .leaf _ l, sp, env, v, _, _, _, _ => by simp only [Def.writeIn, Def.toTy, Ty.write]
  | .option t, sp, env, v, hv, he, hh, ht => by
    simp only [Def.valid, Def.exact] at hv he
    match v, ht with
    | .none, _ =>
      simp only [Def.writeIn, Def.toTy, Ty.write, Arith.args_eq hh (Def.given_ok t he), Arith.bind_pure_left]
    | .some x, ht =>
      simp only [Def.has] at ht
      simp only [Def.writeIn, Def.toTy, Ty.write, Def.writeIn_eq m ar t sp env x hv he hh ht]
  | .array n t, sp, env, v, hv, he, hh, ht => by
    simp only [Def.valid, Def.exact] at hv he
    simp only [Def.has, Bool.and_eq_true, List.all_eq_true] at ht
    simp only [Def.writeIn, Def.toTy, Ty.write, Arith.args_eq hh (Def.given_ok t he), Arith.bind_pure_left]
    rw [writeAll_congr fun x hx => Def.writeIn_eq m ar t sp env x hv he hh (ht.2 x hx)]
  | .pair a b, sp, env, v, hv, he, hh, ht => by
    simp only [Def.valid, Def.exact, Bool.and_eq_true] at hv he
    have hg : ∀ e ∈ a.given ++ b.given, ar.ok sp e = true := fun e h => by
      rcases List.mem_append.mp h with h | h
      · exact Def.given_ok a he.1 e h
      · exact Def.given_ok b he.2 e h
    match v, ht with
    | .cons x (.cons y .nil), ht =>
      simp only [Def.has, Bool.and_eq_true] at ht
      simp only [Def.writeIn, Def.toTy, Ty.write, Def.writeIn_eq m ar a sp env x hv.1 he.1 hh ht.1,
        Def.writeIn_eq m ar b sp env y hv.2 he.2 hh ht.2, Arith.args_eq hh hg, Arith.bind_pure_left]
  | .vec zst l t, sp, env, v, hv, he, hh, ht => by
    simp only [Def.valid, Def.exact, Bool.and_eq_true] at hv he
    simp only [Def.has, Bool.and_eq_true, List.all_eq_true] at ht
    simp only [Def.writeIn, Def.toTy, Ty.write, Arith.args_eq hh (Def.given_ok t he.2), Arith.bind_pure_left]
    rw [writeAll_congr fun x hx => Def.writeIn_eq m ar t sp env x hv he.2 hh (ht.2 x hx)]
  | .bytes n ctx, sp, env, v, _, _, _, _ => by simp only [Def.writeIn, Def.toTy, Ty.write]
  | .struct args magic fs, sp, env, v, hv, he, hh, ht => by
    simp only [Def.valid, Def.exact, Bool.and_eq_true, List.all_eq_true] at hv he
    simp only [Def.has] at ht
    have hi := DFields.writeIn_eq m ar fs (ar.inside sp args) (inside args env) v v hv he.2 (hh.inside args) ht
    simp only [inside] at hi
    simp only [Def.writeIn, Def.toTy, Ty.write, Arith.args_eq hh he.1, Arith.bind_pure_left, seekWrite, hi]
  | .enum args magic id vs, sp, env, v, hv, he, hh, ht => by
    simp only [Def.valid, Def.exact, Bool.and_eq_true, List.all_eq_true] at hv he
    match v, ht with
    | .variant i fs, ht =>
      simp only [Def.has] at ht
      have hi := DVariants.writeInAt_eq m ar vs id (ar.inside sp args) (inside args env) i fs hv.2 he.2
        (hh.inside args) ht
      simp only [inside] at hi
      simp only [Def.writeIn, Def.toTy, Ty.write, Arith.args_eq hh he.1.1, Arith.bind_pure_left, hi]

theorem DFields.writeIn_eq (m : Machine) (ar : Arith) : ∀ (fs : DFields) (sp : Spans) (env : Env) (all v : Val),
    fs.valid m.native = true → fs.exact ar none sp = true → sp.holds env → fs.has all v = true →
    fs.writeIn m ar env all v = (fs.toFields m).write m env all v
  | .nil, sp, env, all, v, _, _, _, _ => by simp only [DFields.writeIn, DFields.toFields, Fields.write]
  | .cons a t tl, sp, env, all, v, hv, he, hh, ht => by
    simp only [DFields.valid, DFields.exact, Bool.and_eq_true] at hv he
    match v, ht with
    | .cons x xs, ht =>
      simp only [DFields.has, Bool.and_eq_true] at ht
      simp only [DFields.writeIn, DFields.toFields, Fields.write]
      rw [Arith.writeField_eq (wr' := (t.toTy m).write m) hh he.1.1
        (Def.writeIn_eq m ar t sp (env.at 0) x hv.1 he.1.2 (hh.at 0) ht.1)]
      refine M.bind_congr_ok fun w u w' h => ?_
      obtain ⟨w1, w2, hk⟩ := Attrs.write_check h
      rw [DFields.writeIn_eq m ar tl _ (env.push x) all xs hv.2 he.2
        (hh.push (DAttrs.span_written hh (Def.span_has ht.1) hk)) ht.2]
  | .temp a t value tl, sp, env, all, v, hv, he, hh, ht => by
    simp only [DFields.valid, DFields.exact, Bool.and_eq_true] at hv he
    simp only [DFields.has, Bool.and_eq_true] at ht
    simp only [DFields.writeIn, DFields.toFields, Fields.write]
    rw [Arith.writeField_eq (wr' := (t.toTy m).write m) hh he.1.1
      (Def.writeIn_eq m ar t sp (env.at 0) _ hv.1 he.1.2 (hh.at 0) ht.1)]
    refine M.bind_congr_ok fun w u w' h => ?_
    obtain ⟨w1, w2, hk⟩ := Attrs.write_check h
    rw [DFields.writeIn_eq m ar tl _ (env.push _) all v hv.2 he.2
      (hh.push (DAttrs.span_written hh (Def.span_has ht.1) hk)) ht.2]

theorem DFields.writeInStored_eq (m : Machine) (ar : Arith) (size : Option Nat) (W : Nat) (c st : IntCtx) :
    ∀ (fs : DFields) (sp : Spans) (env : Env) (v : Val),
    fs.valid m.native = true → fs.exactStored ar none ((Leaf.uint W c).span none) sp = true → sp.holds env →
    fs.hasStored W v = true →
    fs.writeInStored m ar (.typed size W c st) env v =
      (fs.toFields m).writeStored m (DId.store m (.typed size W c st)) env v
  | .nil, sp, env, v, _, _, _, _ => by simp only [DFields.writeInStored, DFields.toFields, Fields.writeStored]
  | .cons a t tl, sp, env, v, hv, he, hh, ht => by
    simp only [DFields.valid, DFields.exactStored, Bool.and_eq_true] at hv he
    match v, ht with
    | .cons x xs, ht =>
      simp only [DFields.hasStored, Bool.and_eq_true] at ht
      have hx : ((Leaf.uint W c).span none).has x.number := Leaf.span_has (l := .uint W c) ht.1
      simp only [DFields.writeInStored, DFields.toFields, Fields.writeStored]
      rw [DFields.writeIn_eq m ar tl _ (env.push x) (.cons x xs) xs hv.2 he (hh.push hx) ht.2]
  | .temp a t value tl, sp, env, v, hv, he, hh, ht => by
    simp only [DFields.writeInStored, DFields.toFields, Fields.writeStored]

theorem DVariants.writeInAt_eq (m : Machine) (ar : Arith) : ∀ (vs : DVariants) (id : DId) (sp : Spans) (env : Env)
    (i : Nat) (v : Val), vs.valid m.native id = true → vs.exact ar none id sp = true → sp.holds env →
    vs.hasAt id i v = true →
    vs.writeInAt m ar env id i v = (vs.toVariants m).writeAt m env (id.toSrc m) (id.store m) i v
  | .nil, id, sp, env, i, v, _, _, _, _ => by simp only [DVariants.writeInAt, DVariants.toVariants, Variants.writeAt]
  | .cons a fs tl, id, sp, env, 0, v, hv, he, hh, ht => by
    simp only [DVariants.valid, DVariants.exact, Bool.and_eq_true] at hv he
    simp only [DVariants.writeInAt, DVariants.toVariants, Variants.writeAt, DVAttrs.toVAttrs]
    match id, hv, he, ht with
    | .arg e, hv, he, ht =>
      have hk : a.kind.isPat = false := by
        have := hv.1.1
        simp only [DId.allows] at this
        simpa using this
      simp only [DVariants.hasAt] at ht
      simp only [DId.toSrc, hk, Bool.false_eq_true, if_false, DFields.writeIn_eq m ar fs sp env v v hv.1.2 he.1 hh ht]
    | .typed size W c st, hv, he, ht =>
      have h1 := he.1
      dsimp only at h1
      simp only [DVariants.hasAt] at ht
      simp only [DId.toSrc]
      by_cases hk : a.kind.isPat = true
      · simp only [hk, if_true] at h1 ht ⊢
        rw [DFields.writeInStored_eq m ar size W c st fs sp env v hv.1.2 h1 hh ht]
        cases a.kind.idVal <;> rfl
      · simp only [hk, Bool.false_eq_true, if_false] at h1 ht ⊢
        rw [DFields.writeIn_eq m ar fs sp env v v hv.1.2 h1 hh ht]
        cases a.kind.idVal <;> rfl
  | .cons a fs tl, id, sp, env, i + 1, v, hv, he, hh, ht => by
    simp only [DVariants.valid, DVariants.exact, Bool.and_eq_true] at hv he
    simp only [DVariants.hasAt] at ht
    simp only [DVariants.writeInAt, DVariants.toVariants, Variants.writeAt]
    exact DVariants.writeInAt_eq m ar tl id sp env i v hv.2 he.2 hh ht

end

end Deku
