import Verif.Lemmas.ReadAllEnds
import Verif.Lemmas.Wire

/-!
# Sources in which `read_all` is replaced by a size
-/

namespace Deku

variable (n : Nat)

/-! ### attributes -/

namespace SAttrs

variable (a : SAttrs)

theorem closing_ordered (o : Order) (c : Container) (env : List Arg) : (a.closing n).ordered o c env = a.ordered o c env := by
  unfold closing; split <;> rfl
theorem closing_padless : (a.closing n).padless = a.padless := by unfold closing; split <;> rfl
theorem closing_wire (o : Order) : (a.closing n).wire o = a.wire o := by unfold closing; split <;> rfl
theorem closing_defaultValue : (a.closing n).defaultValue = a.defaultValue := by unfold closing; split <;> rfl
theorem closing_rest : (a.closing n).rest = a.rest := by unfold closing; split <;> rfl
theorem closing_endian : (a.closing n).endian = a.endian := by unfold closing; split <;> rfl
theorem closing_bits : (a.closing n).bits = a.bits := by unfold closing; split <;> rfl
theorem closing_bytes : (a.closing n).bytes = a.bytes := by unfold closing; split <;> rfl
theorem closing_ctx : (a.closing n).ctx = a.ctx := by unfold closing; split <;> rfl
theorem closing_fast : (a.closing n).fast = a.fast := by unfold closing; split <;> rfl
theorem closing_eager : (a.closing n).eager = a.eager := by unfold closing; split <;> rfl
theorem closing_phases (o : Order) (order : Option Order) : (a.closing n).phases o order = a.phases o order := by
  unfold closing; split <;> rfl

theorem closing_mark (t : STy) : (a.closing n).mark (t.closing n) = a.mark t := by
  unfold mark
  rw [closing_count, STy.closing_isVecU8]

theorem allAlone_of_validate {a : SAttrs} (h : a.validate = true) : a.allAlone = true := by
  unfold validate at h
  unfold allAlone
  revert h
  cases a.readAll <;> cases a.count <;> cases a.bytesRead <;> cases a.bitsRead <;> cases a.untilEq <;> simp

theorem closing_validate {a : SAttrs} (h : a.validate = true) : (a.closing n).validate = true := by
  have h1 := allAlone_of_validate h
  unfold allAlone at h1
  unfold closing
  by_cases hr : a.readAll = true
  · rw [if_pos hr]
    rw [hr] at h1
    simp only [Bool.not_true, Bool.false_or, Bool.and_eq_true, Option.isNone_iff_eq_none] at h1
    obtain ⟨⟨⟨h2, h3⟩, h4⟩, h5⟩ := h1
    unfold validate at h ⊢
    dsimp only
    rw [hr, h2, h3, h4, h5] at h
    rw [h2, h3]
    simpa using h
  · rw [if_neg hr]; exact h

theorem closing_limit {a : SAttrs} (h : a.validate = true) : (a.closing n).limit = a.limit.map (Lim.closing n) := by
  have h1 := allAlone_of_validate h
  unfold allAlone at h1
  by_cases hr : a.readAll = true
  · rw [hr] at h1
    simp only [Bool.not_true, Bool.false_or, Bool.and_eq_true, Option.isNone_iff_eq_none] at h1
    obtain ⟨⟨⟨h2, h3⟩, h4⟩, h5⟩ := h1
    unfold closing limit
    rw [if_pos hr]
    dsimp only
    rw [h2, h3, h5, hr]
    rfl
  · rw [closing_of_not n (by simpa using hr)]
    unfold limit
    cases a.count with
    | some e => rfl
    | none =>
      cases a.bytesRead with
      | some e => rfl
      | none =>
        cases a.untilEq with
        | some e => rfl
        | none =>
          dsimp only
          rw [if_neg hr]
          cases a.bitsRead <;> rfl

theorem closing_anySet {a : SAttrs} (h : a.anySet = false) : a.closing n = a := by
  unfold anySet at h
  simp only [Bool.or_eq_false_iff] at h
  exact closing_of_not n h.1.2

end SAttrs

theorem SVariants.closing_anyPat : ∀ vs : SVariants, (vs.closing n).anyPat = vs.anyPat
  | .nil => by rw [SVariants.closing]
  | .cons a fs rest => by rw [SVariants.closing, SVariants.anyPat, SVariants.anyPat, closing_anyPat rest]

theorem SVariants.closing_defaults : ∀ vs : SVariants, (vs.closing n).defaults = vs.defaults
  | .nil => by rw [SVariants.closing]
  | .cons a fs rest => by rw [SVariants.closing, SVariants.defaults, SVariants.defaults, closing_defaults rest]

/-! ### what does not depend on limits -/

mutual

theorem STy.closing_ordered (o : Order) (native : Endian) : ∀ (t : STy) (args : List Arg),
    (t.closing n).ordered o native args = t.ordered o native args
  | .base b, args => by rw [STy.closing]
  | .option t, args => by rw [STy.closing, STy.ordered, STy.ordered, t.closing_ordered]
  | .array k t, args => by rw [STy.closing, STy.ordered, STy.ordered, t.closing_ordered]
  | .pair a b, args => by rw [STy.closing, STy.ordered, STy.ordered, a.closing_ordered, b.closing_ordered]
  | .vec zst t, args => by rw [STy.closing, STy.ordered, STy.ordered, t.closing_ordered]
  | .struct c fs, args => by rw [STy.closing, STy.ordered, STy.ordered, fs.closing_ordered]
  | .enum c id vs, args => by rw [STy.closing, STy.ordered, STy.ordered, vs.closing_ordered]

theorem SFields.closing_ordered (o : Order) (native : Endian) (c : Container) : ∀ (fs : SFields) (args : List Arg),
    (fs.closing n).ordered o native c args = fs.ordered o native c args
  | .nil, args => by rw [SFields.closing]
  | .cons a t rest, args => by
    rw [SFields.closing, SFields.ordered, SFields.ordered, a.closing_ordered, a.closing_passes, t.closing_ordered,
      rest.closing_ordered]

theorem SVariants.closing_ordered (o : Order) (native : Endian) (c : Container) : ∀ (vs : SVariants) (args : List Arg),
    (vs.closing n).ordered o native c args = vs.ordered o native c args
  | .nil, args => by rw [SVariants.closing]
  | .cons a fs rest, args => by
    rw [SVariants.closing, SVariants.ordered, SVariants.ordered, fs.closing_ordered, rest.closing_ordered]

end

mutual

theorem STy.closing_sized : ∀ (t : STy) (args : List Arg), (t.closing n).sized args = t.sized args
  | .base b, args => by rw [STy.closing]
  | .option t, args => by rw [STy.closing, STy.sized, STy.sized, t.closing_sized]
  | .array k t, args => by rw [STy.closing, STy.sized, STy.sized, t.closing_sized]
  | .pair a b, args => by rw [STy.closing, STy.sized, STy.sized, a.closing_sized, b.closing_sized]
  | .vec zst t, args => by rw [STy.closing, STy.sized, STy.sized, t.closing_sized]
  | .struct c fs, args => by rw [STy.closing, STy.sized, STy.sized, fs.closing_sized]
  | .enum c id vs, args => by rw [STy.closing, STy.sized, STy.sized, vs.closing_sized]

theorem SFields.closing_sized (c : Container) : ∀ (fs : SFields) (args : List Arg),
    (fs.closing n).sized c args = fs.sized c args
  | .nil, args => by rw [SFields.closing]
  | .cons a t rest, args => by
    rw [SFields.closing, SFields.sized, SFields.sized, a.closing_passes, t.closing_sized, rest.closing_sized]

theorem SVariants.closing_sized (c : Container) (id : SId) : ∀ (vs : SVariants) (args : List Arg),
    (vs.closing n).sized c id args = vs.sized c id args
  | .nil, args => by rw [SVariants.closing]
  | .cons a fs rest, args => by
    rw [SVariants.closing, SVariants.sized, SVariants.sized, fs.closing_sized, rest.closing_sized]

end

mutual

theorem STy.closing_idsNamed : ∀ t : STy, (t.closing n).idsNamed = t.idsNamed
  | .base b => by rw [STy.closing]
  | .option t => by rw [STy.closing, STy.idsNamed, STy.idsNamed, t.closing_idsNamed]
  | .array k t => by rw [STy.closing, STy.idsNamed, STy.idsNamed, t.closing_idsNamed]
  | .pair a b => by rw [STy.closing, STy.idsNamed, STy.idsNamed, a.closing_idsNamed, b.closing_idsNamed]
  | .vec zst t => by rw [STy.closing, STy.idsNamed, STy.idsNamed, t.closing_idsNamed]
  | .struct c fs => by rw [STy.closing, STy.idsNamed, STy.idsNamed, fs.closing_idsNamed]
  | .enum c id vs => by
    rw [STy.closing, STy.idsNamed, STy.idsNamed, vs.closing_idsNamed, SVariants.closing_anyPat]

theorem SFields.closing_idsNamed : ∀ fs : SFields, (fs.closing n).idsNamed = fs.idsNamed
  | .nil => by rw [SFields.closing]
  | .cons a t rest => by
    rw [SFields.closing, SFields.idsNamed, SFields.idsNamed, t.closing_idsNamed, rest.closing_idsNamed]

theorem SVariants.closing_idsNamed : ∀ vs : SVariants, (vs.closing n).idsNamed = vs.idsNamed
  | .nil => by rw [SVariants.closing]
  | .cons a fs rest => by
    rw [SVariants.closing, SVariants.idsNamed, SVariants.idsNamed, fs.closing_idsNamed, rest.closing_idsNamed]

end

mutual

theorem STy.closing_padless : ∀ t : STy, (t.closing n).padless = t.padless
  | .base b => by rw [STy.closing]
  | .option t => by rw [STy.closing, STy.padless, STy.padless, t.closing_padless]
  | .array k t => by rw [STy.closing, STy.padless, STy.padless, t.closing_padless]
  | .pair a b => by rw [STy.closing, STy.padless, STy.padless, a.closing_padless, b.closing_padless]
  | .vec zst t => by rw [STy.closing, STy.padless, STy.padless, t.closing_padless]
  | .struct c fs => by rw [STy.closing, STy.padless, STy.padless, fs.closing_padless]
  | .enum c id vs => by rw [STy.closing, STy.padless, STy.padless, vs.closing_padless]

theorem SFields.closing_padless : ∀ fs : SFields, (fs.closing n).padless = fs.padless
  | .nil => by rw [SFields.closing]
  | .cons a t rest => by
    rw [SFields.closing, SFields.padless, SFields.padless, a.closing_padless, t.closing_padless, rest.closing_padless]

theorem SVariants.closing_padless : ∀ vs : SVariants, (vs.closing n).padless = vs.padless
  | .nil => by rw [SVariants.closing]
  | .cons a fs rest => by
    rw [SVariants.closing, SVariants.padless, SVariants.padless, fs.closing_padless, rest.closing_padless]

end

mutual

theorem STy.closing_wire (o : Order) (native : Endian) : ∀ (t : STy) (args : List Arg) (env : Env) (v : Val),
    (t.closing n).wire o native args env v = t.wire o native args env v
  | .base b, args, env, v => by rw [STy.closing]
  | .option t, args, env, v => by
    rw [STy.closing, STy.wire.eq_def, STy.wire.eq_def]
    dsimp only
    split
    · exact t.closing_wire o native args env _
    · rfl
  | .array k t, args, env, v => by
    simp only [STy.closing, STy.wire, t.closing_wire]
  | .pair a b, args, env, v => by
    rw [STy.closing, STy.wire.eq_def, STy.wire.eq_def]
    dsimp only
    split
    · rw [a.closing_wire, b.closing_wire]
    · rfl
  | .vec zst t, args, env, v => by
    simp only [STy.closing, STy.wire, t.closing_wire]
  | .struct c fs, args, env, v => by rw [STy.closing, STy.wire, STy.wire, fs.closing_wire]
  | .enum c id vs, args, env, v => by
    rw [STy.closing, STy.wire.eq_def, STy.wire.eq_def]
    dsimp only
    split
    · rw [vs.closing_wireAt]
    · rfl

theorem SFields.closing_wire (o : Order) (native : Endian) (c : Container) : ∀ (fs : SFields) (sc : List Arg) (env : Env)
    (all v : Val), (fs.closing n).wire o native c sc env all v = fs.wire o native c sc env all v
  | .nil, sc, env, all, v => by rw [SFields.closing]
  | .cons a t rest, sc, env, all, v => by
    rw [SFields.closing, SFields.wire.eq_def, SFields.wire.eq_def]
    dsimp only
    rw [a.closing_temp, a.closing_mark, a.closing_wire, a.closing_passes]
    split
    · rw [t.closing_wire, rest.closing_wire]
    · split
      · rw [t.closing_wire, rest.closing_wire]
      · rfl

theorem SVariants.closing_wireAt (o : Order) (native : Endian) (c : Container) (id : SId) : ∀ (vs : SVariants) (i : Nat)
    (sc : List Arg) (env : Env) (v : Val), (vs.closing n).wireAt o native c id i sc env v = vs.wireAt o native c id i sc env v
  | .nil, i, sc, env, v => by rw [SVariants.closing]
  | .cons a fs rest, 0, sc, env, v => by
    rw [SVariants.closing, SVariants.wireAt.eq_def, SVariants.wireAt.eq_def]
    dsimp only
    split
    · rw [fs.closing_wire]
    · rw [fs.closing_wireStored]
    · rw [fs.closing_wire]
  | .cons a fs rest, i + 1, sc, env, v => by
    rw [SVariants.closing, SVariants.wireAt, SVariants.wireAt, rest.closing_wireAt]

theorem SFields.closing_wireStored (o : Order) (native : Endian) (c : Container) (id : Int → Piece) : ∀ (fs : SFields)
    (sc : List Arg) (env : Env) (v : Val),
    (fs.closing n).wireStored o native c id sc env v = fs.wireStored o native c id sc env v
  | .nil, sc, env, v => by rw [SFields.closing]
  | .cons a t rest, sc, env, v => by
    rw [SFields.closing, SFields.wireStored.eq_def, SFields.wireStored.eq_def]
    dsimp only
    split
    · rw [rest.closing_wire]
    · rfl

end

theorem STy.closing_described (o : Order) (native : Endian) (t : STy) (env : Env) (v : Val) :
    (t.closing n).described o native env v = t.described o native env v := by
  unfold STy.described
  rw [t.closing_wire]

theorem STy.closing_aligned (o : Order) (native : Endian) (t : STy) (env : Env) (v : Val) :
    (t.closing n).aligned o native env v = t.aligned o native env v := by
  unfold STy.aligned
  rw [t.closing_wire]

/-! ### code -/

mutual

/-- The source compiles to code that writes the same. -/
theorem STy.elab_closing : ∀ (t : STy) (lim : Option Lim) (args : List Arg) (d : Def), t.elab lim args = some d →
    ∃ d', (t.closing n).elab (lim.map (Lim.closing n)) args = some d' ∧ ∀ m, (d'.toTy m).write m = (d.toTy m).write m
  | .base b, lim, args, d, h => by
    rw [STy.closing]
    refine ⟨d, ?_, fun _ => rfl⟩
    rw [STy.elab] at h ⊢
    rw [Option.isSome_map]
    exact h
  | .option t, lim, args, d, h => by
    simp only [STy.elab, Option.bind_eq_bind, Option.bind_eq_some_iff, Option.pure_def, Option.some.injEq] at h
    obtain ⟨x, hx, rfl⟩ := h
    obtain ⟨x', hx', hw⟩ := t.elab_closing lim args x hx
    refine ⟨.option x', by simp [STy.closing, STy.elab, hx'], fun m => ?_⟩
    funext env v
    rw [Def.toTy, Def.toTy, Ty.write.eq_def, Ty.write.eq_def]
    dsimp only
    rw [hw m]
  | .array k t, lim, args, d, h => by
    simp only [STy.elab, Option.bind_eq_bind, Option.bind_eq_some_iff, Option.pure_def, Option.some.injEq] at h
    obtain ⟨x, hx, rfl⟩ := h
    obtain ⟨x', hx', hw⟩ := t.elab_closing lim args x hx
    refine ⟨.array k x', by simp [STy.closing, STy.elab, hx'], fun m => ?_⟩
    funext env v
    rw [Def.toTy, Def.toTy, Ty.write, Ty.write, hw m]
  | .pair a b, lim, args, d, h => by
    simp only [STy.elab, Option.bind_eq_bind, Option.bind_eq_some_iff, Option.pure_def, Option.some.injEq] at h
    obtain ⟨x, hx, y, hy, rfl⟩ := h
    obtain ⟨x', hx', hw⟩ := a.elab_closing lim args x hx
    obtain ⟨y', hy', hw2⟩ := b.elab_closing lim args y hy
    refine ⟨.pair x' y', by simp [STy.closing, STy.elab, hx', hy'], fun m => ?_⟩
    funext env v
    rw [Def.toTy, Def.toTy, Ty.write.eq_def, Ty.write.eq_def]
    dsimp only
    rw [hw m, hw2 m]
  | .vec zst t, lim, args, d, h => by
    cases lim with
    | none => rw [STy.elab] at h; cases h
    | some l =>
      simp only [STy.elab, Option.bind_eq_bind, Option.bind_eq_some_iff, Option.pure_def, Option.some.injEq] at h
      obtain ⟨x, hx, rfl⟩ := h
      obtain ⟨x', hx', hw⟩ := t.elab_closing none args x hx
      rw [Option.map_none] at hx'
      refine ⟨.vec zst (l.closing n) x', by simp [STy.closing, STy.elab, hx'], fun m => ?_⟩
      funext env v
      rw [Def.toTy, Def.toTy, Ty.write, Ty.write, hw m]
  | .struct c fs, lim, args, d, h => by
    cases lim with
    | some l => rw [STy.elab, if_pos (by simp)] at h; cases h
    | none =>
      rw [STy.elab, if_neg (by simp)] at h
      simp only [Option.bind_eq_bind, Option.bind_eq_some_iff, Option.pure_def, Option.some.injEq] at h
      obtain ⟨env, he, ds, hds, rfl⟩ := h
      obtain ⟨ds', hds', hw⟩ := fs.elab_closing c env ds hds
      refine ⟨.struct (env.map Arg.expr) c.magic ds', ?_, fun m => ?_⟩
      · rw [STy.closing, STy.elab, if_neg (by simp), he]
        simp [hds']
      · funext env v
        rw [Def.toTy, Def.toTy, Ty.write, Ty.write, hw m]
  | .enum c id vs, lim, args, d, h => by
    rw [STy.elab] at h
    split at h
    · cases h
    · rename_i hn
      simp only [Option.bind_eq_bind, Option.bind_eq_some_iff, Option.pure_def, Option.some.injEq] at h
      obtain ⟨env, he, did, hid, ds, hds, rfl⟩ := h
      obtain ⟨ds', hds', hw⟩ := vs.elab_closing c env id.size ds hds
      refine ⟨.enum (env.map Arg.expr) c.magic did ds', ?_, fun m => ?_⟩
      · rw [STy.closing, STy.elab, Option.isSome_map, vs.closing_defaults, if_neg hn, he, vs.closing_anyPat]
        simp [hid, hds']
      · funext env v
        rw [Def.toTy, Def.toTy, Ty.write.eq_def, Ty.write.eq_def]
        dsimp only
        split
        · rw [hw m]
        · rfl

theorem SFields.elab_closing (c : Container) (env : List Arg) : ∀ (fs : SFields) (ds : DFields), fs.elab c env = some ds →
    ∃ ds', (fs.closing n).elab c env = some ds' ∧ ∀ m, (ds'.toFields m).write m = (ds.toFields m).write m
  | .nil, ds, h => by rw [SFields.closing]; exact ⟨ds, h, fun _ => rfl⟩
  | .cons a t rest, ds, h => by
    simp only [SFields.elab, Option.bind_eq_bind, Option.bind_eq_some_iff] at h
    obtain ⟨e, he, o, ho, ctx, hctx, dflt, hdf, x, hx, r, hr, hem⟩ := h
    have hval : a.validate = true := by
      unfold SAttrs.emit at hem
      split at hem
      · assumption
      · assumption
      · cases hem
    obtain ⟨r', hr', hwr⟩ := rest.elab_closing c env r hr
    have hx' : ∃ x', (a.closing n).fast t.isVecU8 (fieldArgs e a.bits a.bytes o ctx)
        ((t.closing n).elab (a.limit.map (Lim.closing n)) (fieldArgs e a.bits a.bytes o ctx)) = some x' ∧
        ∀ m, (x'.toTy m).write m = (x.toTy m).write m := by
      rw [a.closing_fast]
      unfold SAttrs.fast at hx ⊢
      split at hx
      · exact ⟨x, hx, fun _ => rfl⟩
      · exact t.elab_closing _ _ x hx
    obtain ⟨x', hx', hwx⟩ := hx'
    have hem' : ∃ ds', (a.closing n).emit (a.rest o dflt) x' r' = some ds' ∧
        ∀ m, (ds'.toFields m).write m = (ds.toFields m).write m := by
      unfold SAttrs.emit at hem ⊢
      rw [SAttrs.closing_validate n hval, a.closing_temp]
      rw [hval] at hem
      cases hte : a.temp with
      | none =>
        rw [hte] at hem
        dsimp only at hem ⊢
        cases hem
        refine ⟨_, rfl, fun m => ?_⟩
        funext env all v
        rw [DFields.toFields, DFields.toFields, Fields.write.eq_def, Fields.write.eq_def]
        dsimp only
        rw [hwx m, hwr m]
      | some f =>
        rw [hte] at hem
        dsimp only at hem ⊢
        cases hem
        refine ⟨_, rfl, fun m => ?_⟩
        funext env all v
        rw [DFields.toFields, DFields.toFields, Fields.write.eq_def, Fields.write.eq_def]
        dsimp only
        rw [hwx m, hwr m]
    obtain ⟨ds', hds', hw⟩ := hem'
    refine ⟨ds', ?_, hw⟩
    simp only [SFields.closing, SFields.elab, a.closing_endian, a.closing_order, a.closing_ctx, a.closing_bits,
      a.closing_bytes, a.closing_defaultValue, STy.closing_default, STy.closing_isVecU8, SAttrs.closing_limit n hval,
      a.closing_rest, Option.bind_eq_bind, Option.bind_eq_some_iff]
    exact ⟨e, he, o, ho, ctx, hctx, dflt, hdf, x', hx', r', hr', hds'⟩

theorem SFields.elabStored_closing (c : Container) (env : List Arg) (typed : Option Nat) : ∀ (fs : SFields) (ds : DFields),
    fs.elabStored c env typed = some ds → ∃ ds', (fs.closing n).elabStored c env typed = some ds' ∧
      ∀ m store, (ds'.toFields m).writeStored m store = (ds.toFields m).writeStored m store
  | .nil, ds, h => by rw [SFields.elabStored] at h; cases h
  | .cons a t rest, ds, h => by
    rw [SFields.elabStored.eq_def] at h
    dsimp only at h
    split at h
    · rename_i W W'
      split at h
      · rename_i hc
        simp only [Option.bind_eq_bind, Option.bind_eq_some_iff, Option.pure_def, Option.some.injEq] at h
        obtain ⟨r, hr, rfl⟩ := h
        obtain ⟨r', hr', hw⟩ := rest.elab_closing c env r hr
        refine ⟨.cons {} (.leaf (some (8 * W)) (.uint W .unit)) r', ?_, fun m store => ?_⟩
        · rw [SFields.closing, STy.closing, SFields.elabStored, SAttrs.closing_anySet n hc.1, if_pos hc, hr']
          rfl
        · funext env v
          rw [DFields.toFields, DFields.toFields, Fields.writeStored.eq_def, Fields.writeStored.eq_def]
          dsimp only
          rw [hw m]
      · cases h
    · cases h

theorem SVariants.elab_closing (c : Container) (env : List Arg) (typed : Option Nat) : ∀ (vs : SVariants) (ds : DVariants),
    vs.elab c env typed = some ds → ∃ ds', (vs.closing n).elab c env typed = some ds' ∧
      ∀ m, (ds'.toVariants m).writeAt m = (ds.toVariants m).writeAt m
  | .nil, ds, h => by rw [SVariants.closing]; exact ⟨ds, h, fun _ => rfl⟩
  | .cons a fs rest, ds, h => by
    obtain ⟨x, r, hx, hr, rfl⟩ := SVariants.elab_cons c env typed a fs rest ds h
    obtain ⟨r', hr', hwr⟩ := rest.elab_closing c env typed r hr
    by_cases hp : a.kind.isPat = true
    · rw [if_pos hp] at hx
      obtain ⟨x', hx', hw⟩ := fs.elabStored_closing c env typed x hx
      refine ⟨.cons a x' r', by simp [SVariants.closing, SVariants.elab, hp, hx', hr'], fun m => ?_⟩
      funext env id store i v
      cases i with
      | zero =>
        rw [DVariants.toVariants, DVariants.toVariants, Variants.writeAt.eq_def, Variants.writeAt.eq_def]
        dsimp only
        rw [show a.toVAttrs.idPat = true from hp]
        simp only [if_true, hw m]
      | succ i =>
        rw [DVariants.toVariants, DVariants.toVariants, Variants.writeAt, Variants.writeAt, hwr m]
    · rw [if_neg hp] at hx
      obtain ⟨x', hx', hw⟩ := fs.elab_closing c env x hx
      refine ⟨.cons a x' r', by simp [SVariants.closing, SVariants.elab, hp, hx', hr'], fun m => ?_⟩
      funext env id store i v
      cases i with
      | zero =>
        rw [DVariants.toVariants, DVariants.toVariants, Variants.writeAt.eq_def, Variants.writeAt.eq_def]
        dsimp only
        rw [show a.toVAttrs.idPat = false from Bool.not_eq_true _ ▸ hp]
        simp only [Bool.false_eq_true, if_false, hw m]
      | succ i =>
        rw [DVariants.toVariants, DVariants.toVariants, Variants.writeAt, Variants.writeAt, hwr m]

end

theorem STy.compile_closing {t : STy} {d : Def} (h : t.compile = some d) :
    ∃ d', (t.closing n).compile = some d' ∧ ∀ m, (d'.toTy m).write m = (d.toTy m).write m :=
  t.elab_closing n none [] d h

/-! ### clear sources -/

namespace Phases

theorem merge_eq_nil {a b : List Nat} : merge a b = [] ↔ a = [] ∧ b = [] := by
  unfold merge
  rw [List.append_eq_nil_iff]
  constructor
  · rintro ⟨h1, rfl⟩
    refine ⟨?_, rfl⟩
    cases a with
    | nil => rfl
    | cons x xs => simp at h1
  · rintro ⟨rfl, rfl⟩
    exact ⟨rfl, rfl⟩

/-- Where `f` is clear, so is `g`, and if `f` ends nowhere, neither does `g`. -/
def Le (f g : Phases) : Prop := ∀ p ns, f p = some ns → ∃ ns', g p = some ns' ∧ (ns = [] → ns' = [])

theorem Le.refl (f : Phases) : Le f f := fun _ ns h => ⟨ns, h, id⟩

theorem Le.after {f g : Phases} (h : Le f g) : ∀ ps ns, f.after ps = some ns →
    ∃ ns', g.after ps = some ns' ∧ (ns = [] → ns' = [])
  | [], ns, hf => by rw [Phases.after] at hf; cases hf; exact ⟨[], rfl, id⟩
  | p :: ps, ns, hf => by
    simp only [Phases.after, Option.bind_eq_bind, Option.bind_eq_some_iff, Option.some.injEq] at hf
    obtain ⟨a, ha, b, hb, rfl⟩ := hf
    obtain ⟨a', ha', h1⟩ := h p a ha
    obtain ⟨b', hb', h2⟩ := Le.after h ps b hb
    refine ⟨merge a' b', by simp [Phases.after, ha', hb'], fun hn => ?_⟩
    obtain ⟨hx, hy⟩ := merge_eq_nil.1 hn
    exact merge_eq_nil.2 ⟨h1 hx, h2 hy⟩

theorem Le.seq_right (f : Phases) {g g' : Phases} (h : Le g g') : Le (f.seq g) (f.seq g') := by
  intro p ns hf
  simp only [Phases.seq, Option.bind_eq_bind, Option.bind_eq_some_iff] at hf ⊢
  obtain ⟨ms, h1, h2⟩ := hf
  obtain ⟨ns', h3, h4⟩ := h.after ms ns h2
  exact ⟨ns', ⟨ms, h1, h3⟩, h4⟩

theorem Le.either {f f' g g' : Phases} (hf : Le f f') (hg : Le g g') : Le (f.either g) (f'.either g') := by
  intro p ns h
  simp only [Phases.either, Option.bind_eq_bind, Option.bind_eq_some_iff, Option.some.injEq] at h ⊢
  obtain ⟨a, ha, b, hb, rfl⟩ := h
  obtain ⟨a', ha', h1⟩ := hf p a ha
  obtain ⟨b', hb', h2⟩ := hg p b hb
  refine ⟨merge a' b', ⟨a', ha', b', hb', rfl⟩, fun hn => ?_⟩
  obtain ⟨hx, hy⟩ := merge_eq_nil.1 hn
  exact merge_eq_nil.2 ⟨h1 hx, h2 hy⟩

theorem still_after : ∀ ps, ∃ ns, Phases.still.after ps = some ns ∧ (ns = [] ↔ ps = [])
  | [] => ⟨[], rfl, Iff.rfl⟩
  | p :: ps => by
    obtain ⟨ns, h, _⟩ := still_after ps
    refine ⟨merge [p] ns, by simp [Phases.after, Phases.still, h], ?_⟩
    rw [merge_eq_nil]
    simp

theorem Le.seq_still {f f' : Phases} (h : Le f f') : Le (f.seq .still) (f'.seq .still) := by
  intro p ns hf
  simp only [Phases.seq, Option.bind_eq_bind, Option.bind_eq_some_iff] at hf ⊢
  obtain ⟨ms, h1, h2⟩ := hf
  obtain ⟨ms', h3, h4⟩ := h p ms h1
  obtain ⟨ns1, h5, h6⟩ := still_after ms
  obtain ⟨ns', h7, h8⟩ := still_after ms'
  rw [h5] at h2
  cases h2
  exact ⟨ns', ⟨ms', h3, h7⟩, fun hn => h8.2 (h4 (h6.1 hn))⟩

theorem Le.seq_none {f f' : Phases} (h : Le f f') : Le (f.seq fun _ => none) (f'.seq fun _ => none) := by
  intro p ns hf
  simp only [Phases.seq, Option.bind_eq_bind, Option.bind_eq_some_iff] at hf ⊢
  obtain ⟨ms, h1, h2⟩ := hf
  obtain ⟨ms', h3, h4⟩ := h p ms h1
  cases ms with
  | nil =>
    rw [Phases.after] at h2
    cases h2
    exact ⟨[], ⟨ms', h3, by rw [h4 rfl]; rfl⟩, id⟩
  | cons x xs => simp [Phases.after] at h2

theorem still_seq (g : Phases) : Phases.seq .still g = g := by
  funext p
  unfold Phases.seq Phases.still
  rw [Option.bind_eq_bind, Option.bind_some, Phases.after, Phases.after]
  cases g p with
  | none => rfl
  | some ms => simp [merge]

theorem none_seq (g : Phases) : Phases.seq (fun _ => none) g = fun _ => none := rfl

theorem Le.ite {p : Prop} [Decidable p] {f f' g g' : Phases} (h : Le f g) (h' : Le f' g') :
    Le (if p then f else f') (if p then g else g') := by
  split <;> assumption

end Phases

open Phases

theorem padPhases_none (o : Order) (order : Option Order) : padPhases o order none none = .still := rfl

theorem SAttrs.phases_le (o : Order) (order : Option Order) (a : SAttrs) (default : Option Val) {f g : Phases} (h : Le f g)
    (h1 : a.padBitsAfter = none) (h2 : a.padBytesAfter = none) :
    Le (a.phases o order default f) (a.phases o order default g) := by
  unfold SAttrs.phases
  rw [h1, h2, padPhases_none]
  refine Le.seq_right _ (Le.seq_right _ (Le.seq_still ?_))
  exact Le.ite h (Le.ite (Le.ite (.refl _) (h.either (.refl _))) (.refl _))

theorem SAttrs.phases_silent (o : Order) (order : Option Order) (a : SAttrs) (default : Option Val) (f : Phases)
    (hs : a.skip = some .read ∨ a.skip = some .all) (hc : a.cond = none) (hm : a.magic = []) (hp : a.padless = true) :
    a.phases o order default f = .still ∨ a.phases o order default f = fun _ => none := by
  unfold SAttrs.padless at hp
  simp only [Bool.and_eq_true, Option.isNone_iff_eq_none] at hp
  obtain ⟨⟨⟨h1, h2⟩, h3⟩, h4⟩ := hp
  have ha : a.always = false := by
    unfold SAttrs.always
    rcases hs with hs | hs <;> simp [hs, hc]
  unfold SAttrs.phases
  rw [hm, h1, h2, h3, h4, padPhases_none, ha, if_neg (by simp),
    show magicPhases o [] = .still from rfl, still_seq, still_seq]
  by_cases hd : (a.default.or default).isSome = true
  · rw [if_pos hd, if_pos ⟨hs, hc⟩]
    left; exact still_seq _
  · rw [if_neg hd]
    right; rfl

theorem SFields.phases_silent (o : Order) (c : Container) : ∀ (fs : SFields) (sc : List Arg), fs.silent = true →
    fs.phases o c sc = .still ∨ fs.phases o c sc = fun _ => none
  | .nil, sc, _ => by rw [SFields.phases]; exact .inl rfl
  | .cons a t rest, sc, h => by
    rw [SFields.silent] at h
    simp only [Bool.and_eq_true, decide_eq_true_eq, Option.isNone_iff_eq_none, List.isEmpty_iff] at h
    obtain ⟨⟨⟨⟨⟨⟨h1, h2⟩, h3⟩, h4⟩, _⟩, _⟩, h5⟩ := h
    rw [SFields.phases]
    have key : ∀ f, (a.phases o ((a.order.or c.order).bind (·.means Arg.order? sc)) t.default f).seq (rest.phases o c sc) =
        .still ∨ (a.phases o ((a.order.or c.order).bind (·.means Arg.order? sc)) t.default f).seq (rest.phases o c sc) =
        fun _ => none := by
      intro f
      rcases a.phases_silent o ((a.order.or c.order).bind (·.means Arg.order? sc)) t.default f h1 h2 h3 h4 with h | h
      · rw [h, still_seq]
        exact phases_silent o c rest sc h5
      · rw [h]
        exact .inr rfl
    exact key _

theorem Lim.phases_le (zst eager : Bool) (f : Phases) (l : Lim) : Le (l.phases zst eager f) ((l.closing n).phases zst eager f) := by
  by_cases hl : l = .all
  · subst hl
    rw [Lim.closing, Lim.phases, Lim.phases]
    refine Le.ite (.refl _) ?_
    intro p ns h
    split at h
    · simp only [Phases.loopTo, Option.bind_eq_bind, Option.bind_eq_some_iff, Option.some.injEq] at h
      obtain ⟨ms, hm, rfl⟩ := h
      exact ⟨ms, hm, fun h => nomatch h⟩
    · cases h
  · rw [Lim.closing_of_ne _ hl]
    exact .refl _

mutual

theorem STy.phases_le (o : Order) : ∀ (t : STy) (lims : List Lim) (args : List Arg), t.openEnded lims = true →
    Le (t.phases o lims args) ((t.closing n).phases o (lims.map (Lim.closing n)) args)
  | .base b, lims, args, _ => by rw [STy.closing, STy.phases, STy.phases]; exact .refl _
  | .option t, lims, args, h => by
    rw [STy.openEnded] at h
    rw [STy.closing, STy.phases, STy.phases]
    exact t.phases_le o lims args h
  | .array k t, lims, args, h => by
    rw [STy.openEnded, Bool.and_eq_true, decide_eq_true_eq] at h
    rw [STy.closing, STy.phases, STy.phases, t.closing_of_limited _ h.1, Lim.closing_map _ h.2]
    exact .refl _
  | .pair a b, lims, args, h => by
    rw [STy.openEnded, Bool.and_eq_true, Bool.and_eq_true, decide_eq_true_eq] at h
    have hb := b.phases_le o lims args h.2
    rw [STy.closing, STy.phases, STy.phases, a.closing_of_limited _ h.1.1]
    rw [Lim.closing_map _ h.1.2] at hb ⊢
    exact hb.seq_right _
  | .vec zst t, lims, args, h => by
    rw [STy.openEnded] at h
    rw [STy.closing, t.closing_of_limited _ h]
    match lims with
    | [] => exact .refl _
    | l :: l2 :: ls =>
      rw [List.map_cons, List.map_cons]
      simp only [STy.phases]
      exact .refl _
    | [l] =>
      rw [List.map_cons, List.map_nil, STy.phases, STy.phases]
      exact l.phases_le n zst _ _
  | .struct c fs, lims, args, h => by
    rw [STy.openEnded] at h
    rw [STy.closing, STy.phases, STy.phases]
    exact (fs.phases_le o c _ h).seq_right _
  | .enum c id vs, lims, args, h => by
    rw [STy.openEnded] at h
    rw [STy.closing, STy.phases, STy.phases]
    exact ((vs.phases_le o c _ _ h).seq_right _).seq_right _

theorem SFields.phases_le (o : Order) (c : Container) : ∀ (fs : SFields) (sc : List Arg), fs.openEnded = true →
    Le (fs.phases o c sc) ((fs.closing n).phases o c sc)
  | .nil, sc, _ => by rw [SFields.closing]; exact .refl _
  | .cons a t rest, sc, h => by
    rw [SFields.openEnded, Bool.or_eq_true] at h
    rcases h with h | h
    · simp only [Bool.and_eq_true, Bool.not_eq_true'] at h
      obtain ⟨⟨h1, h2⟩, h3⟩ := h
      rw [SFields.closing, SFields.phases, SFields.phases, SAttrs.closing_of_not _ h1, t.closing_of_limited _ h2]
      exact (rest.phases_le o c sc h3).seq_right _
    · simp only [Bool.and_eq_true, Option.isNone_iff_eq_none] at h
      obtain ⟨⟨⟨⟨h1, h2⟩, h3⟩, h4⟩, h5⟩ := h
      rw [SFields.closing, SFields.phases, SFields.phases, SAttrs.closing_phases, SAttrs.closing_order,
        SAttrs.closing_passes, STy.closing_default, STy.closing_isVecU8, SAttrs.closing_limits _ h1,
        rest.closing_of_limited _ (rest.silent_limited h5)]
      have ht := t.phases_le o a.limits (a.passes c sc) h2
      have hv : Le (match a.limits, t.isVecU8 with
          | [.count _], true => if bitSized (a.passes c sc) then fun _ => none else Phases.inOrder o .lsb0 true .still
          | lims, _ => t.phases o lims (a.passes c sc))
          (match a.limits.map (Lim.closing n), t.isVecU8 with
          | [.count _], true => if bitSized (a.passes c sc) then fun _ => none else Phases.inOrder o .lsb0 true .still
          | lims, _ => (t.closing n).phases o lims (a.passes c sc)) := by
        by_cases hr : a.readAll = true
        · have hl : a.limits = [.all] := by
            unfold SAttrs.allAlone at h1
            rw [hr] at h1
            simp only [Bool.not_true, Bool.false_or, Bool.and_eq_true, Option.isNone_iff_eq_none] at h1
            unfold SAttrs.limits
            rw [hr]
            simp [h1]
          rw [hl] at ht ⊢
          exact ht
        · rw [Lim.closing_map n (SAttrs.all_not_mem (a := a) (by simpa using hr))] at ht ⊢
          generalize a.limits = lims at ht ⊢
          split
          · exact .refl _
          · exact ht
      have hl := a.phases_le o ((a.order.or c.order).bind (·.means Arg.order? sc)) t.default hv h3 h4
      rcases rest.phases_silent o c sc h5 with hs | hs <;> rw [hs]
      · exact hl.seq_still
      · exact hl.seq_none

theorem SVariants.phases_le (o : Order) (c : Container) : ∀ (vs : SVariants) (sc : List Arg) (typed : Bool),
    vs.openEnded = true → Le (vs.phases o c sc typed) ((vs.closing n).phases o c sc typed)
  | .nil, sc, typed, _ => by rw [SVariants.closing]; exact .refl _
  | .cons a fs rest, sc, typed, h => by
    rw [SVariants.openEnded, Bool.and_eq_true] at h
    rw [SVariants.closing, SVariants.phases, SVariants.phases]
    exact (Le.ite (fs.phasesStored_le o c sc h.1) (fs.phases_le o c sc h.1)).either (rest.phases_le o c sc typed h.2)

theorem SFields.phasesStored_le (o : Order) (c : Container) : ∀ (fs : SFields) (sc : List Arg), fs.openEnded = true →
    Le (fs.phasesStored o c sc) ((fs.closing n).phasesStored o c sc)
  | .nil, sc, _ => by rw [SFields.closing]; exact .refl _
  | .cons a t rest, sc, h => by
    rw [SFields.openEnded, Bool.or_eq_true] at h
    rw [SFields.closing, SFields.phasesStored, SFields.phasesStored]
    rcases h with h | h
    · simp only [Bool.and_eq_true] at h
      exact rest.phases_le o c sc h.2
    · simp only [Bool.and_eq_true] at h
      rw [rest.closing_of_limited _ (rest.silent_limited h.2)]
      exact .refl _

end

theorem STy.clear_closing {o : Order} {t : STy} {off : Nat} (ho : t.openEnded [] = true) (h : t.clear o off = true) :
    (t.closing n).clear o off = true := by
  unfold STy.clear at h ⊢
  obtain ⟨ns, hn⟩ := Option.isSome_iff_exists.1 h
  obtain ⟨ns', hn', _⟩ := (t.phases_le n o [] [] ho).seq_right (if off = 0 then Phases.still else skipPhases o .msb0 off) 0 ns hn
  rw [List.map_nil] at hn'
  rw [hn']
  rfl

/-! ### faithful sources -/

theorem STy.closing_isOption (t : STy) : (t.closing n).isOption = t.isOption := by
  cases t <;> rw [STy.closing] <;> rfl

theorem SAttrs.closing_faithful (a : SAttrs) (t : STy) : (a.closing n).faithful (t.closing n) = a.faithful t := by
  unfold SAttrs.faithful
  rw [t.closing_isOption]
  unfold closing
  split <;> rfl

mutual

theorem STy.closing_eager : ∀ (t : STy) (args : List Arg), (t.closing n).eager args = t.eager args
  | .base b, args => by rw [STy.closing]
  | .option t, args => by rw [STy.closing, STy.eager, STy.eager, t.closing_eager]
  | .array k t, args => by rw [STy.closing, STy.eager, STy.eager, t.closing_eager]
  | .pair a b, args => by rw [STy.closing, STy.eager, STy.eager, a.closing_eager]
  | .vec zst t, args => by rw [STy.closing, STy.eager, STy.eager]
  | .struct c fs, args => by rw [STy.closing, STy.eager, STy.eager, fs.closing_eager]
  | .enum c id vs, args => by rw [STy.closing]; cases id <;> rw [STy.eager, STy.eager]

theorem SFields.closing_eager : ∀ (fs : SFields) (c : Container) (sc : List Arg), (fs.closing n).eager c sc = fs.eager c sc
  | .nil, c, sc => by rw [SFields.closing]
  | .cons a t rest, c, sc => by
    rw [SFields.closing, SFields.eager, SFields.eager, a.closing_eager, a.closing_passes, t.closing_eager]

end

theorem SAttrs.closing_limsFaithful (a : SAttrs) (n n' : Nat) (e : Bool) :
    limsFaithful e (a.closing n).limits = limsFaithful e (a.closing n').limits := by
  unfold SAttrs.closing
  split
  · unfold SAttrs.limits
    dsimp only
    cases a.count <;> cases a.bytesRead <;> cases a.untilEq <;> rfl
  · rfl

mutual

theorem STy.closing_faithful (n n' : Nat) : ∀ (t : STy) (lims lims' : List Lim) (args : List Arg),
    (∀ e, limsFaithful e lims = limsFaithful e lims') →
    (t.closing n).faithful lims args = (t.closing n').faithful lims' args
  | .base b, lims, lims', args, h => by rw [STy.closing, STy.closing, STy.faithful, STy.faithful]
  | .option t, lims, lims', args, h => by
    rw [STy.closing, STy.closing, STy.faithful, STy.faithful, t.closing_faithful n n' lims lims' args h]
  | .array k t, lims, lims', args, h => by
    rw [STy.closing, STy.closing, STy.faithful, STy.faithful, t.closing_faithful n n' lims lims' args h]
  | .pair a b, lims, lims', args, h => by
    rw [STy.closing, STy.closing, STy.faithful, STy.faithful, a.closing_faithful n n' lims lims' args h,
      b.closing_faithful n n' lims lims' args h]
  | .vec zst t, lims, lims', args, h => by
    rw [STy.closing, STy.closing, STy.faithful, STy.faithful, t.closing_eager, t.closing_eager, h,
      t.closing_faithful n n' [] [] args fun _ => rfl]
  | .struct c fs, lims, lims', args, h => by
    rw [STy.closing, STy.closing, STy.faithful, STy.faithful, fs.closing_faithful n n']
  | .enum c id vs, lims, lims', args, h => by
    rw [STy.closing, STy.closing, STy.faithful, STy.faithful, vs.closing_heads, vs.closing_heads, vs.closing_faithful n n']

theorem SFields.closing_faithful (n n' : Nat) (c : Container) : ∀ (fs : SFields) (sc : List Arg),
    (fs.closing n).faithful c sc = (fs.closing n').faithful c sc
  | .nil, sc => by rw [SFields.closing, SFields.closing]
  | .cons a t rest, sc => by
    rw [SFields.closing, SFields.closing, SFields.faithful, SFields.faithful, a.closing_faithful, a.closing_faithful,
      a.closing_passes, a.closing_passes, rest.closing_faithful n n',
      t.closing_faithful n n' _ _ _ (a.closing_limsFaithful n n')]

theorem SVariants.closing_faithful (n n' : Nat) (c : Container) : ∀ (vs : SVariants) (sc : List Arg),
    (vs.closing n).faithful c sc = (vs.closing n').faithful c sc
  | .nil, sc => by rw [SVariants.closing, SVariants.closing]
  | .cons a fs rest, sc => by
    rw [SVariants.closing, SVariants.closing, SVariants.faithful, SVariants.faithful, fs.closing_faithful n n',
      rest.closing_faithful n n']

end

end Deku
