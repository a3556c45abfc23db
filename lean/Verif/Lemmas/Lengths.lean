import Verif.Spec.Lengths
import Verif.Lemmas.Consistent

/-!
# Values of sources in which lists are counted by fields that hold their lengths
-/

namespace Deku

/-! ### attributes -/

namespace SAttrs

variable (held : List (Option Temp)) (i : Nat) (t : STy) (a : SAttrs)

theorem loose_passes (c : Container) (env : List Arg) : (a.loose held i t).passes c env = a.passes c env := rfl
theorem loose_temp : (a.loose held i t).temp = a.temp := rfl
theorem loose_wire (o : Order) (env : Env) (l : List Piece) : (a.loose held i t).wire o env l = a.wire o env l := rfl

theorem flat_mark (t : STy) : flat (a.mark t) = [] := by
  unfold mark
  split <;> rfl

theorem flat_wire (o : Order) (env : Env) (x y : List Piece) (h : flat x = flat y) : flat (a.wire o env x) = flat (a.wire o env y) := by
  unfold wire
  cases a.written env
  · rfl
  · simp only [if_true, flat_append, h]

end SAttrs

theorem STy.loose_isVecU8 (t : STy) (plans : List (List (Option Temp))) : (t.loose plans).isVecU8 = t.isVecU8 := by
  cases t with
  | vec zst t => rw [STy.loose]; cases t <;> first | rfl | (rw [STy.loose]; rfl)
  | base b => rw [STy.loose]
  | _ => rw [STy.loose]; rfl

theorem STy.loose_isOption (t : STy) (plans : List (List (Option Temp))) : (t.loose plans).isOption = t.isOption := by
  cases t <;> rw [STy.loose] <;> rfl

theorem SVariants.loose_heads : ∀ (vs : SVariants) (plans : List (List (Option Temp))), (vs.loose plans).heads = vs.heads
  | .nil, plans => by rw [SVariants.loose]
  | .cons a fs rest, plans => by rw [SVariants.loose, SVariants.heads, SVariants.heads, loose_heads rest]

theorem SVariants.loose_picks (vs : SVariants) (plans : List (List (Option Temp))) (n : Int) (i : Nat) :
    (vs.loose plans).picks n i = vs.picks n i := by
  unfold SVariants.picks
  rw [vs.loose_heads]

mutual

theorem STy.loose_isDefault : ∀ (t : STy) (plans : List (List (Option Temp))) (v : Val),
    (t.loose plans).isDefault v = t.isDefault v
  | .base b, plans, v => by rw [STy.loose]
  | .option t, plans, v => by rw [STy.loose, STy.isDefault, STy.isDefault]
  | .array n t, plans, v => by
    simp only [STy.loose, STy.isDefault, t.loose_isDefault]
  | .pair a b, plans, v => by
    rw [STy.loose, STy.isDefault.eq_def, STy.isDefault.eq_def]
    dsimp only
    split
    · rw [a.loose_isDefault, b.loose_isDefault]
    · rfl
  | .vec zst t, plans, v => by rw [STy.loose, STy.isDefault, STy.isDefault]
  | .struct c fs, plans, v => by rw [STy.loose, STy.isDefault, STy.isDefault, fs.loose_isDefault]
  | .enum c id vs, plans, v => by rw [STy.loose, STy.isDefault, STy.isDefault]

theorem SFields.loose_isDefault : ∀ (fs : SFields) (plan held : List (Option Temp)) (i : Nat) (v : Val),
    (fs.loose plan held i).isDefault v = fs.isDefault v
  | .nil, plan, held, i, v => by rw [SFields.loose]
  | .cons a t rest, plan, held, i, v => by
    rw [SFields.loose, SFields.isDefault.eq_def, SFields.isDefault.eq_def]
    dsimp only
    rw [a.loose_temp]
    split
    · rw [rest.loose_isDefault]
    · split
      · rw [t.loose_isDefault, rest.loose_isDefault]
      · rfl

end

/-! ### bits -/

mutual

theorem STy.flat_loose (o : Order) (native : Endian) : ∀ (t : STy) (plans : List (List (Option Temp))) (args : List Arg)
    (env : Env) (v : Val), flat ((t.loose plans).wire o native args env v) = flat (t.wire o native args env v)
  | .base b, plans, args, env, v => by rw [STy.loose]
  | .option t, plans, args, env, v => by
    rw [STy.loose, STy.wire.eq_def, STy.wire.eq_def]
    dsimp only
    split
    · rw [t.flat_loose]
    · rfl
  | .array k t, plans, args, env, v => by
    simp only [STy.loose, STy.wire, flat_flatMap, t.flat_loose]
  | .pair a b, plans, args, env, v => by
    rw [STy.loose, STy.wire.eq_def, STy.wire.eq_def]
    dsimp only
    split
    · rw [flat_append, flat_append, a.flat_loose, b.flat_loose]
    · rfl
  | .vec zst t, plans, args, env, v => by
    simp only [STy.loose, STy.wire, flat_flatMap, t.flat_loose]
  | .struct c fs, plans, args, env, v => by
    rw [STy.loose, STy.wire, STy.wire, flat_append, flat_append, fs.flat_loose]
  | .enum c id vs, plans, args, env, v => by
    rw [STy.loose, STy.wire.eq_def, STy.wire.eq_def]
    dsimp only
    split
    · rw [flat_append, flat_append, vs.flat_looseAt]
    · rfl

theorem SFields.flat_loose (o : Order) (native : Endian) (c : Container) : ∀ (fs : SFields) (plan held : List (Option Temp))
    (i : Nat) (sc : List Arg) (env : Env) (all v : Val),
    flat ((fs.loose plan held i).wire o native c sc env all v) = flat (fs.wire o native c sc env all v)
  | .nil, plan, held, i, sc, env, all, v => by rw [SFields.loose]
  | .cons a t rest, plan, held, i, sc, env, all, v => by
    have key : ∀ x, flat (a.wire o env ((a.loose held i t).mark (t.loose []) ++ (t.loose []).wire o native (a.passes c sc) env x)) =
        flat (a.wire o env (a.mark t ++ t.wire o native (a.passes c sc) env x)) := fun x =>
      a.flat_wire o env _ _ (by rw [flat_append, flat_append, SAttrs.flat_mark, SAttrs.flat_mark, t.flat_loose])
    rw [SFields.loose, SFields.wire.eq_def, SFields.wire.eq_def]
    dsimp only
    rw [a.loose_temp]
    simp only [a.loose_wire, a.loose_passes]
    split
    · rw [flat_append, flat_append, key, rest.flat_loose]
    · split
      · rw [flat_append, flat_append, key, rest.flat_loose]
      · rfl

theorem SFields.flat_looseFirst (o : Order) (native : Endian) (c : Container) : ∀ (fs : SFields)
    (plan : List (Option Temp)) (sc : List Arg) (env : Env) (all v : Val),
    flat ((fs.looseStored plan).wire o native c sc env all v) = flat (fs.wire o native c sc env all v)
  | .nil, plan, sc, env, all, v => by rw [SFields.looseStored]
  | .cons a t rest, plan, sc, env, all, v => by
    rw [SFields.looseStored, SFields.wire.eq_def, SFields.wire.eq_def]
    dsimp only
    cases a.temp with
    | some f => rw [Option.isSome_some, if_pos rfl]
    | none =>
      rw [Option.isSome_none, if_neg (by simp)]
      dsimp only
      split
      · rw [flat_append, flat_append, rest.flat_loose]
      · rfl

theorem SFields.flat_looseStored (o : Order) (native : Endian) (c : Container) (id : Int → Piece) : ∀ (fs : SFields)
    (plan : List (Option Temp)) (sc : List Arg) (env : Env) (v : Val),
    flat ((fs.looseStored plan).wireStored o native c id sc env v) = flat (fs.wireStored o native c id sc env v)
  | .nil, plan, sc, env, v => by rw [SFields.looseStored]
  | .cons a t rest, plan, sc, env, v => by
    rw [SFields.looseStored, SFields.wireStored.eq_def, SFields.wireStored.eq_def]
    dsimp only
    cases a.temp.isSome with
    | true => rw [if_pos rfl]
    | false =>
      rw [if_neg (by simp)]
      cases v with
      | cons x xs => dsimp only; rw [flat_append, flat_append, rest.flat_loose]
      | _ => rfl

theorem SVariants.flat_looseAt (o : Order) (native : Endian) (c : Container) (id : SId) : ∀ (vs : SVariants)
    (plans : List (List (Option Temp))) (i : Nat) (sc : List Arg) (env : Env) (v : Val),
    flat ((vs.loose plans).wireAt o native c id i sc env v) = flat (vs.wireAt o native c id i sc env v)
  | .nil, plans, i, sc, env, v => by rw [SVariants.loose]
  | .cons a fs rest, plans, 0, sc, env, v => by
    rw [SVariants.loose, SVariants.wireAt.eq_def, SVariants.wireAt.eq_def]
    dsimp only
    cases id with
    | ctx e =>
      dsimp only
      split
      · rw [fs.flat_looseFirst]
      · rw [fs.flat_loose]
    | typed W e bits bytes =>
      cases a.kind with
      | id n =>
        rw [if_neg (by simp [VKind.isPat])]
        dsimp only
        rw [flat_append, flat_append, fs.flat_loose]
      | any =>
        rw [if_pos (show VKind.any.isPat = true from rfl)]
        exact fs.flat_looseStored o native c _ _ sc env v
      | range lo hi =>
        rw [if_pos (show (VKind.range lo hi).isPat = true from rfl)]
        exact fs.flat_looseStored o native c _ _ sc env v
  | .cons a fs rest, plans, i + 1, sc, env, v => by
    rw [SVariants.loose, SVariants.wireAt, SVariants.wireAt, rest.flat_looseAt]

end

/-! ### values -/

/-- The fields before have the lengths that they hold. -/
def Held (held : List (Option Temp)) (env : Env) (all : Val) : Prop :=
  ∀ (k : Nat) (f : Temp), held[k]? = some (some f) → env.vars[k]? = some (.num (f.length all)) ∧ f.length all < 2 ^ 61

theorem Held.nil (env : Env) (all : Val) : Held [] env all := fun k f h => by simp at h

theorem Held.push {held : List (Option Temp)} {env : Env} {all : Val} (h : Held held env all) (f : Option Temp) (x : Val)
    (hx : ∀ g, f = some g → x = .num (g.length all) ∧ g.length all < 2 ^ 61) : Held (f :: held) (env.push x) all
  | 0, g, hg => by
    simp only [List.getElem?_cons_zero, Option.some.injEq] at hg
    obtain ⟨h1, h2⟩ := hx g hg
    exact ⟨by simp [Env.push, h1], h2⟩
  | k + 1, g, hg => by
    simp only [List.getElem?_cons_succ] at hg
    simpa [Env.push] using h k g hg

/-- What the expression says is the length of the field. -/
theorem Held.eval {held : List (Option Temp)} {env : Env} {all : Val} (h : Held held env all) {i : Nat} {e : Option Expr}
    (hl : holdsLength held i e = true) : ∃ e', e = some e' ∧
      e'.eval env = ((all.elems[i]?.getD .nil).elems.length : Int) ∧ (all.elems[i]?.getD .nil).elems.length < 2 ^ 61 := by
  unfold holdsLength at hl
  split at hl
  · rename_i k
    split at hl
    · rename_i f hf
      have hi := of_decide_eq_true hl
      obtain ⟨h1, h2⟩ := h k f hf
      unfold Temp.length at h1 h2
      rw [hi] at h1 h2
      refine ⟨_, rfl, ?_, h2⟩
      unfold Expr.eval
      rw [h1]
    · cases hl
  · cases hl

theorem Temp.eval_fits (f : Temp) (all : Val) (h : f.fits all = true) :
    f.eval all = .num (f.length all) ∧ f.length all < 2 ^ 61 := by
  obtain ⟨h1, h2⟩ := of_decide_eq_true h
  refine ⟨?_, h2⟩
  unfold Temp.eval
  congr 1
  exact Int.emod_eq_of_lt (Int.natCast_nonneg _) (lt_of_lt_of_eq (Int.ofNat_lt.2 h1) (Int.natCast_pow 256 f.W))

theorem bitSized_append (x y : List Arg) : bitSized (x ++ y) = (bitSized x || bitSized y) := by
  unfold bitSized
  rw [List.any_append]

theorem bitSized_passes (c : Container) (sc : List Arg) (a : SAttrs) (h : a.bits = none) : bitSized (a.passes c sc) = false := by
  unfold SAttrs.passes
  rw [bitSized_append, bitSized_append, bitSized_append, h]
  have h1 : ∀ g : Option Endian, bitSized (g.map Arg.endian).toList = false := by intro g; cases g <;> rfl
  have h2 : ∀ g : Option Order, bitSized (g.map Arg.order).toList = false := by intro g; cases g <;> rfl
  have h3 : bitSized (sizeArg none a.bytes) = false := by cases a.bytes <;> rfl
  rw [h1, h2, h3, Bool.false_or, Bool.false_or, Bool.false_or]
  unfold bitSized
  rw [List.any_eq_false]
  intro x hx
  obtain ⟨g, _, hg⟩ := List.mem_filterMap.1 hx
  cases g with
  | endian g =>
    rw [CtxArg.means, Option.map_eq_some_iff] at hg
    obtain ⟨_, _, rfl⟩ := hg
    simp
  | order g =>
    rw [CtxArg.means, Option.map_eq_some_iff] at hg
    obtain ⟨_, _, rfl⟩ := hg
    simp
  | num e => rw [CtxArg.means] at hg; cases hg; simp

theorem sizeOf?_passes (c : Container) (sc : List Arg) (a : SAttrs) (h : a.bits = none) (h' : a.bytes = none)
    (hc : a.ctx = []) : sizeOf? (a.passes c sc) = none := by
  unfold SAttrs.passes
  rw [h, h', hc]
  generalize (a.endian.or c.endian).bind _ = x
  generalize (a.order.or c.order).bind _ = y
  cases x <;> cases y <;> rfl

/-- A limit is left, or it is the length. -/
theorem SAttrs.loose_limits (held : List (Option Temp)) (i : Nat) (t : STy) (a : SAttrs) (l : Lim) (h : l ∈ a.limits) :
    l ∈ (a.loose held i t).limits ∨ (∃ e, l = .count e ∧ a.count = some e ∧ a.counted held i t = true) ∨
      ∃ e, l = .bytes e ∧ a.bytesRead = some e ∧ a.measured held i t = true := by
  unfold limits at h ⊢
  unfold loose
  dsimp only
  simp only [List.mem_append] at h ⊢
  rcases h with (((h | h) | h) | h) | h
  · cases hc : a.counted held i t with
    | false => rw [if_neg (by simp)]; exact .inl (.inl (.inl (.inl (.inl h))))
    | true =>
      cases he : a.count with
      | none => rw [he] at h; simp at h
      | some e => rw [he] at h; simp at h; exact .inr (.inl ⟨e, h, rfl, rfl⟩)
  · cases hc : a.measured held i t with
    | false => rw [if_neg (c := false = true) (by simp)]; exact .inl (.inl (.inl (.inl (.inr h))))
    | true =>
      cases he : a.bytesRead with
      | none => rw [he] at h; simp at h
      | some e => rw [he] at h; simp at h; exact .inr (.inr ⟨e, h, rfl, rfl⟩)
  · exact .inl (.inl (.inl (.inr h)))
  · exact .inl (.inl (.inr h))
  · exact .inl (.inr h)

/-- A list is consistent with more limits if it keeps them. -/
theorem STy.vec_more (o : Order) (m : Machine) (zst : Bool) (t : STy) (lims lims' : List Lim) (args : List Arg) (env : Env)
    (v : Val) (h : (STy.vec zst t).consistent o m lims args env v = true)
    (hl : ∀ l ∈ lims', l ∈ lims ∨ l.good env v.elems (flat (v.elems.flatMap fun x => t.wire o m.native args env x)).length
      (v.elems.all fun x => !(flat (t.wire o m.native args env x)).isEmpty) = true) :
    (STy.vec zst t).consistent o m lims' args env v = true := by
  rw [STy.consistent] at h ⊢
  rw [Bool.and_eq_true] at h ⊢
  refine ⟨h.1, List.all_eq_true.2 fun l hm => ?_⟩
  rcases hl l hm with h' | h'
  · exact List.all_eq_true.1 h.2 l h'
  · exact h'

theorem lim_count_good (env : Env) (vs : List Val) (n : Nat) (b : Bool) (e : Expr) (h : e.eval env = (vs.length : Int))
    (hl : vs.length < 2 ^ 61) : (Lim.count e).good env vs n b = true := by
  unfold Lim.good
  dsimp only
  rw [h]
  refine decide_eq_true ⟨rfl, ?_⟩
  have : (2 : Int) ^ 64 = 18446744073709551616 := by decide
  omega

theorem lim_bytes_good (env : Env) (vs : List Val) (n : Nat) (e : Expr) (h : e.eval env = (vs.length : Int))
    (hn : n = 8 * vs.length) (hl : vs.length < 2 ^ 61) : (Lim.bytes e).good env vs n true = true := by
  unfold Lim.good
  dsimp only
  rw [h, hn, Bool.and_true]
  exact decide_eq_true ⟨by omega, by omega⟩

/-- The bits of a list of bytes. -/
theorem bytes_flat (o : Order) (m : Machine) (args : List Arg) (env : Env) (hs : sizeOf? args = none) (vs : List Val)
    (h : ∀ x ∈ vs, (STy.base (.uint 1)).consistent o m [] args env x = true) :
    (flat (vs.flatMap fun x => (STy.base (.uint 1)).wire o m.native args env x)).length = 8 * vs.length ∧
    (vs.all fun x => !(flat ((STy.base (.uint 1)).wire o m.native args env x)).isEmpty) = true := by
  induction vs with
  | nil => exact ⟨rfl, rfl⟩
  | cons x vs ih =>
    obtain ⟨h1, h2⟩ := ih fun y hy => h y (List.mem_cons_of_mem _ hy)
    have hx := h x List.mem_cons_self
    have hb : (flat ((STy.base (.uint 1)).wire o m.native args env x)).length = 8 := by
      rw [STy.consistent] at hx
      rw [STy.wire]
      cases x with
      | num n =>
        show (flat [intPiece o m.native args 1 n]).length = 8
        rw [flat_one]
        unfold intPiece
        dsimp only
        rw [Prim.length_fieldBits, hs]
        rfl
      | _ => unfold Base.fits at hx; rw [Bool.and_eq_true] at hx; exact absurd hx.1 (by simp [Base.has])
    refine ⟨?_, ?_⟩
    · rw [List.flatMap_cons, flat_append, List.length_append, hb, h1, List.length_cons]
      omega
    · rw [List.all_cons, h2, Bool.and_true]
      cases hf : flat ((STy.base (.uint 1)).wire o m.native args env x) with
      | nil => rw [hf] at hb; simp at hb
      | cons => rfl

theorem STy.isVecU8_eq {t : STy} (h : t.isVecU8 = true) : ∃ zst, t = .vec zst (.base (.uint 1)) := by
  unfold STy.isVecU8 at h
  split at h
  · exact ⟨_, rfl⟩
  · cases h

/-- A list with the limits left keeps all its limits. -/
theorem STy.loose_limits (o : Order) (m : Machine) (c : Container) (sc : List Arg) (a : SAttrs) (t : STy) (held : List (Option Temp))
    (i : Nat) (env : Env) (all x : Val) (hh : Held held env all) (hx : a.temp = none → all.elems[i]? = some x)
    (h : t.consistent o m (a.loose held i t).limits (a.passes c sc) env x = true) :
    t.consistent o m a.limits (a.passes c sc) env x = true := by
  by_cases hv : t.isVec = true
  · cases t with
    | vec zst t =>
      refine STy.vec_more o m zst t _ _ _ env x h fun l hl => ?_
      rcases a.loose_limits held i _ l hl with h1 | ⟨e, rfl, he, hc⟩ | ⟨e, rfl, he, hc⟩
      · exact .inl h1
      · refine .inr ?_
        unfold SAttrs.counted at hc
        simp only [Bool.and_eq_true, Option.isNone_iff_eq_none] at hc
        obtain ⟨e', he', h2, h3⟩ := hh.eval hc.1.2
        rw [he] at he'
        cases he'
        rw [hx hc.1.1.2] at h2 h3
        exact lim_count_good env _ _ _ e h2 h3
      · refine .inr ?_
        unfold SAttrs.measured at hc
        simp only [Bool.and_eq_true, Option.isNone_iff_eq_none, List.isEmpty_iff] at hc
        obtain ⟨⟨⟨⟨⟨hu, ht⟩, hb⟩, hby⟩, hctx⟩, hl⟩ := hc
        obtain ⟨e', he', h2, h3⟩ := hh.eval hl
        rw [he] at he'
        cases he'
        rw [hx ht] at h2 h3
        obtain ⟨z, hz⟩ := STy.isVecU8_eq hu
        cases hz
        rw [STy.consistent, Bool.and_eq_true, Bool.and_eq_true] at h
        obtain ⟨g1, g2⟩ := bytes_flat o m (a.passes c sc) env (sizeOf?_passes c sc a hb hby hctx) x.elems
          (List.all_eq_true.1 h.1.2)
        rw [g2]
        exact lim_bytes_good env _ _ e h2 g1 h3
    | _ => cases hv
  · have h1 : a.counted held i t = false := by
      unfold SAttrs.counted
      rw [Bool.not_eq_true] at hv
      rw [hv]; rfl
    have h2 : a.measured held i t = false := by
      unfold SAttrs.measured
      cases hu : t.isVecU8 with
      | false => rfl
      | true => obtain ⟨z, rfl⟩ := STy.isVecU8_eq hu; exact absurd rfl hv
    unfold SAttrs.loose at h
    rw [h1, h2] at h
    exact h

/-- One field. -/
theorem SAttrs.of_loose (o : Order) (m : Machine) (c : Container) (sc : List Arg) (a : SAttrs) (t : STy) (held : List (Option Temp))
    (i : Nat) (env : Env) (all x : Val) (hh : Held held env all) (hx : a.temp = none → all.elems[i]? = some x)
    (ht : ∀ lims, (t.loose []).consistent o m lims (a.passes c sc) env x = true → t.consistent o m lims (a.passes c sc) env x = true)
    (h : (a.loose held i t).consistent (t.loose []) (a.passes c sc) (fun x => (t.loose []).consistent o m
      (a.loose held i t).limits (a.passes c sc) env x) env x = true) :
    a.consistent t (a.passes c sc) (fun x => t.consistent o m a.limits (a.passes c sc) env x) env x = true := by
  unfold SAttrs.consistent at h ⊢
  rw [t.loose_isVecU8, t.loose_isDefault, t.loose_isOption] at h
  have hpa : (a.loose held i t).parsed env = a.parsed env := rfl
  have hwr : (a.loose held i t).written env = a.written env := rfl
  have hde : (a.loose held i t).default = a.default := rfl
  have has : (a.loose held i t).assertEq = a.assertEq := rfl
  have hp1 : padSmall (a.loose held i t).padBitsBefore (a.loose held i t).padBytesBefore =
    padSmall a.padBitsBefore a.padBytesBefore := rfl
  have hp2 : padSmall (a.loose held i t).padBitsAfter (a.loose held i t).padBytesAfter =
    padSmall a.padBitsAfter a.padBytesAfter := rfl
  rw [hpa, hwr, hde, has, hp1, hp2] at h
  simp only [Bool.and_eq_true] at h ⊢
  refine ⟨⟨⟨?_, h.1.1.2⟩, h.1.2⟩, h.2⟩
  have h := h.1.1.1
  cases hp : a.parsed env with
  | false => rw [hp] at h; exact h
  | true =>
    rw [hp] at h
    simp only [if_true, Bool.and_eq_true] at h ⊢
    refine ⟨⟨h.1.1, STy.loose_limits o m c sc a t held i env all x hh hx (ht _ h.1.2)⟩, ?_⟩
    cases hc : a.counted held i t with
    | false =>
      have hco : (a.loose held i t).count = a.count := by unfold SAttrs.loose; dsimp only; rw [hc]; rfl
      rw [hco] at h
      exact h.2
    | true =>
      unfold SAttrs.counted at hc
      simp only [Bool.and_eq_true, Option.isNone_iff_eq_none] at hc
      obtain ⟨⟨⟨_, hte⟩, hl⟩, hb⟩ := hc
      cases hu : t.isVecU8 with
      | false => simp
      | true =>
        rw [hu] at hb
        obtain ⟨e', he', h2, h3⟩ := hh.eval hl
        rw [hx hte] at h3
        have hb : a.bits = none := by cases ha : a.bits with | none => rfl | some n => rw [ha] at hb; cases hb
        rw [bitSized_passes c sc a hb]
        simp only [Bool.and_true, Bool.not_false, Bool.true_and, Bool.or_eq_true]
        exact .inr (decide_eq_true h3)

/-- The fields that are updated have the lengths that they hold. -/
def Planned (plan : List (Option Temp)) (all : Val) : Prop :=
  ∀ (j : Nat) (f : Temp), plan[j]? = some (some f) → all.elems[j]? = some (.num (f.length all)) ∧ f.length all < 2 ^ 61

theorem Held.first {plan : List (Option Temp)} {x xs : Val} (hp : Planned plan (.cons x xs)) (env : Env) :
    Held [plan[0]?.getD none] (env.push x) (.cons x xs) := by
  refine (Held.nil _ _).push _ _ fun g hg => ?_
  cases hpl : plan[0]? with
  | none => rw [hpl] at hg; cases hg
  | some f =>
    rw [hpl] at hg
    simp only [Option.getD_some] at hg
    subst hg
    obtain ⟨g1, g2⟩ := hp 0 g hpl
    simp only [Val.elems, List.getElem?_cons_zero] at g1
    exact ⟨Option.some.inj g1, g2⟩

theorem Planned.nil (all : Val) : Planned [] all := fun j f h => by simp at h

/-- The fields of the struct, or of the variant, hold the lengths. -/
def STy.Planned : STy → List (List (Option Temp)) → Val → Prop
  | .struct _ _, plans, v => Deku.Planned (plans.headD []) v
  | .enum _ _ _, plans, .variant i fs => Deku.Planned (plans[i]?.getD []) fs
  | _, _, _ => True

theorem STy.Planned.nil (t : STy) (v : Val) : t.Planned [] v := by
  unfold STy.Planned
  split
  · exact Deku.Planned.nil _
  · exact Deku.Planned.nil _
  · trivial

mutual

theorem STy.short_num : ∀ (t : STy) (n : Int), t.short (.num n) = true
  | .base _, n => by rw [STy.short]
  | .option t, n => by rw [STy.short.eq_def]
  | .array _ t, n => by rw [STy.short]; rfl
  | .pair a b, n => by rw [STy.short.eq_def]
  | .vec _ t, n => by rw [STy.short]; rfl
  | .struct _ fs, n => by rw [STy.short]; exact fs.short_num n
  | .enum _ _ vs, n => by rw [STy.short.eq_def]

theorem SFields.short_num : ∀ (fs : SFields) (n : Int), fs.short (.num n) (.num n) = true
  | .nil, n => by rw [SFields.short]
  | .cons a t rest, n => by
    rw [SFields.short.eq_def]
    dsimp only
    split
    · rename_i f _
      rw [rest.short_num n, Bool.and_true]
      exact decide_eq_true ⟨Nat.pow_pos (by decide), Nat.pow_pos (by decide)⟩
    · rfl

end

mutual

theorem STy.of_loose (o : Order) (m : Machine) : ∀ (t : STy) (plans : List (List (Option Temp))) (lims : List Lim) (args : List Arg)
    (env : Env) (v : Val), t.Planned plans v → (t.loose plans).consistent o m lims args env v = true → t.short v = true →
    t.consistent o m lims args env v = true
  | .base b, plans, lims, args, env, v, hp, h, hs => by rw [STy.loose] at h; exact h
  | .option t, plans, lims, args, env, v, hp, h, hs => by
    rw [STy.loose, STy.consistent.eq_def] at h
    rw [STy.consistent.eq_def]
    rw [STy.short.eq_def] at hs
    dsimp only at h hs ⊢
    cases v with
    | some x => exact t.of_loose o m [] lims args env x (STy.Planned.nil _ _) h hs
    | _ => cases h
  | .array n t, plans, lims, args, env, v, hp, h, hs => by
    rw [STy.loose, STy.consistent] at h
    rw [STy.consistent]
    rw [STy.short] at hs
    rw [Bool.and_eq_true] at h ⊢
    refine ⟨h.1, List.all_eq_true.2 fun x hx => ?_⟩
    exact t.of_loose o m [] lims args env x (STy.Planned.nil _ _) (List.all_eq_true.1 h.2 x hx)
      (List.all_eq_true.1 hs x hx)
  | .pair a b, plans, lims, args, env, v, hp, h, hs => by
    rw [STy.loose, STy.consistent.eq_def] at h
    rw [STy.consistent.eq_def]
    rw [STy.short.eq_def] at hs
    dsimp only at h hs ⊢
    split at h
    · rename_i x y
      dsimp only at hs ⊢
      rw [Bool.and_eq_true] at h hs ⊢
      exact ⟨a.of_loose o m [] lims args env x (STy.Planned.nil _ _) h.1 hs.1,
        b.of_loose o m [] lims args env y (STy.Planned.nil _ _) h.2 hs.2⟩
    · cases h
  | .vec zst t, plans, lims, args, env, v, hp, h, hs => by
    rw [STy.loose, STy.consistent] at h
    rw [STy.consistent]
    rw [STy.short] at hs
    simp only [flat_flatMap, t.flat_loose] at h
    simp only [flat_flatMap]
    rw [Bool.and_eq_true, Bool.and_eq_true] at h ⊢
    refine ⟨⟨h.1.1, List.all_eq_true.2 fun x hx => ?_⟩, h.2⟩
    exact t.of_loose o m [] [] args env x (STy.Planned.nil _ _) (List.all_eq_true.1 h.1.2 x hx)
      (List.all_eq_true.1 hs x hx)
  | .struct c fs, plans, lims, args, env, v, hp, h, hs => by
    rw [STy.loose, STy.consistent] at h
    rw [STy.consistent]
    rw [STy.short] at hs
    exact fs.of_loose o m c _ [] 0 _ _ _ _ hp (Held.nil _ _) (fun j => by rw [Nat.zero_add]) h hs
  | .enum c id vs, plans, lims, args, env, v, hp, h, hs => by
    rw [STy.loose, STy.consistent.eq_def] at h
    rw [STy.consistent.eq_def]
    rw [STy.short.eq_def] at hs
    dsimp only at h hs ⊢
    cases v with
    | variant i fs =>
      simp only [vs.loose_picks] at h
      exact vs.of_looseAt o m c id _ plans i _ _ fs hp h hs
    | _ => cases h

theorem SFields.of_loose (o : Order) (m : Machine) (c : Container) : ∀ (fs : SFields) (plan held : List (Option Temp)) (i : Nat)
    (sc : List Arg) (env : Env) (all v : Val), Planned plan all → Held held env all → (∀ j, v.elems[j]? = all.elems[i + j]?) →
    (fs.loose plan held i).consistent o m c sc env all v = true → fs.short all v = true →
    fs.consistent o m c sc env all v = true
  | .nil, plan, held, i, sc, env, all, v, hp, hh, hv, h, hs => by rw [SFields.loose] at h; exact h
  | .cons a t rest, plan, held, i, sc, env, all, v, hp, hh, hv, h, hs => by
    rw [SFields.loose, SFields.consistent.eq_def] at h
    rw [SFields.consistent.eq_def]
    rw [SFields.short.eq_def] at hs
    dsimp only at h hs ⊢
    rw [a.loose_temp, a.loose_passes] at h
    have hhold : a.holds plan i = match a.temp with | some f => some f | none => plan[i]?.getD none := rfl
    cases ht : a.temp with
    | some f =>
      rw [ht] at h hs hhold
      dsimp only at h hs hhold ⊢
      rw [Bool.and_eq_true] at h hs ⊢
      obtain ⟨h1, h2⟩ := f.eval_fits all hs.1
      refine ⟨SAttrs.of_loose o m c sc a t held i env all _ hh (by rw [ht]; exact nofun) (fun lims hl => ?_) h.1, ?_⟩
      · rw [h1] at hl ⊢
        exact t.of_loose o m [] lims _ env _ (STy.Planned.nil _ _) hl (t.short_num _)
      · rw [hhold, Option.isSome_some, if_pos rfl] at h
        refine rest.of_loose o m c plan _ i sc _ all v hp (hh.push _ _ fun g hg => ?_) hv h.2 hs.2
        cases hg
        exact ⟨h1, h2⟩
    | none =>
      rw [ht] at h hs hhold
      dsimp only at h hs hhold ⊢
      cases v with
      | cons x xs =>
        dsimp only at h hs ⊢
        rw [Bool.and_eq_true] at h hs ⊢
        have hx : all.elems[i]? = some x := by have := hv 0; simp [Val.elems] at this; exact this.symm
        refine ⟨SAttrs.of_loose o m c sc a t held i env all _ hh (fun _ => hx) (fun lims hl => ?_) h.1, ?_⟩
        · exact t.of_loose o m [] lims _ env x (STy.Planned.nil _ _) hl hs.1
        · rw [hhold, Option.isSome_none, if_neg (by simp)] at h
          refine rest.of_loose o m c plan _ (i + 1) sc _ all xs hp (hh.push _ _ fun g hg => ?_) (fun j => ?_) h.2 hs.2
          · cases hpl : plan[i]? with
            | none => rw [hpl] at hg; cases hg
            | some f =>
              rw [hpl] at hg
              simp only [Option.getD_some] at hg
              subst hg
              obtain ⟨g1, g2⟩ := hp i g hpl
              rw [hx] at g1
              exact ⟨Option.some.inj g1, g2⟩
          · have := hv (j + 1)
            simp only [Val.elems, List.getElem?_cons_succ] at this
            rw [this]
            congr 1
            omega
      | _ => cases h

theorem SFields.of_looseFirst (o : Order) (m : Machine) (c : Container) : ∀ (fs : SFields)
    (plan : List (Option Temp)) (sc : List Arg) (env : Env) (v : Val), Planned plan v →
    (fs.looseStored plan).consistent o m c sc env v v = true → fs.short v v = true →
    fs.consistent o m c sc env v v = true
  | .nil, plan, sc, env, v, hp, h, hs => by rw [SFields.looseStored] at h; exact h
  | .cons a t rest, plan, sc, env, v, hp, h, hs => by
    rw [SFields.looseStored, SFields.consistent.eq_def] at h
    rw [SFields.consistent.eq_def]
    rw [SFields.short.eq_def] at hs
    dsimp only at h hs ⊢
    cases ht : a.temp with
    | some f => rw [ht] at h; exact h
    | none =>
      rw [ht] at h hs
      dsimp only at h hs ⊢
      rw [Option.isSome_none, if_neg (by simp)] at h
      cases v with
      | cons x xs =>
        dsimp only at h hs ⊢
        rw [Bool.and_eq_true] at h hs ⊢
        exact ⟨h.1, rest.of_loose o m c plan _ 1 sc _ _ xs hp (Held.first hp env)
          (fun j => by simp only [Val.elems, Nat.add_comm 1 j, List.getElem?_cons_succ]) h.2 hs.2⟩
      | _ => cases h

theorem SFields.of_looseStored (o : Order) (m : Machine) (c : Container) (id : Int → Bool) : ∀ (fs : SFields)
    (plan : List (Option Temp)) (sc : List Arg) (env : Env) (v : Val), Planned plan v →
    (fs.looseStored plan).consistentStored o m c id sc env v = true → fs.short v v = true →
    fs.consistentStored o m c id sc env v = true
  | .nil, plan, sc, env, v, hp, h, hs => by rw [SFields.looseStored] at h; exact h
  | .cons a t rest, plan, sc, env, v, hp, h, hs => by
    rw [SFields.looseStored, SFields.consistentStored.eq_def] at h
    rw [SFields.consistentStored.eq_def]
    rw [SFields.short.eq_def] at hs
    dsimp only at h hs ⊢
    cases ht : a.temp with
    | some f => rw [ht] at h; exact h
    | none =>
      rw [ht] at h hs
      dsimp only at h hs ⊢
      rw [Option.isSome_none, if_neg (by simp)] at h
      cases v with
      | cons x xs =>
        dsimp only at h hs ⊢
        rw [Bool.and_eq_true] at h hs ⊢
        exact ⟨h.1, rest.of_loose o m c plan _ 1 sc _ _ xs hp (Held.first hp env)
          (fun j => by simp only [Val.elems, Nat.add_comm 1 j, List.getElem?_cons_succ]) h.2 hs.2⟩
      | _ => cases h

theorem SVariants.of_looseAt (o : Order) (m : Machine) (c : Container) (id : SId) (sel : Int → Bool) : ∀ (vs : SVariants)
    (plans : List (List (Option Temp))) (i : Nat) (sc : List Arg) (env : Env) (v : Val),
    Planned (plans[i]?.getD []) v →
    (vs.loose plans).consistentAt o m c id sel i sc env v = true → vs.shortAt i v = true →
    vs.consistentAt o m c id sel i sc env v = true
  | .nil, plans, i, sc, env, v, hp, h, hs => by rw [SVariants.loose] at h; exact h
  | .cons a fs rest, plans, 0, sc, env, v, hp, h, hs => by
    have hp : Planned (plans.headD []) v := by cases plans <;> simpa using hp
    rw [SVariants.loose, SVariants.consistentAt.eq_def] at h
    rw [SVariants.consistentAt.eq_def]
    rw [SVariants.shortAt] at hs
    dsimp only at h ⊢
    cases id with
    | ctx e =>
      dsimp only at h ⊢
      rw [Bool.and_eq_true] at h ⊢
      refine ⟨h.1, ?_⟩
      have h := h.2
      split at h
      · exact fs.of_looseFirst o m c _ sc env v hp h hs
      · exact fs.of_loose o m c _ [] 0 sc env v v hp (Held.nil _ _) (fun j => by rw [Nat.zero_add]) h hs
    | typed W e bits bytes =>
      cases hk : a.kind with
      | id n =>
        rw [hk] at h
        dsimp only at h ⊢
        rw [if_neg (by simp [VKind.isPat])] at h
        rw [Bool.and_eq_true] at h ⊢
        exact ⟨h.1, fs.of_loose o m c _ [] 0 sc env v v hp (Held.nil _ _) (fun j => by rw [Nat.zero_add]) h.2 hs⟩
      | any =>
        rw [hk, if_pos (show VKind.any.isPat = true from rfl)] at h
        exact fs.of_looseStored o m c _ _ sc env v hp h hs
      | range lo hi =>
        rw [hk, if_pos (show (VKind.range lo hi).isPat = true from rfl)] at h
        exact fs.of_looseStored o m c _ _ sc env v hp h hs
  | .cons a fs rest, plans, i + 1, sc, env, v, hp, h, hs => by
    rw [SVariants.loose, SVariants.consistentAt] at h
    rw [SVariants.consistentAt]
    rw [SVariants.shortAt] at hs
    refine rest.of_looseAt o m c id sel plans.tail i sc env v ?_ h hs
    cases plans with
    | nil => simpa using hp
    | cons p ps => simpa using hp

end

end Deku
