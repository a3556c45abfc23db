import Verif.Spec.Asserts
import Verif.Lemmas.Hoare
import Verif.Lemmas.Leaves

/-! # Values that were read or written satisfy their assertions -/

namespace Deku

open Reader Writer Coll

variable {α σ : Type}

theorem check_iff {a : Attrs} {env : Env} {v : Val} (s : σ) :
    (a.Holds env v → a.check env v s = (.ok (), s)) ∧
    (¬ a.Holds env v → a.check env v s = (.err .assertion, s)) := by
  unfold Attrs.Holds Attrs.check
  by_cases h : a.assert env v = false
  · rw [if_pos h]
    simp [h]
  · rw [if_neg h]
    simp at h
    cases hq : a.assertEq env with
    | none => simp [h]
    | some x =>
      by_cases hx : v = x
      · subst hx; simp [h]
      · simp [h, hx]

theorem Keeps.check {I : σ → Prop} {a : Attrs} {env : Env} {v : Val} :
    Keeps I (fun _ => a.Holds env v) (a.check env v : M σ Unit) := by
  intro s u s' hs he
  by_cases h : a.Holds env v
  · rw [(check_iff s).1 h] at he
    simp at he
    exact ⟨he ▸ hs, h⟩
  · rw [(check_iff s).2 h] at he
    simp at he

/-- No condition. -/
abbrev Top {τ : Type} : τ → Prop := fun _ => True

theorem Keeps.any (f : M σ α) : Keeps Top Top f := fun _ _ _ _ _ => ⟨trivial, trivial⟩

theorem Attrs.read_keeps {a : Attrs} (native : Endian) {rd : Env → M Reader Val} {T : Env → Val → Prop}
    (hT : ∀ env, Keeps Top (T env) (rd env)) (env : Env) :
    Keeps Top (fun x => ∃ off, a.Holds (env.at off) x ∧ (a.isRead (env.at off) = true →
      ∃ raw, a.map (env.at off) raw = .ok x ∧ T (env.at off) raw)) (a.read native rd env) := by
  unfold Attrs.read
  refine (Keeps.any _).bind fun _ _ => (Keeps.any _).bind fun _ _ => (Keeps.any _).bind fun _ _ =>
    Keeps.get.bind fun r _ => ?_
  generalize (if a.usesOffset = true then r.bitsRead else 0) = off
  have hv : Keeps Top (fun x => a.isRead (env.at off) = true →
      ∃ raw, a.map (env.at off) raw = .ok x ∧ T (env.at off) raw) (a.value rd (env.at off)) := by
    unfold Attrs.value
    by_cases h : a.isRead (env.at off) = true
    · rw [if_pos h]
      refine (hT _).bind fun raw hraw => ?_
      unfold Attrs.applyMap
      split
      · rename_i v hv
        exact Keeps.pure fun _ => ⟨raw, hv, hraw⟩
      · exact Keeps.throw
    · rw [if_neg h]
      exact Keeps.pure fun h' => absurd h' h
  exact hv.bind fun x hx => Keeps.check.bind fun _ hc => (Keeps.any _).bind fun _ _ =>
    Keeps.pure ⟨off, hc, hx⟩

theorem Attrs.write_keeps {a : Attrs} (native : Endian) {wr : Env → Val → M Writer Unit}
    {T : Env → Val → Prop} (hT : ∀ env x, Keeps Top (fun _ => T env x) (wr env x)) (env : Env) (x : Val) :
    Keeps Top (fun _ => ∃ off, a.Holds (env.at off) x ∧ (a.isWritten (env.at off) = true →
      T (env.at off) (a.unmap (env.at off) x))) (a.write native wr env x) := by
  unfold Attrs.write
  refine (Keeps.any _).bind fun _ _ => (Keeps.any _).bind fun _ _ => (Keeps.any _).bind fun _ _ =>
    Keeps.get.bind fun r _ => ?_
  generalize (if a.usesOffset = true then r.bitsWritten else 0) = off
  have hv : Keeps Top (fun _ => a.isWritten (env.at off) = true →
      T (env.at off) (a.unmap (env.at off) x)) (a.put wr (env.at off) x) := by
    unfold Attrs.put
    by_cases h : a.isWritten (env.at off) = true
    · rw [if_pos h]
      exact (hT _ _).mono fun _ h _ => h
    · rw [if_neg h]
      exact Keeps.pure fun h' => absurd h' h
  exact Keeps.check.bind fun _ hc => hv.bind fun _ hx => (Keeps.any _).mono fun _ _ => ⟨off, hc, hx⟩

theorem dispatch_keeps {R : Val → Prop} {sel : Option Nat} {arm : Nat → M Reader Val}
    (h : ∀ i, Keeps Top (fun fs => R (.variant i fs)) (arm i)) : Keeps Top R (dispatch sel arm) := by
  unfold dispatch
  split
  · exact Keeps.throw
  · exact (h _).bind fun _ h => Keeps.pure h

mutual

theorem Ty.read_asserted (m : Machine) : ∀ (t : Ty) (env : Env), Keeps Top (t.Asserted env) (t.read m env)
  | .prim _ c, env => by simp only [Ty.Asserted]; exact Keeps.any _
  | .option t, env => by
    simp only [Ty.read, Ty.Asserted]
    exact (Ty.read_asserted m t env).bind fun x h => Keeps.pure ⟨x, rfl, h⟩
  | .array n t, env => by
    simp only [Ty.read, Ty.Asserted]
    refine (arrayRead_keeps (Ty.read_asserted m t env) n).bind fun vs h => Keeps.pure ?_
    rw [elems_ofList]; exact h.2
  | .pair a b, env => by
    simp only [Ty.read, Ty.Asserted]
    exact (Ty.read_asserted m a env).bind fun x hx => (Ty.read_asserted m b env).bind fun y hy =>
      Keeps.pure ⟨x, y, rfl, hx, hy⟩
  | .vec size l t, env => by
    simp only [Ty.read, Ty.Asserted]
    refine (Keeps.any _).bind fun lim _ =>
      (vecRead_keeps (Ty.read_asserted m t env) (Keeps.any _) m.mem size lim).bind fun vs h => Keeps.pure ?_
    rw [elems_ofList]; exact h
  | .bytes _ _, env => by simp only [Ty.Asserted]; exact Keeps.any _
  | .struct args sk magic fs, env => by
    simp only [Ty.read, Ty.Asserted]
    exact (Keeps.any _).bind fun _ _ => (Keeps.any _).bind fun _ _ => Fields.read_asserted m fs _
  | .enum args magic id store vs, env => by
    rw [Ty.read_enum]
    refine (Keeps.any _).bind fun _ _ => (Keeps.any _).bind fun x _ => dispatch_keeps fun i => ?_
    exact (Variants.read_asserted m vs _ x id.isTyped i).mono fun fs h => by
      simp only [Ty.Asserted]; exact ⟨i, fs, rfl, h⟩

theorem Fields.read_asserted (m : Machine) : ∀ (fs : Fields) (env : Env),
    Keeps Top (fs.Asserted env) (fs.read m env)
  | .nil, env => by simp only [Fields.Asserted]; exact Keeps.any _
  | .cons a t tl, env => by
    simp only [Fields.read, Fields.Asserted]
    refine (Attrs.read_keeps m.native (fun env => Ty.read_asserted m t env) env).bind fun x hx =>
      (Fields.read_asserted m tl (env.push x)).bind fun xs hxs => Keeps.pure ?_
    obtain ⟨off, h1, h2⟩ := hx
    exact ⟨x, xs, off, rfl, h1, h2, hxs⟩
  | .temp a t value tl, env => by
    simp only [Fields.read, Fields.Asserted]
    refine (Attrs.read_keeps m.native (fun env => Ty.read_asserted m t env) env).bind fun x hx =>
      (Fields.read_asserted m tl (env.push x)).mono fun xs hxs => ?_
    obtain ⟨off, h1, h2⟩ := hx
    exact ⟨x, off, h1, h2, hxs⟩

theorem Variants.read_asserted (m : Machine) : ∀ (vs : Variants) (env : Env) (x : Val) (typed : Bool)
    (i : Nat), Keeps Top (vs.AssertedAt env i) (vs.readAt m env x typed i)
  | .nil, env, x, typed, i => by simp only [Variants.readAt]; exact Keeps.panic
  | .cons a fs tl, env, x, typed, 0 => by
    simp only [Variants.readAt, Variants.AssertedAt]
    by_cases h : (a.idPat && typed) = true
    · rw [if_pos h]
      simp at h
      refine Keeps.mono (R := fs.AssertedStored env) ?_ fun _ h' => .inr ⟨h.1, h'⟩
      cases fs with
      | nil => simp only [Fields.AssertedStored]; exact Keeps.any _
      | cons fa ft fr =>
        simp only [Fields.AssertedStored, Fields.readStored]
        exact (Fields.read_asserted m fr _).bind fun xs h => Keeps.pure ⟨x, xs, rfl, h⟩
      | temp fa ft fv fr =>
        simp only [Fields.AssertedStored, Fields.readStored]
        exact (Fields.read_asserted m fr _).mono fun xs h => ⟨x, h⟩
    · rw [if_neg h]
      exact (Fields.read_asserted m fs env).mono fun _ h => .inl h
  | .cons a fs tl, env, x, typed, i + 1 => by
    simp only [Variants.readAt, Variants.AssertedAt]
    exact Variants.read_asserted m tl env x typed i

end

mutual

theorem Ty.write_asserted (m : Machine) : ∀ (t : Ty) (env : Env) (v : Val),
    Keeps Top (fun _ => t.AssertedW env v) (t.write m env v)
  | .prim _ c, env, v => by simp only [Ty.AssertedW]; exact Keeps.any _
  | .option t, env, v => by
    simp only [Ty.AssertedW]
    cases v with
    | none => exact (Keeps.any _).mono fun _ _ => .inl rfl
    | some x =>
      simp only [Ty.write]
      exact (Ty.write_asserted m t env x).mono fun _ h => .inr ⟨x, rfl, h⟩
    | _ => simp only [Ty.write]; exact Keeps.panic
  | .array n t, env, v => by
    simp only [Ty.write, Ty.AssertedW]
    split
    · exact writeAll_keeps (fun x => Ty.write_asserted m t env x) _
    · exact Keeps.panic
  | .pair a b, env, v => by
    simp only [Ty.write, Ty.AssertedW]
    split
    · rename_i x y
      exact (Ty.write_asserted m a env x).bind fun _ hx => (Ty.write_asserted m b env y).mono fun _ hy =>
        ⟨x, y, rfl, hx, hy⟩
    · exact Keeps.panic
  | .vec size l t, env, v => by
    simp only [Ty.write, Ty.AssertedW]
    split
    · exact writeAll_keeps (fun x => Ty.write_asserted m t env x) _
    · exact Keeps.panic
  | .bytes _ _, env, v => by simp only [Ty.AssertedW]; exact Keeps.any _
  | .struct args sk magic fs, env, v => by
    simp only [Ty.write, Ty.AssertedW]
    exact (Keeps.any _).bind fun _ _ => (Keeps.any _).bind fun _ _ => Fields.write_asserted m fs _ v v
  | .enum args magic id store vs, env, v => by
    simp only [Ty.write, Ty.AssertedW]
    split
    · rename_i i fs
      exact (Keeps.any _).bind fun _ _ => (Variants.write_asserted m vs _ id (store i) i fs).mono fun _ h =>
        ⟨i, fs, rfl, h⟩
    · exact Keeps.panic

theorem Fields.write_asserted (m : Machine) : ∀ (fs : Fields) (env : Env) (all v : Val),
    Keeps Top (fun _ => fs.AssertedW env all v) (fs.write m env all v)
  | .nil, env, all, v => by simp only [Fields.AssertedW]; exact Keeps.any _
  | .cons a t tl, env, all, v => by
    simp only [Fields.write, Fields.AssertedW]
    split
    · rename_i x xs
      refine (Attrs.write_keeps m.native (fun env x => Ty.write_asserted m t env x) env x).bind fun _ hx =>
        (Fields.write_asserted m tl (env.push x) all xs).mono fun _ hxs => ?_
      obtain ⟨off, h1, h2⟩ := hx
      exact ⟨x, xs, off, rfl, h1, h2, hxs⟩
    · exact Keeps.panic
  | .temp a t value tl, env, all, v => by
    cases value with
    | some f =>
      simp only [Fields.write, Fields.AssertedW]
      refine (Attrs.write_keeps m.native (fun env x => Ty.write_asserted m t env x) env (f all)).bind
        fun _ hx => (Fields.write_asserted m tl (env.push (f all)) all v).mono fun _ hxs => ?_
      obtain ⟨off, h1, h2⟩ := hx
      exact ⟨off, h1, h2, hxs⟩
    | none =>
      simp only [Fields.write, Fields.AssertedW]
      exact (Keeps.any _).bind fun _ _ => Fields.write_asserted m tl _ all v

theorem Variants.write_asserted (m : Machine) : ∀ (vs : Variants) (env : Env) (id : IdSrc)
    (store : Env → Val → M Writer Unit) (i : Nat) (v : Val),
    Keeps Top (fun _ => vs.AssertedAtW env i v) (vs.writeAt m env id store i v)
  | .nil, env, id, store, i, v => by simp only [Variants.writeAt]; exact Keeps.panic
  | .cons a fs tl, env, id, store, 0, v => by
    simp only [Variants.writeAt, Variants.AssertedAtW]
    have hfs : Keeps Top (fun _ => if a.idPat = true then fs.AssertedStoredW env v
        else fs.AssertedW env v v)
        (if a.idPat = true then Fields.writeStored m store fs env v else Fields.write m fs env v v) := by
      split
      · cases fs with
        | nil => simp only [Fields.AssertedStoredW]; exact Keeps.any _
        | cons fa ft fr =>
          simp only [Fields.AssertedStoredW, Fields.writeStored]
          split
          · rename_i x xs
            exact (Keeps.any _).bind fun _ _ => (Fields.write_asserted m fr _ _ _).mono fun _ h =>
              ⟨x, xs, rfl, h⟩
          · exact Keeps.panic
        | temp fa ft fv fr => simp only [Fields.writeStored]; exact Keeps.panic
      · exact Fields.write_asserted m fs env v v
    cases id with
    | ctx e => exact hfs
    | typed sz c =>
      cases a.id with
      | none => exact hfs
      | some x => exact (Keeps.any _).bind fun _ _ => hfs
  | .cons a fs tl, env, id, store, i + 1, v => by
    simp only [Variants.writeAt, Variants.AssertedAtW]
    exact Variants.write_asserted m tl env id store i v

end

end Deku
