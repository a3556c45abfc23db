import Verif.Model.Tuple
import Verif.Props.Update

/-!
# C99: `update` of structs without names
-/

namespace Deku

open Example

/-! ### Specification -/

/-- The fields with an `update` attribute, each with its number in the source, counted from `i`. -/
def Fields.sourceUpdates : Fields → Nat → List (Nat × (Val → Except DekuError Val))
  | .nil, _ => []
  | .cons a _ rest, i =>
    match a.update with
    | none => rest.sourceUpdates (i + 1)
    | some f => (i, f) :: rest.sourceUpdates (i + 1)
  | .temp _ _ _ rest, i => rest.sourceUpdates (i + 1)

/-- No field has an `update` attribute. -/
def Fields.NeverUpdated : Fields → Prop
  | .nil => True
  | .cons a _ rest => a.update = none ∧ rest.NeverUpdated
  | .temp _ _ _ rest => rest.NeverUpdated

/-- No field with an `update` attribute comes after a temporary field. -/
def Fields.TempsBehind : Fields → Prop
  | .nil => True
  | .cons _ _ rest => rest.TempsBehind
  | .temp _ _ _ rest => rest.NeverUpdated

/-! ### Proofs -/

theorem updateStruct_named : ∀ (fs : Fields) (i j : Nat), fs.updateStruct true i j = fs.update j
  | .nil, _, _ => rfl
  | .cons a t tl, i, j => by
    simp only [Fields.updateStruct, Fields.update, updateStruct_named tl (i + 1) (j + 1), if_true]
    rfl
  | .temp _ _ _ tl, i, j => by simp only [Fields.updateStruct, Fields.update, updateStruct_named tl (i + 1) j]

theorem updateStruct_tuple : ∀ (fs : Fields) (i j : Nat) (v : Val), fs.updateStruct false i j v = applyUpdates (fs.sourceUpdates i) v
  | .nil, _, _, _ => rfl
  | .cons a t tl, i, j, v => by
    simp only [Fields.updateStruct, Fields.sourceUpdates]
    cases hu : a.update with
    | none => exact updateStruct_tuple tl (i + 1) (j + 1) v
    | some f =>
      simp only [applyUpdates]
      rw [M.get_bind_run]
      cases hf : f v with
      | error e => rfl
      | ok x =>
        simp only
        rw [M.modify_bind_run]
        exact updateStruct_tuple tl (i + 1) (j + 1) _
  | .temp a t val tl, i, j, v => by
    simp only [Fields.updateStruct, Fields.sourceUpdates]
    exact updateStruct_tuple tl (i + 1) j v

theorem Fields.NeverUpdated.updates : ∀ {fs : Fields}, fs.NeverUpdated → ∀ i, fs.updates i = [] ∧ fs.sourceUpdates i = []
  | .nil, _, _ => ⟨rfl, rfl⟩
  | .cons a t tl, h, i => by
    simp only [Fields.updates, Fields.sourceUpdates, h.1]
    exact Fields.NeverUpdated.updates h.2 _
  | .temp _ _ _ tl, h, i => by
    simp only [Fields.updates, Fields.sourceUpdates]
    exact ⟨(Fields.NeverUpdated.updates (fs := tl) h _).1, (Fields.NeverUpdated.updates (fs := tl) h _).2⟩

theorem Fields.TempsBehind.same : ∀ {fs : Fields}, fs.TempsBehind → ∀ i, fs.sourceUpdates i = fs.updates i
  | .nil, _, _ => rfl
  | .cons a t tl, h, i => by
    have ih := Fields.TempsBehind.same (fs := tl) h (i + 1)
    simp only [Fields.updates, Fields.sourceUpdates, ih]
    rfl
  | .temp _ _ _ tl, h, i => by
    simp only [Fields.updates, Fields.sourceUpdates]
    rw [(Fields.NeverUpdated.updates (fs := tl) h _).1, (Fields.NeverUpdated.updates (fs := tl) h _).2]

theorem sourceUpdates_lt : ∀ (fs : Fields) (i : Nat) (u : Nat × (Val → Except DekuError Val)), u ∈ fs.sourceUpdates i → i ≤ u.1
  | .nil, i, u, h => by simp [Fields.sourceUpdates] at h
  | .cons a t tl, i, u, h => by
    simp only [Fields.sourceUpdates] at h
    cases hu : a.update with
    | none => rw [hu] at h; have := sourceUpdates_lt tl (i + 1) u h; omega
    | some f =>
      rw [hu] at h
      rcases List.mem_cons.1 h with h | h
      · subst h; exact Nat.le_refl _
      · have := sourceUpdates_lt tl (i + 1) u h; omega
  | .temp a t val tl, i, u, h => by
    simp only [Fields.sourceUpdates] at h
    have := sourceUpdates_lt tl (i + 1) u h
    omega

theorem missed_behind : ∀ (fs : Fields) (i j : Nat), j < i → ¬ fs.NeverUpdated →
    ∃ w ∈ fs.updates j, ∀ u ∈ fs.sourceUpdates i, w.1 < u.1
  | .nil, _, _, _, h => absurd trivial h
  | .cons a t tl, i, j, hij, h => by
    simp only [Fields.updates, Fields.sourceUpdates]
    cases hu : a.update with
    | none =>
      exact missed_behind tl (i + 1) (j + 1) (by omega) fun h' => h ⟨hu, h'⟩
    | some f =>
      refine ⟨(j, f), by simp, fun u hu => ?_⟩
      rcases List.mem_cons.1 hu with rfl | hu
      · exact hij
      · have := sourceUpdates_lt tl (i + 1) u hu
        dsimp only
        omega
  | .temp _ _ _ tl, i, j, hij, h => by
    simp only [Fields.updates, Fields.sourceUpdates]
    exact missed_behind tl (i + 1) j (by omega) h

theorem missed : ∀ (fs : Fields) (i : Nat), ¬ fs.TempsBehind → ∃ w ∈ fs.updates i, ∀ u ∈ fs.sourceUpdates i, u.1 ≠ w.1
  | .nil, _, h => absurd trivial h
  | .cons a t tl, i, h => by
    obtain ⟨w, h1, h2⟩ := missed tl (i + 1) h
    simp only [Fields.updates, Fields.sourceUpdates]
    cases hu : a.update with
    | none => exact ⟨w, h1, h2⟩
    | some f =>
      refine ⟨w, List.mem_cons_of_mem _ h1, fun u hu => ?_⟩
      rcases List.mem_cons.1 hu with rfl | hu
      · have := updates_lt tl (i + 1) w h1
        dsimp only
        omega
      · exact h2 u hu
  | .temp _ _ _ tl, i, h => by
    simp only [Fields.updates, Fields.sourceUpdates]
    obtain ⟨w, h1, h2⟩ := missed_behind tl (i + 1) i (by omega) h
    exact ⟨w, h1, fun u hu => by have := h2 u hu; omega⟩

theorem applyUpdates_frame (k : Nat) : ∀ (us : List (Nat × (Val → Except DekuError Val))) (v : Val), (∀ u ∈ us, u.1 ≠ k) →
    (applyUpdates us v).2.elems[k]? = v.elems[k]?
  | [], _, _ => rfl
  | u :: us, v, h => by
    simp only [applyUpdates]
    cases hu : u.2 v with
    | error e => rfl
    | ok x =>
      show (applyUpdates us (v.set u.1 x)).2.elems[k]? = _
      rw [applyUpdates_frame k us _ fun u' hu' => h u' (List.mem_cons_of_mem _ hu'), Val.elems_set,
        List.getElem?_set_ne (h u List.mem_cons_self)]

/-! ### Properties -/

/-- **C99**, in a struct with named fields `update` assigns the fields the attributes are on (which is what C43 and C87
are about). -/
theorem C99_named_fields_are_updated (fs : Fields) : fs.updateStruct true 0 0 = fs.update 0 := updateStruct_named fs 0 0

/-- **C99**, without names it does, if no temporary field comes before a field that is updated. -/
theorem C99_fields_without_names_are_updated_partial (fs : Fields) (h : fs.TempsBehind) : fs.updateStruct false 0 0 = fs.update 0 := by
  funext v
  rw [updateStruct_tuple, update_eq, h.same]

/-- **C99**, so that afterwards the struct is consistent. -/
theorem C99_update_makes_consistent_partial (named : Bool) (fs : Fields) (h : named = true ∨ fs.TempsBehind) (hi : fs.Independent) (v v' : Val)
    (hlen : ∀ u ∈ fs.updates 0, u.1 < v.elems.length) (hv : fs.updateStruct named 0 0 v = (.ok (), v')) :
    fs.Consistent v' ∧ ∀ j, (∀ u ∈ fs.updates 0, u.1 ≠ j) → v'.elems[j]? = v.elems[j]? := by
  have e : fs.updateStruct named 0 0 = fs.update 0 := by
    cases named with
    | true => exact C99_named_fields_are_updated fs
    | false => exact C99_fields_without_names_are_updated_partial fs (h.resolve_left (by decide))
  rw [e] at hv
  obtain ⟨h1, -, h3⟩ := C43_update_makes_consistent fs hi v v' hlen hv
  exact ⟨h1, h3⟩

/-- **C99 is false** in every other case: there is a field with an `update` attribute that no `update` ever changes. -/
theorem C99_a_field_is_never_updated (fs : Fields) (h : ¬ fs.TempsBehind) :
    ∃ w ∈ fs.updates 0, ∀ v, (fs.updateStruct false 0 0 v).2.elems[w.1]? = v.elems[w.1]? := by
  obtain ⟨w, h1, h2⟩ := missed fs 0 h
  exact ⟨w, h1, fun v => by rw [updateStruct_tuple]; exact applyUpdates_frame _ _ _ h2⟩

/-- **C99**, what `update` does then: the fields it changes are those whose numbers are the numbers in the source of the
fields with the attribute. -/
theorem C99_other_fields_are_updated (fs : Fields) (v : Val) (k : Nat) (h : ∀ u ∈ fs.sourceUpdates 0, u.1 ≠ k) :
    (fs.updateStruct false 0 0 v).2.elems[k]? = v.elems[k]? := by
  rw [updateStruct_tuple]
  exact applyUpdates_frame _ _ _ h

/-! ### Examples and counterexamples -/

namespace Example

/-- `(#[deku(temp, temp_value = "1")] u8, #[deku(update = "self.2.len()")] u8, u8, #[deku(count = "field_1")] Vec<u8>)` -/
def lengthBehindTemp : Fields :=
  .temp {} u8T (some fun _ => .num 1) <| .cons { update := some (lenOf 2 1) } u8T <| .cons {} u8T <|
  .cons {} (.vec 1 (.count (var 1)) u8T) .nil

/-- The same with the temporary field at the end. -/
def lengthBeforeTemp : Fields :=
  .cons { update := some (lenOf 2 1) } u8T <| .cons {} u8T <| .cons {} (.vec 1 (.count (var 1)) u8T) <|
  .temp {} u8T (some fun _ => .num 1) .nil

example : lengthBeforeTemp.TempsBehind := by simp [lengthBeforeTemp, Fields.TempsBehind, Fields.NeverUpdated]

example : ¬ lengthBehindTemp.TempsBehind := by simp [lengthBehindTemp, Fields.TempsBehind, Fields.NeverUpdated]

example : lengthBeforeTemp.updateStruct false 0 0 (.ofList [.num 0, .num 7, .ofList [.num 5, .num 6]]) =
    (.ok (), .ofList [.num 2, .num 7, .ofList [.num 5, .num 6]]) := by decide +kernel

end Example

/-- The fields that are left are enough for the places that names stand for. -/
theorem Fields.assignable_named : ∀ (fs : Fields) (n i j : Nat), j + fs.left ≤ n → fs.assignable true n i j = true
  | .nil, _, _, _, _ => rfl
  | .cons _ _ rest, n, i, j, h => by
    simp only [Fields.left] at h
    simp only [Fields.assignable, if_true, Bool.and_eq_true, Bool.or_eq_true, decide_eq_true_eq]
    exact ⟨.inr (by omega), Fields.assignable_named rest n (i + 1) (j + 1) (by omega)⟩
  | .temp _ _ _ rest, n, i, j, h => Fields.assignable_named rest n (i + 1) j h

/-- **C99.** With names, `update` never assigns to a field that is not there. -/
theorem C99_updates_of_names_compile (fs : Fields) : fs.assignable true fs.left 0 0 = true :=
  fs.assignable_named _ 0 0 (by omega)

/-- **C99.** Without names it can: `struct S(#[deku(temp)] u8, #[deku(update = ..)] u8)` has one field left, and the
assignment is to `self.1`. The same struct with names compiles. -/
theorem C99_update_of_a_tuple_struct_may_not_compile :
    let fs : Fields := .temp {} u8T (some fun _ => .num 1) <| .cons { update := some fun _ => .ok (.num 1) } u8T .nil
    fs.assignable false fs.left 0 0 = false ∧ fs.assignable true fs.left 0 0 = true := by
  refine ⟨?_, ?_⟩ <;> decide +kernel

/-- **C99 is false**: the number of elements is stored in the field after the one for it. The message that is written has
the wrong number, and is read as another one. -/
theorem C99_update_of_a_tuple_struct_assigns_another_field :
    let t : Ty := .struct (fun _ => []) none [] lengthBehindTemp
    let v : Val := .ofList [.num 0, .num 7, .ofList [.num 5, .num 6]]
    let v' : Val := .ofList [.num 0, .num 2, .ofList [.num 5, .num 6]]
    lengthBehindTemp.assignable false lengthBehindTemp.left 0 0 = true ∧
    t.updateStruct false v = (.ok (), v') ∧ toBytes (t.write mach {} v') = .ok [1, 0, 2, 5, 6] ∧
    fromBytes (t.read mach {}) [1, 0, 2, 5, 6] 0 = .ok (([5, 6], 0), .ofList [.num 0, .num 2, .nil]) ∧
    t.updateStruct true v = (.ok (), .ofList [.num 2, .num 7, .ofList [.num 5, .num 6]]) := by
  refine ⟨?_, ?_, ?_, ?_, ?_⟩ <;> decide +kernel

end Deku
