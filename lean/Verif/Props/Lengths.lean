import Verif.Lemmas.Updating
import Verif.Props.Consistent

/-!
# Properties of fields that hold lengths: C87

`Spec/Lengths.lean` tells from the attributes which lists are counted by fields that hold their length. In the loose source
these lists may have any length.
-/

namespace Deku

/-! ## C87 -/

/-- **C87.** Counts that are temporary fields with the lengths of the lists are right whatever the lists are, at every
depth: a value whose lists may have any length is written as C74 says and comes back, if the lengths fit in their types. -/
theorem C87_temp_lengths_are_right (m : Machine) (t : STy) (d : Def) (o : Order) (ht : t.ordered o m.native [] = true)
    (hi : t.idsNamed = true) (hz : t.sized [] = true) (hd : t.compile = some d) (env : Env) (v : Val)
    (hc : (t.loose []).consistent o m [] [] env v = true) (hs : t.short v = true) (ha : t.aligned o m.native env v = true) :
    ∃ out, toBytes ((d.toTy m).write m env v) = .ok out ∧ Packed o out (t.described o m.native env v) ∧
      ∀ extra, ∃ rest, fromBytes ((d.toTy m).read m env) (out ++ extra) 0 = .ok (rest, v) := by
  have h := t.of_loose o m [] [] [] env v (STy.Planned.nil t v) hc hs
  obtain ⟨out, h1, h2⟩ := C75_consistent_values_are_written_as_described m t d o ht hi hz hd env v h ha
  obtain ⟨out', h3, h4⟩ := C75_consistent_values_round_trip m t d o ht hi hz hd env v h ha
  rw [h1] at h3
  cases h3
  exact ⟨out, h1, h2, h4⟩

/-- **C87.** The same for counts that `update` sets: after `update`, whatever the counts were before, the value is written
as C74 says and comes back. -/
theorem C87_updated_values_come_back (m : Machine) (t : STy) (d : Def) (o : Order) (ht : t.ordered o m.native [] = true)
    (hi : t.idsNamed = true) (hz : t.sized [] = true) (hd : t.compile = some d) (env : Env)
    (plans : List (List (Option Temp))) (hp : t.plansFit plans = true) (v v' : Val)
    (hu : ((d.toTy m).updating plans).update v = (.ok (), v'))
    (hc : (t.loose plans).consistent o m [] [] env v' = true) (hs : t.short v' = true)
    (hl : ∀ x ∈ v'.members, x.elems.length < 2 ^ 61) (ha : t.aligned o m.native env v' = true) :
    ∃ out, toBytes (((d.toTy m).updating plans).write m env v') = .ok out ∧ Packed o out (t.described o m.native env v') ∧
      ∀ extra, ∃ rest, fromBytes (((d.toTy m).updating plans).read m env) (out ++ extra) 0 = .ok (rest, v') := by
  have h := t.of_loose o m plans [] [] env v' (t.update_planned o m d hd plans hp v v' hu hl env hc) hc hs
  simp only [Ty.updating_write, Ty.updating_read]
  obtain ⟨out, h1, h2⟩ := C75_consistent_values_are_written_as_described m t d o ht hi hz hd env v' h ha
  obtain ⟨out', h3, h4⟩ := C75_consistent_values_round_trip m t d o ht hi hz hd env v' h ha
  rw [h1] at h3
  cases h3
  exact ⟨out, h1, h2, h4⟩

/-- One assignment after the other succeeds if all expressions have values. -/
theorem applyUpdates_total {us : List (Nat × (Val → Except DekuError Val))} {v : Val}
    (hi : ∀ u ∈ us, ∀ u' ∈ us, ∀ v x, u.2 (v.set u'.1 x) = u.2 v) (h : ∀ u ∈ us, ∃ x, u.2 v = .ok x) :
    ∃ v', applyUpdates us v = (.ok (), v') := by
  induction us generalizing v with
  | nil => exact ⟨v, rfl⟩
  | cons u us ih =>
    obtain ⟨x, hx⟩ := h u List.mem_cons_self
    simp only [applyUpdates, hx]
    refine ih (fun a ha b hb => hi a (List.mem_cons_of_mem _ ha) b (List.mem_cons_of_mem _ hb)) fun a ha => ?_
    obtain ⟨y, hy⟩ := h a (List.mem_cons_of_mem _ ha)
    exact ⟨y, by rw [hi a (List.mem_cons_of_mem _ ha) u List.mem_cons_self]; exact hy⟩

/-- What `update` does to the fields of a struct or a variant. -/
theorem Fields.updating_update {n : Nat} {plan : List (Option Temp)} (hp : planFits n plan = true) (fs : Fields)
    (hn : n ≤ fs.visible) (v : Val) (hv : v.elems.length = n)
    (hf : ∀ (j : Nat) (f : Temp), plan[j]? = some (some f) → f.field < n) :
    ((∀ (j : Nat) (f : Temp), plan[j]? = some (some f) → f.length v < 256 ^ f.W) →
      ∃ v', (fs.updating plan 0).update 0 v = (.ok (), v') ∧ Stored plan v v') ∧
    (∀ (j : Nat) (f : Temp), plan[j]? = some (some f) → 256 ^ f.W ≤ f.length v →
      ((fs.updating plan 0).update 0 v).1 = .err .parse) := by
  have hi := Fields.updating_independent hp fs
  have hget : ∀ (j : Nat) (f : Temp), plan[j]? = some (some f) → lenOf f.field f.W v =
      if f.length v < 256 ^ f.W then .ok (.num (f.length v)) else .error .parse := by
    intro j f hj
    unfold lenOf Temp.length
    rw [List.getElem?_eq_getElem (show f.field < v.elems.length by rw [hv]; exact hf j f hj)]
    rfl
  rw [update_eq]
  constructor
  · intro hlt
    obtain ⟨v', h'⟩ := applyUpdates_total hi (v := v) fun u hu => by
      obtain ⟨f, h1, h2⟩ := Fields.updating_mem plan fs 0 u hu
      rw [h2, hget _ f h1, if_pos (hlt _ f h1)]
      exact ⟨_, rfl⟩
    obtain ⟨g1, g2, g3, _⟩ := applyUpdates_ok hi (updates_pairwise _ 0) h'
    refine ⟨v', h', g3, fun j hj => ?_⟩
    cases hpj : plan[j]?.getD none with
    | none =>
      refine g2 j fun u hu hj => ?_
      obtain ⟨f, h1, _⟩ := Fields.updating_mem plan fs 0 u hu
      rw [hj] at h1
      rw [h1] at hpj
      cases hpj
    | some f =>
      have hj' : plan[j]? = some (some f) := by
        cases hg : plan[j]? with
        | none => rw [hg] at hpj; cases hpj
        | some p => rw [hg] at hpj; exact congrArg some hpj
      obtain ⟨x, k1, _, k3⟩ := g1 _ (Fields.mem_updating plan j f hj' fs 0 (Nat.zero_le _) (by omega))
      dsimp only at k1
      rw [hget j f hj', if_pos (hlt j f hj')] at k1
      cases k1
      exact k3 hj
  · intro j f hj hge
    have := planFits_lt hp hj
    obtain ⟨u, hu, e, he, h⟩ := applyUpdates_err hi (v := v)
      (Fields.mem_updating plan j f hj fs 0 (Nat.zero_le _) (by omega)) (e := .parse)
      (by dsimp only; rw [hget j f hj, if_neg (by omega)])
    rw [h]
    obtain ⟨g, h1, h2⟩ := Fields.updating_mem plan fs 0 u hu
    rw [h2, hget _ g h1] at he
    split at he
    · cases he
    · cases he
      rfl

/-- **C87.** What `update` does to a value of a struct: if the lengths fit in the types that hold them, they are stored and
nothing else changes. If one does not fit, `update` fails. -/
theorem C87_update_stores_the_lengths (m : Machine) (c : Container) (fs : SFields) (d : Def)
    (hd : (STy.struct c fs).compile = some d) (plan : List (Option Temp)) (hp : planFits fs.visible plan = true) (v : Val)
    (hv : v.elems.length = fs.visible) (hf : ∀ (j : Nat) (f : Temp), plan[j]? = some (some f) → f.field < fs.visible) :
    ((∀ (j : Nat) (f : Temp), plan[j]? = some (some f) → f.length v < 256 ^ f.W) →
      ∃ v', ((d.toTy m).updating [plan]).update v = (.ok (), v') ∧ Stored plan v v') ∧
    (∀ (j : Nat) (f : Temp), plan[j]? = some (some f) → 256 ^ f.W ≤ f.length v →
      (((d.toTy m).updating [plan]).update v).1 = .err .parse) := by
  unfold STy.compile at hd
  rw [STy.elab, if_neg (by simp)] at hd
  simp only [Option.bind_eq_bind, Option.bind_eq_some_iff, Option.pure_def, Option.some.injEq] at hd
  obtain ⟨sc, _, ds, h2, rfl⟩ := hd
  rw [Def.toTy]
  exact Fields.updating_update hp (ds.toFields m) (Nat.le_of_eq (SFields.elab_visible m c sc fs ds h2).symm) v hv hf

theorem SVariants.updateAt_eq (m : Machine) (c : Container) (sc : List Arg) (typed : Option Nat) : ∀ (vs : SVariants)
    (ds : DVariants) (plans : List (List (Option Temp))) (i : Nat) (fs : SFields), vs.elab c sc typed = some ds →
    vs.plansFit plans = true → vs.fieldsAt i = some fs → planFits fs.visible (plans[i]?.getD []) = true ∧
      ∃ fs' : Fields, fs.visible ≤ fs'.visible ∧
        ((ds.toVariants m).updating plans).updateAt i = (fs'.updating (plans[i]?.getD []) 0).update 0
  | .nil, ds, plans, i, fs, hd, hp, hi => by cases hi
  | .cons a fs rest, ds, plans, i, fs', hd, hp, hi => by
    obtain ⟨fs1, rest', h1, h2, rfl⟩ := SVariants.elab_cons c sc typed a fs rest ds hd
    rw [SVariants.plansFit, Bool.and_eq_true] at hp
    rw [DVariants.toVariants, Variants.updating]
    cases i with
    | zero =>
      rw [SVariants.fieldsAt] at hi
      cases hi
      have hn : fs.visible ≤ (fs1.toFields m).visible := by
        split at h1
        · exact SFields.elabStored_visible m c sc typed fs fs1 h1
        · exact Nat.le_of_eq (SFields.elab_visible m c sc fs fs1 h1).symm
      rw [Variants.updateAt]
      cases plans with
      | nil => exact ⟨hp.1, _, hn, rfl⟩
      | cons p ps => exact ⟨hp.1, _, hn, rfl⟩
    | succ i =>
      rw [SVariants.fieldsAt] at hi
      rw [Variants.updateAt]
      have := SVariants.updateAt_eq m c sc typed rest rest' plans.tail i fs' h2 hp.2 hi
      cases plans <;> exact this

/-- **C87.** The same of an enum: the lengths are stored in the fields of the variant. -/
theorem C87_update_of_a_variant_stores_the_lengths (m : Machine) (c : Container) (id : SId) (vs : SVariants) (d : Def)
    (hd : (STy.enum c id vs).compile = some d) (plans : List (List (Option Temp))) (hp : vs.plansFit plans = true)
    (i : Nat) (fs : SFields) (hi : vs.fieldsAt i = some fs) (v : Val) (hv : v.elems.length = fs.visible)
    (hf : ∀ (j : Nat) (f : Temp), (plans[i]?.getD [])[j]? = some (some f) → f.field < fs.visible) :
    ((∀ (j : Nat) (f : Temp), (plans[i]?.getD [])[j]? = some (some f) → f.length v < 256 ^ f.W) →
      ∃ v', ((d.toTy m).updating plans).update (.variant i v) = (.ok (), .variant i v') ∧ Stored (plans[i]?.getD []) v v') ∧
    (∀ (j : Nat) (f : Temp), (plans[i]?.getD [])[j]? = some (some f) → 256 ^ f.W ≤ f.length v →
      (((d.toTy m).updating plans).update (.variant i v)).1 = .err .parse) := by
  unfold STy.compile at hd
  rw [STy.elab] at hd
  split at hd
  · cases hd
  simp only [Option.bind_eq_bind, Option.bind_eq_some_iff, Option.pure_def, Option.some.injEq] at hd
  obtain ⟨sc, _, did, _, ds, h2, rfl⟩ := hd
  rw [Def.toTy]
  obtain ⟨hp', fs', hn, he⟩ := SVariants.updateAt_eq m c sc _ vs ds plans i fs h2 hp hi
  obtain ⟨h3, h4⟩ := Fields.updating_update hp' fs' hn v hv hf
  rw [← he] at h3 h4
  refine ⟨fun h => ?_, h4⟩
  obtain ⟨v', h5, h6⟩ := h3 h
  refine ⟨v', ?_, h6⟩
  show ((((ds.toVariants m).updating plans).updateAt i v).1,
        Val.variant i (((ds.toVariants m).updating plans).updateAt i v).2) = _
  rw [h5]

/-! ### Examples -/

namespace SourceExample

/-- A name: `#[deku(temp, temp_value = "self.bytes.len() as u8")] len: u8, #[deku(count = "len")] bytes: Vec<u8>`. -/
def name : STy :=
  .struct {} (.cons { temp := some ⟨0, 1⟩ } u8 (.cons { count := some (.field 0) } (.vec false u8) .nil))

/-- A number of names: `#[deku(temp, temp_value = "self.names.len() as u16", endian = "big")] n: u16,
#[deku(count = "n")] names: Vec<Name>`. -/
def names : STy :=
  .struct {} (.cons { temp := some ⟨0, 2⟩, endian := some (.lit .big) } u16 (.cons { count := some (.field 0) } (.vec false name) .nil))

def namesValue (l : List (List Byte)) : Val :=
  .ofList [.ofList (l.map fun bs => .ofList [.ofList (bs.map .ofByte)])]

/-- Two lists with their lengths before them, the second length in bytes:
`#[deku(update = "self.items.len()")] n: u8, #[deku(update = "self.data.len()")] size: u16,
#[deku(count = "n")] items: Vec<u16>, #[deku(bytes_read = "size")] data: Vec<u8>`. -/
def lists : STy :=
  .struct {} (.cons {} u8 (.cons {} u16 (.cons { count := some (.field 1) } (.vec false u16)
    (.cons { bytesRead := some (.field 1) } (.vec false u8) .nil))))

def listsPlan : List (Option Temp) := [some ⟨2, 1⟩, some ⟨3, 2⟩]

/-- A message with an id, one variant of which has a list with its length:
`#[deku(id = "1")] Ping, #[deku(id = "2")] Data { #[deku(update = "bytes.len()")] n: u8, #[deku(count = "n")] bytes: Vec<u8> }`. -/
def sent : STy :=
  .enum {} (.typed 1 none none none) (.cons { kind := .id 1 } .nil (.cons { kind := .id 2 }
    (.cons {} u8 (.cons { count := some (.field 0) } (.vec false u8) .nil)) .nil))

def sentPlans : List (List (Option Temp)) := [[], [some ⟨1, 1⟩]]

end SourceExample

open Example SourceExample

/-- Names within names: no length is in the value. -/
example : ∃ out, (names.compile.map fun d => toBytes ((d.toTy mach).write mach {} (namesValue [[0x61, 0x62], [], [0x63]]))) =
    some (.ok out) ∧ out = [0, 3, 2, 0x61, 0x62, 0, 1, 0x63] :=
  ⟨_, by decide +kernel, rfl⟩

example : ∃ d out, names.compile = some d ∧
    toBytes ((d.toTy mach).write mach {} (namesValue [[0x61, 0x62], [], [0x63]])) = .ok out ∧ ∀ extra, ∃ rest,
    fromBytes ((d.toTy mach).read mach {}) (out ++ extra) 0 = .ok (rest, namesValue [[0x61, 0x62], [], [0x63]]) := by
  have hs : names.compile.isSome = true := by decide +kernel
  obtain ⟨d, hd⟩ := Option.isSome_iff_exists.1 hs
  obtain ⟨out, h1, _, h2⟩ := C87_temp_lengths_are_right mach names d .msb0 (by decide +kernel) (by decide +kernel)
    (by decide +kernel) hd {} (namesValue [[0x61, 0x62], [], [0x63]]) (by decide +kernel) (by decide +kernel) (by decide +kernel)
  exact ⟨d, out, hd, h1, h2⟩

/-- The two lists, with lengths 0 before `update`. -/
example : ∃ d v' out, lists.compile = some d ∧
    ((d.toTy mach).updating [listsPlan]).update (.ofList [.num 0, .num 0, .ofList [.num 1, .num 2], .ofList [.num 7, .num 8, .num 9]]) =
      (.ok (), v') ∧
    v' = .ofList [.num 2, .num 3, .ofList [.num 1, .num 2], .ofList [.num 7, .num 8, .num 9]] ∧
    toBytes (((d.toTy mach).updating [listsPlan]).write mach {} v') = .ok out ∧ ∀ extra, ∃ rest,
    fromBytes (((d.toTy mach).updating [listsPlan]).read mach {}) (out ++ extra) 0 = .ok (rest, v') := by
  have hs : lists.compile.isSome = true := by decide +kernel
  obtain ⟨d, hd⟩ := Option.isSome_iff_exists.1 hs
  have hu : (lists.compile.map fun d => ((d.toTy mach).updating [listsPlan]).update
      (.ofList [.num 0, .num 0, .ofList [.num 1, .num 2], .ofList [.num 7, .num 8, .num 9]])) =
      some (.ok (), .ofList [.num 2, .num 3, .ofList [.num 1, .num 2], .ofList [.num 7, .num 8, .num 9]]) := by decide +kernel
  rw [hd] at hu
  simp only [Option.map_some, Option.some.injEq] at hu
  obtain ⟨out, h1, _, h2⟩ := C87_updated_values_come_back mach lists d .msb0 (by decide +kernel) (by decide +kernel)
    (by decide +kernel) hd {} [listsPlan] (by decide +kernel) _ _ hu (by decide +kernel) (by decide +kernel) (by decide +kernel)
    (by decide +kernel)
  exact ⟨d, _, out, hd, hu, rfl, h1, h2⟩

/-- The hypotheses of what `update` does. -/
example : planFits (match lists with | .struct _ fs => fs.visible | _ => 0) listsPlan = true ∧
    ∀ (j : Nat) (f : Temp), listsPlan[j]? = some (some f) → f.field < 4 := by
  refine ⟨by decide +kernel, fun j f h => ?_⟩
  match j, h with
  | 0, h => cases h; decide
  | 1, h => cases h; decide

/-- A variant. -/
example : ∃ d v' out, sent.compile = some d ∧
    ((d.toTy mach).updating sentPlans).update (.variant 1 (.ofList [.num 9, .ofList [.num 1, .num 2]])) = (.ok (), v') ∧
    v' = .variant 1 (.ofList [.num 2, .ofList [.num 1, .num 2]]) ∧
    toBytes (((d.toTy mach).updating sentPlans).write mach {} v') = .ok out ∧ ∀ extra, ∃ rest,
    fromBytes (((d.toTy mach).updating sentPlans).read mach {}) (out ++ extra) 0 = .ok (rest, v') := by
  have hs : sent.compile.isSome = true := by decide +kernel
  obtain ⟨d, hd⟩ := Option.isSome_iff_exists.1 hs
  have hu : (sent.compile.map fun d => ((d.toTy mach).updating sentPlans).update
      (.variant 1 (.ofList [.num 9, .ofList [.num 1, .num 2]]))) =
      some (.ok (), .variant 1 (.ofList [.num 2, .ofList [.num 1, .num 2]])) := by decide +kernel
  rw [hd] at hu
  simp only [Option.map_some, Option.some.injEq] at hu
  obtain ⟨out, h1, _, h2⟩ := C87_updated_values_come_back mach sent d .msb0 (by decide +kernel) (by decide +kernel)
    (by decide +kernel) hd {} sentPlans (by decide +kernel) _ _ hu (by decide +kernel) (by decide +kernel) (by decide +kernel)
    (by decide +kernel)
  exact ⟨d, _, out, hd, hu, rfl, h1, h2⟩

/-- The hypotheses matter. A struct whose count is updated has a list of structs whose counts are updated too. `update` of
the outer struct succeeds but does not reach the inner ones: what is written then is not what comes back. -/
theorem C87_update_does_not_reach_what_is_inside :
    let inner : STy := .struct {} (.cons {} u8 (.cons { count := some (.field 0) } (.vec false u8) .nil))
    let outer : STy := .struct {} (.cons {} u8 (.cons { count := some (.field 0) } (.vec false inner) .nil))
    let plan : List (Option Temp) := [some ⟨1, 1⟩]
    let v := Val.ofList [.num 0, .ofList [.ofList [.num 0, .ofList [.num 1]], .ofList [.num 0, .ofList [.num 6]]]]
    let v' := Val.ofList [.num 2, .ofList [.ofList [.num 0, .ofList [.num 1]], .ofList [.num 0, .ofList [.num 6]]]]
    outer.plansFit [plan] = true ∧ (outer.loose [plan]).consistent .msb0 mach [] [] {} v' = false ∧
    (outer.compile.map fun d => ((d.toTy mach).updating [plan]).update v) = some (.ok (), v') ∧
    (outer.compile.map fun d => toBytes (((d.toTy mach).updating [plan]).write mach {} v')) = some (.ok [2, 0, 1, 0, 6]) ∧
    (outer.compile.map fun d => fromBytes (((d.toTy mach).updating [plan]).read mach {}) [2, 0, 1, 0, 6] 0) =
      some (.ok (([6], 0), .ofList [.num 2, .ofList [.ofList [.num 0, .ofList []], .ofList [.num 1, .ofList [.num 0]]]])) := by
  refine ⟨?_, ?_, ?_, ?_, ?_⟩ <;> decide +kernel

/-- A temporary length that does not fit in its type is cut off without an error, and the list does not come back. With
`update` there is an error. -/
theorem C87_long_lists_have_wrong_temp_lengths :
    let v := Val.ofList [.ofList (List.replicate 256 (.num 7))]
    let plain : STy := .struct {} (.cons {} u8 (.cons { count := some (.field 0) } (.vec false u8) .nil))
    (name.loose []).consistent .msb0 mach [] [] {} v = true ∧ name.short v = false ∧
    (name.compile.map fun d => toBytes ((d.toTy mach).write mach {} v)) = some (.ok (0 :: List.replicate 256 7)) ∧
    (name.compile.map fun d => fromBytes ((d.toTy mach).read mach {}) (0 :: List.replicate 256 7) 0) =
      some (.ok ((List.replicate 256 7, 0), .ofList [.ofList []])) ∧
    (plain.compile.map fun d => (((d.toTy mach).updating [[some ⟨1, 1⟩]]).update
      (.ofList [.num 0, .ofList (List.replicate 256 (.num 7))])).1) = some (.err .parse) := by
  refine ⟨?_, ?_, ?_, ?_, ?_⟩ <;> decide +kernel

end Deku
