import Verif.Lemmas.DekuId
import Verif.Lemmas.Examples
import Verif.Model.Toplevel

/-! # `deku_id` (C60) -/

namespace Deku

open Reader Writer Coll Example

/-- The variant has an `id` attribute. -/
def VAttrs.HasId (a : VAttrs) : Prop := a.id ≠ none ∧ a.discr = false

instance (a : VAttrs) : Decidable a.HasId := by unfold VAttrs.HasId; infer_instance

/-- The pattern of a variant with `id` matches this id only, as that of a literal or constant does. -/
def VAttrs.Exact (a : VAttrs) (env : Env) : Prop :=
  ∀ y z, a.id = some y → a.discr = false → a.pat env z = true → z = y

/-- **C60.** `deku_id` returns: the id of the variant, or `IdVariantNotFound`, which it does exactly for
the variants without `id`, whatever the fields. -/
theorem C60_deku_id_is_total (args : Env → List Val) (magic : List Byte) (id : IdSrc)
    (store : Nat → Env → Val → M Writer Unit) (vs : Variants) (i : Nat) (v : Val) (a : VAttrs) (fs : Fields)
    (hi : vs.toList[i]? = some (a, fs)) :
    (a.HasId → ∃ x, a.id = some x ∧ (Ty.enum args magic id store vs).dekuId (.variant i v) = .ok x) ∧
    (¬ a.HasId →
      (Ty.enum args magic id store vs).dekuId (.variant i v) = .err .idVariantNotFound) := by
  simp only [Ty.dekuId]
  constructor
  · rintro ⟨hn, hd⟩
    obtain ⟨x, hx⟩ := Option.ne_none_iff_exists'.1 hn
    exact ⟨x, hx, Variants.dekuIdAt_ok.2 ⟨a, fs, hi, hx, hd⟩⟩
  · intro h
    refine Variants.dekuIdAt_err.2 ⟨a, fs, hi, ?_⟩
    by_cases hn : a.id = none
    · exact .inl hn
    · cases hd : a.discr
      · exact absurd ⟨hn, hd⟩ h
      · exact .inr rfl

/-- **C60.** What `deku_id` returns is what a successful write puts between the magic and the fields of
the variant. -/
theorem C60_deku_id_is_written (m : Machine) (args : Env → List Val) (magic : List Byte) (sz : Option Nat)
    (c : Env → Codec) (store : Nat → Env → Val → M Writer Unit) (vs : Variants)
    (hvs : ∀ a ∈ vs.toList, a.1.Valid) (env : Env) (i : Nat) (v x : Val) (w w' : Writer)
    (hx : (Ty.enum args magic (.typed sz c) store vs).dekuId (.variant i v) = .ok x)
    (hw : (Ty.enum args magic (.typed sz c) store vs).write m env (.variant i v) w = (.ok (), w')) :
    ∃ a fs w1 w2, vs.toList[i]? = some (a, fs) ∧ magicWrite m.native magic w = (.ok (), w1) ∧
      (c { ctx := args env }).write x w1 = (.ok (), w2) ∧
      fs.write m { ctx := args env } v v w2 = (.ok (), w') := by
  simp only [Ty.dekuId] at hx
  obtain ⟨a, fs, hi, hid, hd⟩ := Variants.dekuIdAt_ok.1 hx
  have hp : a.idPat = false := by
    cases h : a.idPat
    · rfl
    · rcases hvs (a, fs) (List.mem_of_getElem? hi) h with h | h
      · rw [hid] at h; simp at h
      · rw [hd] at h; simp at h
  simp only [Ty.write, Variants.writeAt_eq m _ _ (store i) v hi, Variants.writeAt, hid, hp] at hw
  obtain ⟨_, w1, h1, hw⟩ := M.bind_eq_ok hw
  obtain ⟨_, w2, h2, hw⟩ := M.bind_eq_ok hw
  exact ⟨a, fs, w1, w2, hi, h1, h2, hw⟩

/-- The selected variant, from a read that succeeded. -/
theorem dispatch_ok {vs : Variants} {env : Env} {x v : Val} {arm : Nat → M Reader Val} {r r' : Reader}
    (h : dispatch (vs.select env x) arm r = (.ok v, r')) :
    ∃ i fs, v = .variant i fs ∧ Selects env x vs.toList i := by
  cases hs : vs.select env x with
  | none => rw [hs] at h; simp [dispatch, M.throw] at h
  | some i =>
    rw [hs] at h
    simp only [dispatch] at h
    obtain ⟨fs, s, _, h⟩ := M.bind_eq_ok h
    simp [M.pure_run] at h
    exact ⟨i, fs, h.1.symm, Variants.select_some.1 hs⟩

theorem dekuId_of_selects {args : Env → List Val} {magic : List Byte} {id : IdSrc}
    {store : Nat → Env → Val → M Writer Unit} {vs : Variants} {env : Env}
    (he : ∀ a ∈ vs.toList, a.1.Exact env) {i : Nat} {x v : Val} (hs : Selects env x vs.toList i)
    (hx : ∃ a ∈ vs.toList, a.1.pat env x = true) :
    ∃ a fs, vs.toList[i]? = some (a, fs) ∧ a.pat env x = true ∧
      (Ty.enum args magic id store vs).dekuId (.variant i v) =
        if a.HasId then .ok x else .err .idVariantNotFound := by
  obtain ⟨⟨a, fs⟩, hi, ⟨hp, _⟩ | ⟨hn, _⟩⟩ := hs
  · refine ⟨a, fs, hi, hp, ?_⟩
    obtain ⟨h1, h2⟩ := C60_deku_id_is_total args magic id store vs i v a fs hi
    split
    · rename_i h
      obtain ⟨y, hy, h1⟩ := h1 h
      rw [h1, he (a, fs) (List.mem_of_getElem? hi) y x hy h.2 hp]
    · rename_i h
      exact h2 h
  · obtain ⟨b, hb, hp⟩ := hx
    rw [hn b hb] at hp
    simp at hp

/-- **C60.** The value read has the id that was read, unless its variant has no `id`, which `deku_id`
says (partial: the id matches the pattern of some variant; for the `default` variant this is false). -/
theorem C60_deku_id_is_the_id_read_partial (m : Machine) (args : Env → List Val) (magic : List Byte)
    (sz : Option Nat) (c : Env → Codec) (store : Nat → Env → Val → M Writer Unit) (vs : Variants)
    (env : Env) (he : ∀ a ∈ vs.toList, a.1.Exact { ctx := args env }) (v : Val) (r r' : Reader)
    (hr : (Ty.enum args magic (.typed sz c) store vs).read m env r = (.ok v, r')) :
    ∃ r1 r2 x, magicRead m.native magic r = (.ok (), r1) ∧ (c { ctx := args env }).read r1 = (.ok x, r2) ∧
      ((∃ a ∈ vs.toList, a.1.pat { ctx := args env } x = true) → ∃ i fv a fs, v = .variant i fv ∧
        vs.toList[i]? = some (a, fs) ∧ a.pat { ctx := args env } x = true ∧
        (Ty.enum args magic (.typed sz c) store vs).dekuId v =
          if a.HasId then .ok x else .err .idVariantNotFound) := by
  simp only [Ty.read] at hr
  obtain ⟨_, r1, h1, hr⟩ := M.bind_eq_ok hr
  obtain ⟨x, r2, h2, hr⟩ := M.bind_eq_ok hr
  obtain ⟨i, fv, rfl, hs⟩ := dispatch_ok hr
  refine ⟨r1, r2, x, h1, h2, fun hx => ?_⟩
  obtain ⟨a, fs, hi, hp, hd⟩ := dekuId_of_selects he hs hx
  exact ⟨i, fv, a, fs, rfl, hi, hp, hd⟩

/-- **C60.** The same for an id from the context. -/
theorem C60_deku_id_is_the_context_id_partial (m : Machine) (args : Env → List Val) (magic : List Byte)
    (e : Env → Val) (store : Nat → Env → Val → M Writer Unit) (vs : Variants)
    (env : Env) (he : ∀ a ∈ vs.toList, a.1.Exact { ctx := args env }) (v : Val) (r r' : Reader)
    (hr : (Ty.enum args magic (.ctx e) store vs).read m env r = (.ok v, r'))
    (hx : ∃ a ∈ vs.toList, a.1.pat { ctx := args env } (e { ctx := args env }) = true) :
    ∃ i fv a fs, v = .variant i fv ∧ vs.toList[i]? = some (a, fs) ∧
      a.pat { ctx := args env } (e { ctx := args env }) = true ∧
      (Ty.enum args magic (.ctx e) store vs).dekuId v =
        if a.HasId then .ok (e { ctx := args env }) else .err .idVariantNotFound := by
  simp only [Ty.read] at hr
  obtain ⟨_, r1, h1, hr⟩ := M.bind_eq_ok hr
  obtain ⟨i, fv, rfl, hs⟩ := dispatch_ok hr
  obtain ⟨a, fs, hi, hp, hd⟩ := dekuId_of_selects he hs hx
  exact ⟨i, fv, a, fs, rfl, hi, hp, hd⟩

/-- **C60.** If no id is claimed by an earlier variant, reading `deku_id` selects the variant again; so two
values with the same `deku_id` are of the same variant. -/
theorem C60_deku_id_identifies_the_variant (args : Env → List Val) (magic : List Byte) (id : IdSrc)
    (store : Nat → Env → Val → M Writer Unit) (vs : Variants) (env : Env)
    (hown : ∀ (i : Nat) a x, vs.toList[i]? = some a → a.1.id = some x → a.1.pat env x = true ∧
      ∀ (j : Nat) b, j < i → vs.toList[j]? = some b → b.1.pat env x = false) (i j : Nat) (v u x : Val)
    (hi : (Ty.enum args magic id store vs).dekuId (.variant i v) = .ok x) :
    Selects env x vs.toList i ∧
    ((Ty.enum args magic id store vs).dekuId (.variant j u) = .ok x → i = j) := by
  simp only [Ty.dekuId, Variants.dekuIdAt_ok] at hi ⊢
  have key : ∀ k, (∃ a fs, vs.toList[k]? = some (a, fs) ∧ a.id = some x ∧ a.discr = false) →
      Selects env x vs.toList k := by
    rintro k ⟨a, fs, hk, hid, _⟩
    exact ⟨_, hk, .inl (hown k _ x hk hid)⟩
  refine ⟨key i hi, fun hj => ?_⟩
  have h1 := Variants.select_some.2 (key i hi)
  rw [Variants.select_some.2 (key j hj)] at h1
  simpa using h1.symm

/-- The ids of `shapes` are matched exactly. -/
theorem shapes_exact (env : Env) : ∀ a ∈ shapeVariants.toList, a.1.Exact env := by
  intro a ha y z hy hd hp
  simp only [shapeVariants, Variants.toList, List.mem_cons, List.not_mem_nil, or_false] at ha
  rcases ha with rfl | rfl | rfl <;> simp_all

example (v : Val) (r r' : Reader) (hr : shapes.read mach {} r = (.ok v, r')) :
    ∃ r1 r2 x, magicRead mach.native [] r = (.ok (), r1) ∧
      (uintCodec .little 1 .unit).read r1 = (.ok x, r2) ∧
      ((∃ a ∈ shapeVariants.toList, a.1.pat {} x = true) → ∃ i fv a fs, v = .variant i fv ∧
        shapeVariants.toList[i]? = some (a, fs) ∧ a.pat {} x = true ∧
        shapes.dekuId v = if a.HasId then .ok x else .err .idVariantNotFound) :=
  C60_deku_id_is_the_id_read_partial mach _ _ _ _ _ shapeVariants {} (shapes_exact _) v r r' hr

example : fromBytes (shapes.read mach {}) [2, 0x56] 0 = .ok (([], 0), .variant 1 (.ofList [.num 5, .num 6])) ∧
    shapes.dekuId (.variant 1 (.ofList [.num 5, .num 6])) = .ok (.num 2) ∧
    fromBytes (shapes.read mach {}) [7] 0 = .ok (([], 0), .variant 2 (.ofList [.num 7])) ∧
    shapes.dekuId (.variant 2 (.ofList [.num 7])) = .err .idVariantNotFound := by decide +kernel

/-- The variants of `shapes` are valid, and no id is claimed by an earlier one. -/
example (env : Env) : (∀ a ∈ shapeVariants.toList, a.1.Valid) ∧
    ∀ (i : Nat) a x, shapeVariants.toList[i]? = some a → a.1.id = some x → a.1.pat env x = true ∧
      ∀ (j : Nat) b, j < i → shapeVariants.toList[j]? = some b → b.1.pat env x = false := by
  constructor
  · intro a ha
    simp only [shapeVariants, Variants.toList, List.mem_cons, List.not_mem_nil, or_false] at ha
    rcases ha with rfl | rfl | rfl <;> simp [VAttrs.Valid]
  · intro i a x hi hx
    match i with
    | 0 =>
      simp [shapeVariants, Variants.toList] at hi
      subst hi
      simp at hx
      subst hx
      exact ⟨by simp, fun j b hj => by omega⟩
    | 1 =>
      simp [shapeVariants, Variants.toList] at hi
      subst hi
      simp at hx
      subst hx
      refine ⟨by simp, fun j b hj hb => ?_⟩
      obtain rfl : j = 0 := by omega
      simp [shapeVariants, Variants.toList] at hb
      subst hb
      simp
    | 2 =>
      simp [shapeVariants, Variants.toList] at hi
      subst hi
      simp at hx
    | k + 3 => simp [shapeVariants, Variants.toList] at hi

/-- **C60 is false** of the `default` variant: it says that its id was 1 though 7 was read. -/
theorem C60_default_variant_reports_another_id :
    let t : Ty := .enum (fun _ => []) [] (.typed (some 8) fun _ => uintCodec .little 1 .unit)
      (fun _ _ => (uintCodec .little 1 .unit).write)
      (.cons { pat := fun _ x => decide (x = .num 1), id := some (.num 1), default := true }
        (.cons {} u8T .nil) .nil)
    fromBytes (t.read mach {}) [7, 2] 0 = .ok (([], 0), .variant 0 (.ofList [.num 2])) ∧
    t.dekuId (.variant 0 (.ofList [.num 2])) = .ok (.num 1) := by decide +kernel

/-- A variant with a discriminant has an id that is read and written, but not reported. -/
theorem C60_discriminant_is_not_reported :
    let t : Ty := .enum (fun _ => []) [] (.typed (some 8) fun _ => uintCodec .little 1 .unit)
      (fun _ _ => (uintCodec .little 1 .unit).write)
      (.cons { pat := fun _ x => decide (x = .num 1), id := some (.num 1), discr := true } .nil .nil)
    fromBytes (t.read mach {}) [1] 0 = .ok (([], 0), .variant 0 .nil) ∧
    toBytes (t.write mach {} (.variant 0 .nil)) = .ok [1] ∧
    t.dekuId (.variant 0 .nil) = .err .idVariantNotFound := by decide +kernel

end Deku
