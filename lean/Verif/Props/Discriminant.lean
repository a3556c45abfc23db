import Verif.Model.Discriminant
import Verif.Model.Leaves
import Verif.Lemmas.Examples
import Verif.Props.Derive
import Verif.Lemmas.Regroup

/-!
# C98: discriminants as ids
-/

namespace Deku

open Example

/-! ### Numbering -/

theorem numbersFrom_length : ∀ (n : Int) (vs : List Declared), (numbersFrom n vs).length = vs.length
  | _, [] => rfl
  | _, _ :: vs => by simp [numbersFrom, numbersFrom_length _ vs]

theorem numbersFrom_append : ∀ (n : Int) (vs ws : List Declared), ∃ k, numbersFrom n (vs ++ ws) = numbersFrom n vs ++ numbersFrom k ws
  | n, [], ws => ⟨n, rfl⟩
  | n, v :: vs, ws => by
    obtain ⟨k, h⟩ := numbersFrom_append (v.explicit.getD n + 1) vs ws
    exact ⟨k, by simp only [List.cons_append, numbersFrom, h]⟩

theorem numbersFrom_explicit : ∀ (n : Int) {vs : List Declared}, (∀ v ∈ vs, v.explicit.isSome) →
    (numbersFrom n vs).map some = vs.map (·.explicit)
  | _, [], _ => rfl
  | n, v :: vs, h => by
    have h1 := h v (by simp)
    obtain ⟨d, hd⟩ := Option.isSome_iff_exists.1 h1
    simp only [numbersFrom, List.map_cons, hd, Option.getD_some,
      numbersFrom_explicit (d + 1) fun v hv => h v (List.mem_cons_of_mem _ hv)]

/-- The rule of the language, not as a function: who has a number has it, others have the next one, the first has 0. -/
def Numbered (vs : List Declared) (ns : List Int) : Prop :=
  ns.length = vs.length ∧ ∀ (i : Nat) (v : Declared) (n : Int), vs[i]? = some v → ns[i]? = some n →
    (∀ d, v.explicit = some d → n = d) ∧
    (v.explicit = none → (i = 0 ∧ n = 0) ∨ ∃ k, i = k + 1 ∧ ns[k]? = some (n - 1))

theorem numbersFrom_spec : ∀ (n : Int) (vs : List Declared) (i : Nat) (v : Declared) (x : Int), vs[i]? = some v →
    (numbersFrom n vs)[i]? = some x → (∀ d, v.explicit = some d → x = d) ∧
    (v.explicit = none → (i = 0 ∧ x = n) ∨ ∃ k, i = k + 1 ∧ (numbersFrom n vs)[k]? = some (x - 1))
  | _, [], i, v, x, h, _ => by simp at h
  | n, u :: vs, 0, v, x, h, hx => by
    simp at h
    subst h
    simp [numbersFrom] at hx
    subst hx
    exact ⟨fun d hd => by rw [hd]; rfl, fun hd => .inl ⟨rfl, by rw [hd]; rfl⟩⟩
  | n, u :: vs, i + 1, v, x, h, hx => by
    simp only [numbersFrom, List.getElem?_cons_succ] at h hx ⊢
    obtain ⟨h1, h2⟩ := numbersFrom_spec _ vs i v x h hx
    refine ⟨h1, fun hd => .inr ?_⟩
    rcases h2 hd with ⟨rfl, rfl⟩ | ⟨k, rfl, hk⟩
    · exact ⟨0, rfl, by simp⟩
    · exact ⟨k + 1, rfl, by simpa using hk⟩

/-- **C98**, the numbering is the one of the language, and the only one that obeys its rule. -/
theorem C98_numbering (vs : List Declared) (ns : List Int) : Numbered vs ns ↔ ns = numbers vs := by
  have hn : Numbered vs (numbers vs) := ⟨numbersFrom_length _ _, fun i v n hv hn => numbersFrom_spec 0 vs i v n hv hn⟩
  constructor
  · intro h
    refine List.ext_getElem (by rw [h.1, hn.1]) fun i => ?_
    induction i with
    | zero =>
      intro h1 h2
      have hl := h.1
      obtain ⟨v, hv⟩ : ∃ v, vs[0]? = some v := ⟨vs[0], List.getElem?_eq_getElem (by omega)⟩
      have a := h.2 0 v _ hv (List.getElem?_eq_getElem h1)
      have b := hn.2 0 v _ hv (List.getElem?_eq_getElem h2)
      cases hd : v.explicit with
      | some d => rw [a.1 d hd, b.1 d hd]
      | none =>
        rcases a.2 hd with ⟨-, e⟩ | ⟨k, e, -⟩
        · rcases b.2 hd with ⟨-, e'⟩ | ⟨k, e', -⟩
          · rw [e, e']
          · omega
        · omega
    | succ i ih =>
      intro h1 h2
      have hl := h.1
      obtain ⟨v, hv⟩ : ∃ v, vs[i + 1]? = some v := ⟨vs[i + 1], List.getElem?_eq_getElem (by omega)⟩
      have a := h.2 (i + 1) v _ hv (List.getElem?_eq_getElem h1)
      have b := hn.2 (i + 1) v _ hv (List.getElem?_eq_getElem h2)
      cases hd : v.explicit with
      | some d => rw [a.1 d hd, b.1 d hd]
      | none =>
        rcases a.2 hd with ⟨e, -⟩ | ⟨k, e, hk⟩
        · omega
        · rcases b.2 hd with ⟨e', -⟩ | ⟨k', e', hk'⟩
          · omega
          · obtain rfl : k = i := by omega
            obtain rfl : k' = k := by omega
            have := ih (by omega) (by omega)
            rw [List.getElem?_eq_getElem (by omega)] at hk hk'
            simp only [Option.some.injEq] at hk hk'
            omega
  · rintro rfl
    exact hn

example : numbers [{ explicit := some 5 }, {}, {}, { explicit := some (-3) }, {}] = [5, 6, 7, -3, -2] := by decide

/-! ### The variants made of a declaration -/

theorem declared_toList (vs : List Declared) : (declared vs).toList =
    (vs.zip (numbers vs)).map fun p => (p.1.attrs p.2, p.1.fields) := by
  have : ∀ (vs : List Declared) (ns : List Int), (variantsOf vs ns).toList =
      (vs.zip ns).map fun p => (p.1.attrs p.2, p.1.fields) := by
    intro vs
    induction vs with
    | nil => intro ns; simp [variantsOf, Variants.toList]
    | cons v vs ih =>
      intro ns
      cases ns with
      | nil => simp [variantsOf, Variants.toList]
      | cons n ns => simp [variantsOf, Variants.toList, ih]
  exact this vs _

theorem declared_get {vs : List Declared} {i : Nat} {a : VAttrs × Fields} :
    (declared vs).toList[i]? = some a ↔ ∃ v n, vs[i]? = some v ∧ (numbers vs)[i]? = some n ∧ a = (v.attrs n, v.fields) := by
  rw [declared_toList, List.getElem?_map]
  constructor
  · intro h
    obtain ⟨⟨v, n⟩, h1, h2⟩ := Option.map_eq_some_iff.1 h
    rw [List.getElem?_zip_eq_some] at h1
    exact ⟨v, n, h1.1, h1.2, h2.symm⟩
  · rintro ⟨v, n, h1, h2, rfl⟩
    rw [(List.getElem?_zip_eq_some (z := (v, n))).2 ⟨h1, h2⟩]
    rfl

theorem number_of {vs : List Declared} {i : Nat} {v : Declared} (h : vs[i]? = some v) : ∃ n, (numbers vs)[i]? = some n := by
  have hi := (List.getElem?_eq_some_iff.1 h).1
  exact ⟨_, List.getElem?_eq_getElem (by rw [numbers, numbersFrom_length]; exact hi)⟩

/-- A declaration in which the ids are the discriminants, and nothing else: no `id`, `id_pat` or `default`. -/
def Plain (vs : List Declared) : Prop := ∀ v ∈ vs, v.ident = .discr ∧ v.default = false ∧ v.fields = .nil

theorem Plain.attrs {v : Declared} (h : v.ident = .discr) (n : Int) : v.attrs n =
    { pat := fun _ x => match x with | .num x => decide (x = n) | _ => false, id := some (.num n), discr := true,
      default := v.default } := by
  have hw : v.written n = some n := by simp [Declared.written, h]
  have ha : v.accepts n = fun x => decide (x = n) := by funext x; simp [Declared.accepts, h]
  simp only [Declared.attrs, hw, ha, h]
  rfl

/-- The id that selects a variant is its number. -/
theorem plain_select {vs : List Declared} (h : Plain vs) (hn : (numbers vs).Nodup) (env : Env) (x : Val) (i : Nat) :
    (declared vs).select env x = some i ↔ ∃ n, x = .num n ∧ (numbers vs)[i]? = some n := by
  rw [Variants.select_some]
  have key : ∀ {j : Nat} {b : VAttrs × Fields}, (declared vs).toList[j]? = some b → ∃ n, (numbers vs)[j]? = some n ∧
      b.1.default = false ∧ ∀ x, b.1.pat env x = true ↔ x = .num n := by
    intro j b hb
    obtain ⟨v, n, h1, h2, rfl⟩ := declared_get.1 hb
    obtain ⟨h3, h4, -⟩ := h v (List.mem_of_getElem? h1)
    refine ⟨n, h2, h4, fun x => ?_⟩
    simp only [Plain.attrs h3]
    cases x <;> simp
  constructor
  · rintro ⟨a, ha, h1 | h1⟩
    · obtain ⟨n, hn, -, hp⟩ := key ha
      exact ⟨n, (hp x).1 h1.1, hn⟩
    · obtain ⟨n, hn, hd, -⟩ := key ha
      rw [hd] at h1
      simp at h1
  · rintro ⟨n, rfl, hi⟩
    have hi' := (List.getElem?_eq_some_iff.1 hi).1
    rw [numbers, numbersFrom_length] at hi'
    have ha : (declared vs).toList[i]? = some (vs[i].attrs n, vs[i].fields) :=
      declared_get.2 ⟨_, n, List.getElem?_eq_getElem hi', hi, rfl⟩
    refine ⟨_, ha, .inl ⟨?_, fun j b hj hb => ?_⟩⟩
    · obtain ⟨n', hn', -, hp⟩ := key ha
      rw [hi] at hn'
      cases hn'
      exact (hp _).2 rfl
    · obtain ⟨n', hn', -, hp⟩ := key hb
      rw [← Bool.not_eq_true]
      intro hc
      have := (hp _).1 hc
      simp only [Val.num.injEq] at this
      subst this
      have := (List.getElem?_inj (List.getElem?_eq_some_iff.1 hn').1 hn).1 (hn'.trans hi.symm)
      omega

/-- The enum, with any context, magic and id. -/
abbrev enumOf (args : Env → List Val) (magic : List Byte) (sz : Option Nat) (c : Env → Codec)
    (store : Nat → Env → Val → M Writer Unit) (vs : List Declared) : Ty := .enum args magic (.typed sz c) store (declared vs)

section
variable (m : Machine) (args : Env → List Val) (magic : List Byte) (sz : Option Nat) (c : Env → Codec)
  (store : Nat → Env → Val → M Writer Unit) (vs : List Declared) (env : Env)

/-- **C98**, writing: magic and number of the variant. -/
theorem C98_writes_the_number (h : Plain vs) (i : Nat) (n : Int) (hi : (numbers vs)[i]? = some n) :
    (enumOf args magic sz c store vs).write m env (.variant i .nil) =
      (do magicWrite m.native magic; (c { ctx := args env }).write (.num n)) := by
  have hi' := (List.getElem?_eq_some_iff.1 hi).1
  rw [numbers, numbersFrom_length] at hi'
  obtain ⟨h3, -, h5⟩ := h vs[i] (List.getElem_mem hi')
  have ha : (declared vs).toList[i]? = some (vs[i].attrs n, vs[i].fields) :=
    declared_get.2 ⟨_, n, List.getElem?_eq_getElem hi', hi, rfl⟩
  simp only [Ty.write]
  rw [Variants.writeAt_eq m _ _ _ _ ha, Plain.attrs h3, h5]
  simp only [Variants.writeAt, Bool.false_eq_true, if_false, Fields.write]
  exact bind_congr fun _ => bind_pure _

theorem plain_dispatch (h : Plain vs) (hn : (numbers vs).Nodup) (x : Val) (i : Nat)
    (hx : (declared vs).select env x = some i) (y : Val) (typed : Bool) :
    dispatch ((declared vs).select env x) ((declared vs).readAt m env y typed) = Pure.pure (.variant i .nil) := by
  obtain ⟨n, rfl, hi⟩ := (plain_select h hn env x i).1 hx
  have hi' := (List.getElem?_eq_some_iff.1 hi).1
  rw [numbers, numbersFrom_length] at hi'
  obtain ⟨h3, -, h5⟩ := h vs[i] (List.getElem_mem hi')
  have ha : (declared vs).toList[i]? = some (vs[i].attrs n, vs[i].fields) :=
    declared_get.2 ⟨_, n, List.getElem?_eq_getElem hi', hi, rfl⟩
  rw [hx]
  simp only [dispatch]
  rw [Variants.readAt_eq m _ _ _ ha, Plain.attrs h3, h5]
  simp only [Bool.false_and, Bool.false_eq_true, if_false, Fields.read, M.pure_bind]

/-- **C98**, reading: the number of the variant is what was found, after the magic. -/
theorem C98_reads_the_number (h : Plain vs) (hn : (numbers vs).Nodup) (r r' : Reader) (v : Val) :
    (enumOf args magic sz c store vs).read m env r = (.ok v, r') ↔
    ∃ i n r1, v = .variant i .nil ∧ (numbers vs)[i]? = some n ∧ magicRead m.native magic r = (.ok (), r1) ∧
      (c { ctx := args env }).read r1 = (.ok (.num n), r') := by
  simp only [Ty.read]
  constructor
  · intro hr
    obtain ⟨_, r1, h1, hr⟩ := M.bind_eq_ok hr
    obtain ⟨x, r2, h2, hr⟩ := M.bind_eq_ok hr
    cases hs : (declared vs).select { ctx := args env } x with
    | none => rw [hs] at hr; simp [dispatch, M.throw] at hr
    | some i =>
      rw [plain_dispatch m vs _ h hn x i hs] at hr
      obtain ⟨n, rfl, hi⟩ := (plain_select h hn _ x i).1 hs
      cases hr
      exact ⟨i, n, r1, rfl, hi, h1, h2⟩
  · rintro ⟨i, n, r1, rfl, hi, h1, h2⟩
    rw [M.bind_ok h1, M.bind_ok h2, plain_dispatch m vs _ h hn _ i ((plain_select h hn _ _ i).2 ⟨n, rfl, hi⟩)]
    rfl

/-- **C98**, an id that is not a number of a variant is refused. -/
theorem C98_other_ids_are_refused (h : Plain vs) (hn : (numbers vs).Nodup) (r r1 r2 : Reader) (x : Val)
    (h1 : magicRead m.native magic r = (.ok (), r1)) (h2 : (c { ctx := args env }).read r1 = (.ok x, r2))
    (hx : ∀ n ∈ numbers vs, x ≠ .num n) : (enumOf args magic sz c store vs).read m env r = (.err .parse, r2) := by
  simp only [Ty.read]
  rw [M.bind_ok h1, M.bind_ok h2]
  cases hs : (declared vs).select { ctx := args env } x with
  | none => rfl
  | some i =>
    obtain ⟨n, rfl, hi⟩ := (plain_select h hn _ x i).1 hs
    exact absurd rfl (hx n (List.mem_of_getElem? hi))

/-- **C98**, round trip: every variant is read back, whatever the type of the id and its arguments, if the id is. -/
theorem C98_round_trip (h : Plain vs) (hn : (numbers vs).Nodup) (o : Order) (hm : magic = [] ∨ ByteSafe o (· = 0))
    (i : Nat) (n : Int) (hi : (numbers vs)[i]? = some n) (Q : Nat → Prop)
    (hx : SoundOn o (shift (· = 0) (8 * magic.length)) (c { ctx := args env }).read
      ((c { ctx := args env }).write (.num n)) (.num n) Q) (out : List Byte)
    (hout : toBytes ((enumOf args magic sz c store vs).write m env (.variant i .nil)) = .ok out) :
    ∃ l, l ≤ 8 * out.length ∧ 8 * out.length < l + 8 ∧ Q l ∧
      ∀ extra, fromBytes ((enumOf args magic sz c store vs).read m env) (out ++ extra) 0 =
        .ok (((out ++ extra).drop (l / 8), l % 8), .variant i .nil) := by
  have hi' := (List.getElem?_eq_some_iff.1 hi).1
  rw [numbers, numbersFrom_length] at hi'
  obtain ⟨h3, -, h5⟩ := h vs[i] (List.getElem_mem hi')
  have ha : (declared vs).toList[i]? = some (vs[i].attrs n, vs[i].fields) :=
    declared_get.2 ⟨_, n, List.getElem?_eq_getElem hi', hi, rfl⟩
  obtain ⟨a, hai, hsel⟩ := Variants.select_some.1 ((plain_select h hn { ctx := args env } (.num n) i).2 ⟨n, rfl, hi⟩)
  rw [ha] at hai
  cases hai
  have hp : (vs[i].attrs n).pat { ctx := args env } (.num n) = true := by rw [Plain.attrs h3]; simp
  rcases hsel with hsel | hsel
  · refine C37_enum_round_trip m args magic sz c store (declared vs) env i _ _ ha (.inr h5) (.num n) ?_ hp hsel.2 hm Q Q hx .nil
      ?_ out hout
    · rw [Plain.attrs h3]
    · rw [h5]
      simp only [Fields.Fits]
      exact fun _ h => h
  · have := hsel.1 _ (List.mem_of_getElem? ha)
    rw [hp] at this
    cases this

/-- **C98**, the other direction: what is parsed is written back bit for bit, if that holds of the ids. -/
theorem C98_canonical (h : Plain vs) (hn : (numbers vs).Nodup) (o : Order) (p : Nat)
    (hc : Canonical o p (c { ctx := args env }).read (c { ctx := args env }).write) :
    Canonical o p ((enumOf args [] sz c store vs).read m env) ((enumOf args [] sz c store vs).write m env) := by
  intro r v r' hr he
  obtain ⟨i, n, r1, rfl, hi, h1, h2⟩ := (C98_reads_the_number m args [] sz c store vs env h hn r r' v).1 he
  have h0 : ∀ r, magicRead m.native [] r = (.ok (), r) := fun _ => rfl
  rw [h0] at h1
  cases h1
  obtain ⟨k, hk, hR, hW⟩ := hc r _ r' hr h2
  refine ⟨k, hk, fun r2 tl hr2 hu => ?_, ?_⟩
  · obtain ⟨r3, e, hs⟩ := hR r2 tl hr2 hu
    exact ⟨r3, (C98_reads_the_number m args [] sz c store vs env h hn r2 r3 _).2 ⟨i, n, r2, rfl, hi, h0 _, e⟩, hs⟩
  · rw [C98_writes_the_number m args [] sz c store vs env h i n hi]
    exact hW

end

/-! ### Changes of a declaration -/

theorem Plain.perm {vs ws : List Declared} (h : Plain vs) (hp : vs.Perm ws) : Plain ws := fun v hv => h v (hp.mem_iff.2 hv)

/-- **C98**, order: if every variant has its number in the source, the order of the declarations does not matter. -/
theorem C98_explicit_numbers_do_not_depend_on_the_order (vs ws : List Declared) (h : Plain vs) (hn : (numbers vs).Nodup)
    (hx : ∀ v ∈ vs, v.explicit.isSome) (hp : vs.Perm ws) (env : Env) (x : Val) (i : Nat)
    (hi : (declared vs).select env x = some i) : ∃ j, (declared ws).select env x = some j ∧ ws[j]? = vs[i]? := by
  have e1 : (numbers vs).map some = _ := numbersFrom_explicit 0 hx
  have e2 : (numbers ws).map some = _ := numbersFrom_explicit 0 fun v hv => hx v (hp.mem_iff.2 hv)
  have hn' : (numbers ws).Nodup := by
    have a : (vs.map (·.explicit)).Nodup := by
      rw [← e1]; exact List.pairwise_map.2 (hn.imp fun h e => h (Option.some.inj e))
    have b := (hp.map (·.explicit)).nodup_iff.1 a
    rw [← e2] at b
    exact (List.pairwise_map.1 b).imp fun h e => h (congrArg some e)
  obtain ⟨n, rfl, hin⟩ := (plain_select h hn env x i).1 hi
  have hv : (vs.map (·.explicit))[i]? = some (some n) := by rw [← e1, List.getElem?_map, hin]; rfl
  rw [List.getElem?_map] at hv
  obtain ⟨v, hv1, hv2⟩ := Option.map_eq_some_iff.1 hv
  obtain ⟨j, hj⟩ := List.mem_iff_getElem?.1 (hp.mem_iff.1 (List.mem_of_getElem? hv1))
  refine ⟨j, (plain_select (h.perm hp) hn' env _ j).2 ⟨n, rfl, ?_⟩, by rw [hj, hv1]⟩
  have : ((numbers ws).map some)[j]? = some (some n) := by rw [e2, List.getElem?_map, hj]; simp [hv2]
  rw [List.getElem?_map] at this
  obtain ⟨k, hk, e⟩ := Option.map_eq_some_iff.1 this
  cases e
  exact hk

/-- **C98**, growth: variants added at the end change neither the numbers nor the meaning of ids that were accepted. -/
theorem C98_appending_is_compatible (vs ws : List Declared) (h : Plain (vs ++ ws)) (hn : (numbers (vs ++ ws)).Nodup) (env : Env)
    (x : Val) (i : Nat) (hi : (declared vs).select env x = some i) :
    (declared (vs ++ ws)).select env x = some i ∧ (numbers (vs ++ ws))[i]? = (numbers vs)[i]? := by
  obtain ⟨k, e⟩ := numbersFrom_append 0 vs ws
  have h1 : Plain vs := fun v hv => h v (List.mem_append_left _ hv)
  have hn1 : (numbers vs).Nodup := by
    unfold numbers at hn ⊢
    rw [e] at hn
    exact (List.nodup_append.1 hn).1
  obtain ⟨n, rfl, hin⟩ := (plain_select h1 hn1 env x i).1 hi
  have : (numbers (vs ++ ws))[i]? = some n := by
    unfold numbers at hin ⊢
    rw [e, List.getElem?_append_left (List.getElem?_eq_some_iff.1 hin).1, hin]
  exact ⟨(plain_select h hn env _ i).2 ⟨n, rfl, this⟩, by rw [this, hin]⟩

/-! ### The same with `id` -/

/-- `id` with the number for every variant without `id` and `id_pat`. -/
def Declared.spell (v : Declared) (n : Int) : Declared :=
  match v.ident with
  | .discr => { v with ident := .id n }
  | _ => v

def spell (vs : List Declared) : List Declared := List.zipWith Declared.spell vs (numbers vs)

theorem Declared.spell_attrs (v : Declared) (n : Int) : (v.spell n).explicit = v.explicit ∧ (v.spell n).fields = v.fields ∧
    ((v.spell n).attrs n).pat = (v.attrs n).pat ∧ ((v.spell n).attrs n).id = (v.attrs n).id ∧
    ((v.spell n).attrs n).idPat = (v.attrs n).idPat ∧ ((v.spell n).attrs n).default = (v.attrs n).default := by
  obtain ⟨ex, id, d, fs⟩ := v
  cases id with
  | id y => exact ⟨rfl, rfl, rfl, rfl, rfl, rfl⟩
  | pat p => exact ⟨rfl, rfl, rfl, rfl, rfl, rfl⟩
  | discr => exact ⟨rfl, rfl, rfl, by cases fs <;> rfl, rfl, rfl⟩

theorem spell_numbers (vs : List Declared) : numbers (spell vs) = numbers vs := by
  have : ∀ (vs : List Declared) (n : Int) (ns : List Int), ns.length = vs.length →
      numbersFrom n (List.zipWith Declared.spell vs ns) = numbersFrom n vs := by
    intro vs
    induction vs with
    | nil => intro n ns _; rfl
    | cons v vs ih =>
      intro n ns h
      cases ns with
      | nil => simp at h
      | cons k ns =>
        simp only [List.length_cons, Nat.add_right_cancel_iff] at h
        simp only [List.zipWith_cons_cons, numbersFrom, (v.spell_attrs k).1, ih _ ns h]
  exact this vs 0 _ (numbersFrom_length _ _)

/-- **C98**, an enum with discriminants is read and written as the one in which they are spelled out as `id`; only
`deku_id` is another one. -/
theorem C98_discriminants_are_ids (m : Machine) (args : Env → List Val) (magic : List Byte) (sz : Option Nat) (c : Env → Codec)
    (store : Nat → Env → Val → M Writer Unit) (vs : List Declared) (env : Env) :
    (enumOf args magic sz c store (spell vs)).read m env = (enumOf args magic sz c store vs).read m env ∧
    ∀ v, (enumOf args magic sz c store (spell vs)).write m env v = (enumOf args magic sz c store vs).write m env v := by
  have key : ∀ (vs : List Declared) (ns : List Int),
      (∀ env x k, (variantsOf (List.zipWith Declared.spell vs ns) ns).firstMatch env x k = (variantsOf vs ns).firstMatch env x k) ∧
      (∀ k, (variantsOf (List.zipWith Declared.spell vs ns) ns).defaultAt k = (variantsOf vs ns).defaultAt k) ∧
      (∀ env x typed i, (variantsOf (List.zipWith Declared.spell vs ns) ns).readAt m env x typed i =
        (variantsOf vs ns).readAt m env x typed i) ∧
      (∀ env id st i v, (variantsOf (List.zipWith Declared.spell vs ns) ns).writeAt m env id st i v =
        (variantsOf vs ns).writeAt m env id st i v) := by
    intro vs
    induction vs with
    | nil => intro ns; exact ⟨fun _ _ _ => rfl, fun _ => rfl, fun _ _ _ _ => rfl, fun _ _ _ _ _ => rfl⟩
    | cons v vs ih =>
      intro ns
      cases ns with
      | nil => exact ⟨fun _ _ _ => rfl, fun _ => rfl, fun _ _ _ _ => rfl, fun _ _ _ _ _ => rfl⟩
      | cons n ns =>
        obtain ⟨h1, h2, h3, h4⟩ := ih ns
        obtain ⟨-, a2, a3, a4, a5, a6⟩ := v.spell_attrs n
        simp only [List.zipWith_cons_cons, variantsOf]
        refine ⟨fun env x k => ?_, fun k => ?_, fun env x typed i => ?_, fun env id st i u => ?_⟩
        · simp only [Variants.firstMatch, a3, h1]
        · simp only [Variants.defaultAt, a6, h2]
        · cases i with
          | zero => simp only [Variants.readAt, a5, a2]
          | succ i => simp only [Variants.readAt, h3]
        · cases i with
          | zero => simp only [Variants.writeAt, a4, a5, a2]
          | succ i => simp only [Variants.writeAt, h4]
  obtain ⟨h1, h2, h3, h4⟩ := key vs (numbers vs)
  have e : declared (spell vs) = variantsOf (List.zipWith Declared.spell vs (numbers vs)) (numbers vs) := by
    rw [declared, spell_numbers]; rfl
  have hs : ∀ env x, (declared (spell vs)).select env x = (declared vs).select env x := fun env x => by
    rw [e, declared, Variants.select, Variants.select, h1, h2]
  have hr : ∀ env x typed, (declared (spell vs)).readAt m env x typed = (declared vs).readAt m env x typed := fun env x typed => by
    funext i
    rw [e, declared, h3]
  have hw : ∀ env id st i v, (declared (spell vs)).writeAt m env id st i v = (declared vs).writeAt m env id st i v := fun env id st i v => by
    rw [e, declared, h4]
  refine ⟨?_, fun v => ?_⟩
  · simp only [Ty.read, hs, hr]
  · cases v <;> simp only [Ty.write, hw]

/-! ### The macros -/

/-- **C98**, `DekuRead` accepts what `DekuWrite` accepts, if the id is not given by the context. -/
theorem C98_what_can_be_written_can_be_read (d : DeclaredEnum) (v : Declared) (hi : d.idType ≠ none) (h : d.writes v = true) :
    d.reads v = true := by
  obtain ⟨t, ht⟩ := Option.ne_none_iff_exists'.1 hi
  unfold DeclaredEnum.writes at h
  unfold DeclaredEnum.reads
  rw [ht] at h ⊢
  cases hv : v.ident with
  | id y => rfl
  | pat p => rfl
  | discr => simpa [hv] using h

/-- **C98**, `id_type` counts as the integer type that is named last in it, however deep inside of it. -/
theorem C98_the_last_integer_name_counts (ts : List Token) (r : IntTy) : fromToken ts = some r ↔
    ∃ pre s post, ts = pre ++ .ident s :: post ∧ IntTy.named s = some r ∧ ∀ s', .ident s' ∈ post → IntTy.named s' = none := by
  have key : ∀ (ts : List Token) (found : Option IntTy),
      ts.foldl (fun found t => match t with | .ident s => (IntTy.named s).or found | .other => found) found = some r ↔
      (found = some r ∧ ∀ s', .ident s' ∈ ts → IntTy.named s' = none) ∨
      ∃ pre s post, ts = pre ++ .ident s :: post ∧ IntTy.named s = some r ∧ ∀ s', .ident s' ∈ post → IntTy.named s' = none := by
    intro ts
    induction ts with
    | nil => intro found; simp
    | cons t ts ih =>
      intro found
      rw [List.foldl_cons, ih]
      have back : (∃ pre s post, ts = pre ++ .ident s :: post ∧ IntTy.named s = some r ∧ ∀ s', .ident s' ∈ post → IntTy.named s' = none) →
          ∃ pre s post, t :: ts = pre ++ .ident s :: post ∧ IntTy.named s = some r ∧ ∀ s', .ident s' ∈ post → IntTy.named s' = none := by
        rintro ⟨pre, s, post, rfl, h2, h3⟩
        exact ⟨t :: pre, s, post, rfl, h2, h3⟩
      have front : (∃ pre s post, t :: ts = pre ++ .ident s :: post ∧ IntTy.named s = some r ∧ ∀ s', .ident s' ∈ post → IntTy.named s' = none) →
          (∃ s, t = .ident s ∧ IntTy.named s = some r ∧ ∀ s', .ident s' ∈ ts → IntTy.named s' = none) ∨
          ∃ pre s post, ts = pre ++ .ident s :: post ∧ IntTy.named s = some r ∧ ∀ s', .ident s' ∈ post → IntTy.named s' = none := by
        rintro ⟨pre, s, post, h1, h2, h3⟩
        cases pre with
        | nil =>
          simp only [List.nil_append, List.cons.injEq] at h1
          obtain ⟨rfl, rfl⟩ := h1
          exact .inl ⟨s, rfl, h2, h3⟩
        | cons u pre =>
          simp only [List.cons_append, List.cons.injEq] at h1
          exact .inr ⟨pre, s, post, h1.2, h2, h3⟩
      cases t with
      | other =>
        constructor
        · rintro (⟨h1, h2⟩ | h)
          · exact .inl ⟨h1, fun s' hs => h2 s' (by simpa using hs)⟩
          · exact .inr (back h)
        · rintro (⟨h1, h2⟩ | h)
          · exact .inl ⟨h1, fun s' hs => h2 s' (List.mem_cons_of_mem _ hs)⟩
          · rcases front h with ⟨s, h1, -⟩ | h
            · cases h1
            · exact .inr h
      | ident s =>
        constructor
        · rintro (⟨h1, h2⟩ | h)
          · cases hn : IntTy.named s with
            | none =>
              simp only [hn, Option.none_or] at h1
              refine .inl ⟨h1, fun s' hs => ?_⟩
              rcases List.mem_cons.1 hs with e | hs
              · cases e; exact hn
              · exact h2 s' hs
            | some q =>
              simp only [hn, Option.some_or] at h1
              exact .inr ⟨[], s, ts, rfl, hn.trans h1, h2⟩
          · exact .inr (back h)
        · rintro (⟨h1, h2⟩ | h)
          · refine .inl ⟨?_, fun s' hs => h2 s' (List.mem_cons_of_mem _ hs)⟩
            simp only [h2 s (by simp), Option.none_or, h1]
          · rcases front h with ⟨s', h1, h2, h3⟩ | h
            · cases h1
              exact .inl ⟨by simp only [h2, Option.some_or], h3⟩
            · exact .inr h
  refine (key ts none).trans ?_
  simp

/-- `Wide<u16, u8>` -/
example : fromToken [.ident "Wide", .other, .ident "u16", .other, .ident "u8", .other] = some ⟨1, false⟩ := by decide

/-- **C98**, the unsafe expression reads as many bytes as the tag has, in `DekuRead` always, in `DekuWrite` if `id_type` is
the name of an integer type. -/
theorem C98_unsafe_reads_stay_inside_partial (d : DeclaredEnum) (v : Declared) :
    (d.reads v = true → ∀ k, d.unsafeRead v = some k → ∃ r, d.repr = some r ∧ k = r.W) ∧
    (∀ name size t, d.idType = some ([.ident name], size) → IntTy.named name = some t → size = t.W → d.writes v = true →
      ∀ k, d.unsafeWrite v = some k → ∃ r, d.repr = some r ∧ k = r.W) := by
  refine ⟨fun _ k hk => ?_, fun name size t hid hname hsize hw k hk => ?_⟩
  · unfold DeclaredEnum.unsafeRead at hk
    split at hk
    · obtain ⟨r, h1, h2⟩ := Option.map_eq_some_iff.1 hk
      exact ⟨r, h1, h2.symm⟩
    · cases hk
  · unfold DeclaredEnum.unsafeWrite at hk
    unfold DeclaredEnum.writes at hw
    have hf : fromToken [.ident name] = some t := by simp [fromToken, hname]
    rw [hid] at hk hw
    subst hsize
    cases hr : d.repr with
    | none => cases hv : v.ident <;> cases hn : v.noFields <;> simp [hv, hn, hr] at hk hw
    | some r =>
      refine ⟨r, rfl, ?_⟩
      cases hv : v.ident <;> cases hn : v.noFields <;> simp [hv, hn, hr, hf] at hk hw <;> rw [← hk, hw.2]

/-- **C98 has a limit**: `from_token` takes the last name of an integer type anywhere in the type. With
`#[repr(u8)]`, `id_type = "Pair<u8>"` and `struct Pair<T>(T, T)` the code that is generated reads two bytes of an enum of one. -/
theorem C98_unsafe_read_can_be_out_of_bounds :
    let d : DeclaredEnum := ⟨some ⟨1, false⟩, some ([.ident "Pair", .other, .ident "u8", .other], 2), [{ explicit := some 1 }]⟩
    d.numbered = true ∧ (∀ v ∈ d.variants, d.writes v = true ∧ d.unsafeWrite v = some 2) ∧ d.repr.map (·.W) = some 1 := by
  decide

/-- **C98.** The numbers that a type holds are those that are unchanged when only the bytes of the type are kept: for a
type with a sign the bytes stand for the remainder nearest to zero, otherwise for the one that is not negative. -/
theorem C98_numbers_of_a_type (t : IntTy) (h : 0 < t.W) (n : Int) :
    t.holds n = true ↔ (if t.signed then n.bmod (256 ^ t.W) else n % (256 ^ t.W : Nat)) = n := by
  obtain ⟨w, hw⟩ : ∃ w, t.W = w + 1 := ⟨t.W - 1, by omega⟩
  obtain ⟨m, hm⟩ : ∃ m : Nat, 256 ^ t.W = 2 * m := ⟨128 * 256 ^ w, by rw [hw, Nat.pow_succ]; omega⟩
  have hp : 0 < (256 : Nat) ^ t.W := Nat.pow_pos (by decide)
  have hc : ((256 : Int) ^ t.W) = ((256 ^ t.W : Nat) : Int) := by simp
  unfold IntTy.holds
  rw [hc]
  rw [hm] at hp ⊢
  cases t.signed with
  | true =>
    simp only [if_true, decide_eq_true_eq]
    constructor
    · rintro ⟨h1, h2⟩
      exact Int.bmod_eq_of_le (by omega) (by omega)
    · intro e
      have h1 := @Int.le_bmod n (2 * m) hp
      have h2 := @Int.bmod_lt n (2 * m) hp
      omega
  | false =>
    simp only [Bool.false_eq_true, if_false, decide_eq_true_eq]
    constructor
    · rintro ⟨h1, h2⟩
      exact Int.emod_eq_of_lt h1 h2
    · intro e
      have h1 := Int.emod_nonneg n (b := ((2 * m : Nat) : Int)) (by omega)
      have h2 := Int.emod_lt_of_pos n (b := ((2 * m : Nat) : Int)) (by omega)
      omega

example : (⟨1, true⟩ : IntTy).holds (-128) = true ∧ (⟨1, true⟩ : IntTy).holds 128 = false ∧
    (⟨1, false⟩ : IntTy).holds 255 = true ∧ (⟨1, false⟩ : IntTy).holds (-1) = false := by decide

/-- **C98**, it takes one discriminant in the source for any to be used: `enum E { A, B }` is refused, though its variants
have numbers. -/
theorem C98_implicit_numbers_alone_are_refused (d : DeclaredEnum) (h : ∀ v ∈ d.variants, v.explicit = none) (v : Declared)
    (hv : v.ident = .discr) : d.reads v = false ∧ (d.idType ≠ none → d.writes v = false) := by
  have hd : d.hasDiscriminant = false := by
    simp only [DeclaredEnum.hasDiscriminant, List.any_eq_false]
    intro v hv
    simp [h v hv]
  refine ⟨by simp [DeclaredEnum.reads, hv, hd], fun hi => ?_⟩
  obtain ⟨t, ht⟩ := Option.ne_none_iff_exists'.1 hi
  simp [DeclaredEnum.writes, hv, hd, ht]

/-! ### Examples and counterexamples -/

namespace Example

/-- `#[repr(u8)] #[deku(id_type = "u8")]` -/
def u8Enum (vs : List Declared) : Ty :=
  enumOf (fun _ => []) [] (some 8) (fun _ => uintCodec .little 1 .unit) (fun _ _ => (uintCodec .little 1 .unit).write) vs

def accepted (vs : List Declared) : Bool :=
  let d : DeclaredEnum := ⟨some ⟨1, false⟩, some ([.ident "u8"], 1), vs⟩
  d.numbered && vs.all fun v => d.reads v && d.writes v

/-- `enum E { A = 3, B, C = 1 }` -/
def threeVariants : List Declared := [{ explicit := some 3 }, {}, { explicit := some 1 }]

theorem three_plain : Plain threeVariants := by
  intro v hv
  simp only [threeVariants, List.mem_cons, List.not_mem_nil, or_false] at hv
  rcases hv with rfl | rfl | rfl <;> exact ⟨rfl, rfl, rfl⟩

example : accepted threeVariants = true ∧ numbers threeVariants = [3, 4, 1] ∧
    fromBytes ((u8Enum threeVariants).read mach {}) [4, 9] 0 = .ok (([9], 0), .variant 1 .nil) ∧
    toBytes ((u8Enum threeVariants).write mach {} (.variant 2 .nil)) = .ok [1] ∧
    fromBytes ((u8Enum threeVariants).read mach {}) [2] 0 = .err .parse := by decide +kernel

example (out : List Byte) (h : toBytes ((u8Enum threeVariants).write mach {} (.variant 1 .nil)) = .ok out) :
    ∃ l, l ≤ 8 * out.length ∧ 8 * out.length < l + 8 ∧ any l ∧
      ∀ extra, fromBytes ((u8Enum threeVariants).read mach {}) (out ++ extra) 0 =
        .ok (((out ++ extra).drop (l / 8), l % 8), .variant 1 .nil) :=
  C98_round_trip mach _ [] _ _ _ threeVariants {} three_plain (by decide) .msb0 (.inl rfl) 1 4 (by decide) any u8_sound out h

example : Canonical .msb0 0 ((u8Enum threeVariants).read mach {}) ((u8Enum threeVariants).write mach {}) :=
  C98_canonical mach _ _ _ _ threeVariants {} three_plain (by decide) .msb0 0
    (uint_canonical (e := .little) (n := 8) (by decide) rfl (by decide) (by decide) (by simp [Prim.Compatible, IntCtx.shape, IntCtx.isBits]))

/-- Numbers can be negative: `#[repr(i16)] enum E { A = -2, B, C, D }` -/
example : numbers [{ explicit := some (-2) }, {}, {}, {}] = [-2, -1, 0, 1] ∧
    toBytes ((enumOf (fun _ => []) [] (some 16) (fun _ => sintCodec .little 2 (.endian .big)) (fun _ _ _ => M.panic)
      [{ explicit := some (-2) }, {}, {}, {}]).write mach {} (.variant 1 .nil)) = .ok [0xff, 0xff] := by decide +kernel

example : (u8Enum (spell threeVariants)).dekuId (.variant 1 .nil) = .ok (.num 4) ∧
    (u8Enum threeVariants).dekuId (.variant 1 .nil) = .err .idVariantNotFound := by decide +kernel

/-- `enum E { C = 1, A = 3, B = 4 }` in two orders. -/
example (x : Val) (i : Nat) (h : (declared [{ explicit := some 1 }, { explicit := some 3 }, { explicit := some 4 }]).select {} x = some i) :
    ∃ j, (declared [{ explicit := some 1 }, { explicit := some 4 }, { explicit := some 3 }]).select {} x = some j := by
  obtain ⟨j, hj, -⟩ := C98_explicit_numbers_do_not_depend_on_the_order _
    [{ explicit := some 1 }, { explicit := some 4 }, { explicit := some 3 }] (by
      intro v hv
      simp only [List.mem_cons, List.not_mem_nil, or_false] at hv
      rcases hv with rfl | rfl | rfl <;> exact ⟨rfl, rfl, rfl⟩) (by decide) (by simp) (.cons _ (.swap _ _ _)) {} x i h
  exact ⟨j, hj⟩

end Example

/-- **C98**: a variant that is inserted changes the numbers of those after it, and with them the meaning of messages. -/
theorem C98_inserting_renumbers :
    let before : List Declared := [{ explicit := some 1 }, {}]
    let after : List Declared := [{ explicit := some 1 }, {}, {}]
    accepted before = true ∧ accepted after = true ∧
    toBytes ((u8Enum before).write mach {} (.variant 1 .nil)) = .ok [2] ∧
    fromBytes ((u8Enum after).read mach {}) [2] 0 = .ok (([], 0), .variant 1 .nil) ∧
    toBytes ((u8Enum after).write mach {} (.variant 2 .nil)) = .ok [3] := by decide +kernel

/-- **C98 is false** of declarations with ids as well: `enum E { #[deku(id = 1)] A = 0, B }` is accepted, the compiler
sees two numbers, but `B` is read back as `A`. -/
theorem C98_id_hides_a_discriminant :
    let vs : List Declared := [{ explicit := some 0, ident := .id 1 }, {}]
    accepted vs = true ∧ toBytes ((u8Enum vs).write mach {} (.variant 1 .nil)) = .ok [1] ∧
    fromBytes ((u8Enum vs).read mach {}) [1] 0 = .ok (([], 0), .variant 0 .nil) := by decide +kernel

/-- A variant with `id_pat` and no field writes its number, though the pattern does not match it:
`enum E { A = 0, #[deku(id_pat = "2..=9")] B }`. -/
theorem C98_pattern_variant_writes_another_id :
    let vs : List Declared := [{ explicit := some 0 }, { ident := .pat fun x => decide (2 ≤ x ∧ x ≤ 9) }]
    accepted vs = true ∧ fromBytes ((u8Enum vs).read mach {}) [5] 0 = .ok (([], 0), .variant 1 .nil) ∧
    toBytes ((u8Enum vs).write mach {} (.variant 1 .nil)) = .ok [1] ∧
    fromBytes ((u8Enum vs).read mach {}) [1] 0 = .err .parse := by decide +kernel

/-- A `default` variant is read for every other id, and written as its number. -/
theorem C98_default_variant_forgets_the_id :
    let vs : List Declared := [{ explicit := some 0 }, { default := true }]
    accepted vs = true ∧ fromBytes ((u8Enum vs).read mach {}) [7] 0 = .ok (([], 0), .variant 1 .nil) ∧
    toBytes ((u8Enum vs).write mach {} (.variant 1 .nil)) = .ok [1] := by decide +kernel

/-- `DekuRead` accepts an `id_pat` variant without field and number, `DekuWrite` does not. -/
theorem C98_readable_but_not_writable :
    let d : DeclaredEnum := ⟨none, some ([.ident "u8"], 1), [{ ident := .pat fun _ => true }]⟩
    ∀ v ∈ d.variants, d.reads v = true ∧ d.writes v = false := by decide

end Deku
