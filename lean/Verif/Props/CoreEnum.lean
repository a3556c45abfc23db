import Verif.Spec.CoreEnum
import Verif.Props.Core
import Verif.Props.Derive

/-! # Selection of the variant in definitions given as data: C37 -/

namespace Deku

theorem VKind.hits_iff (k : VKind) (x : Int) : k.hits (.num x) = true ↔ k.ids x := by
  cases k <;> simp [VKind.hits, VKind.ids]

theorem VKind.hits_false_iff (k : VKind) (x : Int) : k.hits (.num x) = false ↔ ¬ k.ids x := by
  rw [← VKind.hits_iff]; simp

theorem DVariants.toList_toVariants (m : Machine) : ∀ vs : DVariants,
    (vs.toVariants m).toList = vs.toList.map fun a => (a.1.toVAttrs, a.2.toFields m)
  | .nil => rfl
  | .cons a fs rest => by
    simp only [DVariants.toVariants, Variants.toList, DVariants.toList, List.map_cons]
    rw [DVariants.toList_toVariants m rest]

theorem DVariants.For.selects {vs : DVariants} {x : Int} {i : Nat} (h : vs.For x i) (m : Machine) (env : Env) :
    Selects env (.num x) (vs.toVariants m).toList i := by
  obtain ⟨a, ha, h⟩ := h
  rw [DVariants.toList_toVariants]
  refine ⟨(a.1.toVAttrs, a.2.toFields m), by simp [ha], ?_⟩
  rcases h with ⟨h1, h2⟩ | ⟨h1, h2, h3⟩
  · refine .inl ⟨(VKind.hits_iff _ _).mpr h1, fun j b hj hb => ?_⟩
    rw [List.getElem?_map, Option.map_eq_some_iff] at hb
    obtain ⟨b', hb', rfl⟩ := hb
    exact (VKind.hits_false_iff _ _).mpr (h2 j b' hj hb')
  · refine .inr ⟨fun b hb => ?_, h2, fun j b hj hb => ?_⟩
    · obtain ⟨b', hb', rfl⟩ := List.mem_map.mp hb
      exact (VKind.hits_false_iff _ _).mpr (h1 b' hb')
    · rw [List.getElem?_map, Option.map_eq_some_iff] at hb
      obtain ⟨b', hb', rfl⟩ := hb
      exact h3 j b' hj hb'

/-- **C37**, for ids written as literals, ranges and `_`: an enum whose id is read as `x` is the variant for `x`. A
variant with a literal id has the fields that follow; one with a range or `_` has the id as its first field. -/
theorem C37_definition_reads_the_variant_of_the_id (m : Machine) (args : List Expr) (magic : List Byte)
    (sz : Option Nat) (W : Nat) (ctx store : IntCtx) (vs : DVariants) (env : Env) (r r1 r2 : Reader) (x : Nat)
    (hm : magicRead m.native magic r = (.ok (), r1)) (hx : Prim.readUnsigned m.native W ctx r1 = (.ok x, r2))
    (i : Nat) (a : DVAttrs) (fs : DFields) (hi : vs.toList[i]? = some (a, fs)) (hs : vs.For x i) :
    (a.kind.isPat = false →
      ((Def.enum args magic (.typed sz W ctx store) vs).toTy m).read m env r =
        match (fs.toFields m).read m { ctx := args.map fun e => e.val env } r2 with
        | (.ok v, r3) => (.ok (.variant i v), r3)
        | (.err e, r3) => (.err e, r3)
        | (.panic, r3) => (.panic, r3)) ∧
    (∀ fa ft tl, a.kind.isPat = true → fs = .cons fa ft tl →
      ((Def.enum args magic (.typed sz W ctx store) vs).toTy m).read m env r =
        match (tl.toFields m).read m (Env.push { ctx := args.map fun e => e.val env } (.num x)) r2 with
        | (.ok v, r3) => (.ok (.variant i (.cons (.num x) v)), r3)
        | (.err e, r3) => (.err e, r3)
        | (.panic, r3) => (.panic, r3)) := by
  have hx' : (uintCodec m.native W ctx).read r1 = (.ok (.num x), r2) := by
    simp only [uintCodec]; rw [M.bind_ok hx]; rfl
  have hi' : (vs.toVariants m).toList[i]? = some (a.toVAttrs, fs.toFields m) := by
    rw [DVariants.toList_toVariants]; simp [hi]
  have hs' := hs.selects m { ctx := args.map fun e => e.val env }
  constructor
  · intro hp
    exact C37_reads_the_selected_variant m _ magic sz (fun _ => uintCodec m.native W ctx) _ (vs.toVariants m) env r r1 r2
      _ hm hx' i _ _ hi' hp hs'
  · rintro fa ft tl hp rfl
    exact C37_reads_the_stored_id m _ magic sz (fun _ => uintCodec m.native W ctx) _ (vs.toVariants m) env r r1 r2
      _ hm hx' i _ _ _ _ hi' hp hs'

/-- **C37.** An id that no variant is for is a parse error. -/
theorem C37_definition_rejects_other_ids (m : Machine) (args : List Expr) (magic : List Byte)
    (sz : Option Nat) (W : Nat) (ctx store : IntCtx) (vs : DVariants) (env : Env) (r r1 r2 : Reader) (x : Nat)
    (hm : magicRead m.native magic r = (.ok (), r1)) (hx : Prim.readUnsigned m.native W ctx r1 = (.ok x, r2))
    (hn : ∀ a ∈ vs.toList, ¬ a.1.kind.ids x ∧ a.1.default = false) :
    ((Def.enum args magic (.typed sz W ctx store) vs).toTy m).read m env r = (.err .parse, r2) := by
  have hx' : (uintCodec m.native W ctx).read r1 = (.ok (.num x), r2) := by
    simp only [uintCodec]; rw [M.bind_ok hx]; rfl
  refine C37_unknown_id_is_a_parse_error m _ magic sz (fun _ => uintCodec m.native W ctx) _ (vs.toVariants m) env r r1 r2
    _ hm hx' fun b hb => ?_
  rw [DVariants.toList_toVariants] at hb
  obtain ⟨b', hb', rfl⟩ := List.mem_map.mp hb
  exact ⟨(VKind.hits_false_iff _ _).mpr (hn b' hb').1, (hn b' hb').2⟩

/-- **C37**, end to end for the simplest enum with a range: exactly the bytes of the range, both ends included, are
accepted, and what is returned is the byte. -/
theorem C37_range_accepts_exactly_its_bytes (m : Machine) (lo hi : Int) (b : Byte) :
    fromBytes (((Def.enum [] [] (.typed (some 8) 1 .unit .unit)
      (.cons { kind := .range lo hi } (.cons {} (.leaf (some 8) (.uint 1 .unit)) .nil) .nil)).toTy m).read m {}) [b] 0 =
      if lo ≤ b.toNat ∧ b.toNat ≤ hi then .ok (([], 0), .variant 0 (.ofList [.num b.toNat])) else .err .parse := by
  obtain ⟨r2, hx, hb⟩ : ∃ r2, Prim.readUnsigned m.native 1 .unit (Reader.new { data := [b] }) = (.ok b.toNat, r2) ∧
      r2.bitsRead = 8 := by
    refine ⟨(Prim.readUnsigned m.native 1 .unit (Reader.new { data := [b] })).2, ?_, by cases m.native <;> rfl⟩
    cases m.native
    · show (Res.ok (leNat [b]), _) = _
      simp [leNat]
      rfl
    · show (Res.ok (beNat [b]), _) = _
      simp [beNat]
      rfl
  by_cases h : lo ≤ b.toNat ∧ b.toNat ≤ hi
  · have := (C37_definition_reads_the_variant_of_the_id m [] [] (some 8) 1 .unit .unit
      (.cons { kind := .range lo hi } (.cons {} (.leaf (some 8) (.uint 1 .unit)) .nil) .nil) {} _ _ _ b.toNat rfl hx 0
      _ _ rfl ⟨_, rfl, .inl ⟨h, fun j b hj => by omega⟩⟩).2 _ _ _ rfl rfl
    rw [if_pos h, fromBytes]
    simp only [readFrom, ne_eq, not_true_eq_false, if_false]
    rw [this]
    simp only [DFields.toFields, Fields.read]
    show (if r2.bitsRead / 8 ≤ _ then _ else _) = _
    rw [hb]
    rfl
  · have := C37_definition_rejects_other_ids m [] [] (some 8) 1 .unit .unit
      (.cons { kind := .range lo hi } (.cons {} (.leaf (some 8) (.uint 1 .unit)) .nil) .nil) {} _ _ _ b.toNat rfl hx
      (by intro a ha; simp [DVariants.toList] at ha; subst ha; exact ⟨h, rfl⟩)
    rw [if_neg h, fromBytes]
    simp only [readFrom, ne_eq, not_true_eq_false, if_false]
    rw [this]

/-- Nine belongs to the second variant of the example and ten to the third. -/
example : fromBytes ((CoreExample.kind.toTy Example.mach).read Example.mach {}) [9, 0x83] 0 =
      .ok (([], 0), .variant 1 (.ofList [.num 9, .num 1, .num 3])) ∧
    fromBytes ((CoreExample.kind.toTy Example.mach).read Example.mach {}) [10] 0 =
      .ok (([], 0), .variant 2 (.ofList [.num 10])) := by decide +kernel

end Deku
