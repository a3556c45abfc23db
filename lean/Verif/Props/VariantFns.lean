import Verif.Model.VariantFns
import Verif.Lemmas.FitsSound
import Verif.Lemmas.Examples

/-! # `reader` and `writer` on a variant: C105 -/

namespace Deku

theorem matchTy_self (ts : List RTy) :
    (∃ t, matchTy ts = some t ∧ (t = .self ∨ t = .never)) ↔ ∀ t ∈ ts, t = .self ∨ t = .never := by
  induction ts with
  | nil => simp [matchTy]
  | cons t ts ih =>
    simp only [matchTy, List.forall_mem_cons, ← ih]
    cases matchTy ts with
    | none => simp
    | some u => cases t <;> cases u <;> simp

theorem variantTy_fine (r : Option VReader) :
    (variantTy r = .self ∨ variantTy r = .never) ↔ ∀ x, r = some x → x.ty = .never := by
  cases r with
  | none => simp [variantTy, blockTy]
  | some r =>
    simp only [variantTy, blockTy, List.mem_singleton, Option.some.injEq, forall_eq', Option.getD]
    cases r.ty <;> simp

/-- **C105.** The implementation of `DekuReader` compiles if and only if the tokens of every `reader` on a variant have
type `!`: they have to return. -/
theorem C105_a_reader_of_a_variant_has_to_return (readers : List (Option VReader)) (wild : Bool) (default : Option Nat) :
    readerCompiles readers wild default = true ↔ ∀ r, some r ∈ readers → r.ty = .never := by
  have h : readerCompiles readers wild default = true ↔ ∀ t ∈ armTys readers wild default, t = .self ∨ t = .never := by
    rw [← matchTy_self, readerCompiles]
    cases matchTy (armTys readers wild default) <;> simp
  rw [h]
  clear h
  constructor
  · intro h r hr
    exact (variantTy_fine (some r)).1 (h _ (List.mem_append_left _ (List.mem_map_of_mem hr))) r rfl
  · intro h t ht
    rcases List.mem_append.1 ht with ht | ht
    · obtain ⟨r, hr, rfl⟩ := List.mem_map.1 ht
      exact (variantTy_fine r).2 fun x hx => h x (hx ▸ hr)
    · cases wild with
      | true => simp at ht
      | false =>
        cases default with
        | none => simp [blockTy] at ht; exact .inr ht
        | some i =>
          simp at ht
          subst ht
          refine (variantTy_fine _).2 fun x hx => h x ?_
          cases hi : readers[i]? with
          | none => rw [hi] at hx; simp at hx
          | some y =>
            rw [hi] at hx
            simp at hx
            subst hx
            exact List.mem_of_getElem? hi

theorem FEnum.read_eq (m : Machine) (e : FEnum) (env : Env) :
    e.read m env = (magicRead m.native e.magic >>= fun _ =>
      e.id.get { ctx := e.args env } >>= fun x => e.pick m { ctx := e.args env } x e.id.isTyped) := by
  simp only [FEnum.read]
  cases e.id <;> rfl

/-- **C105.** Functions that do what the generated code does can not be told from it: a reader that reads the fields, a
writer that writes the id and the fields. -/
theorem C105_generated_code_as_functions (m : Machine) (e : FEnum)
    (hr : ∀ i r, (e.fns i).reader = some r → ∃ f, r = .ret f ∧ ∀ env x, e.vs.select env x = some i →
      f env = e.vs.readAt m env x e.id.isTyped i >>= fun fs => pure (.variant i fs))
    (hw : ∀ i w, (e.fns i).writer = some w → ∀ env v, w env v = e.vs.writeAt m env e.id (e.store i) i v) (env : Env) :
    e.read m env = e.plain.read m env ∧ ∀ v, e.write m env v = e.plain.write m env v := by
  refine ⟨?_, fun v => ?_⟩
  · rw [FEnum.read_eq, FEnum.plain, Ty.read_enum]
    congr 1; funext _; congr 1; funext x
    simp only [FEnum.pick, dispatch]
    cases h : e.vs.select { ctx := e.args env } x with
    | none => rfl
    | some i =>
      simp only [FEnum.readArm]
      cases hi : (e.fns i).reader with
      | none => rfl
      | some r =>
        obtain ⟨f, rfl, hf⟩ := hr i r hi
        simp only
        rw [hf _ x h]
  · cases v with
    | variant i v =>
      simp only [FEnum.write, FEnum.plain, Ty.write, FEnum.writeArm]
      cases hi : (e.fns i).writer with
      | none => rfl
      | some w => simp only [hw i w hi]
    | _ => rfl

/-- **C105.** The functions of a variant do not touch the others: what the enum without functions reads as a variant
without a reader is read as before, and a variant without a writer is written as before. -/
theorem C105_other_variants_are_as_before (m : Machine) (e : FEnum) (env : Env) (i : Nat) (v : Val) :
    ((e.fns i).writer = none → e.write m env (.variant i v) = e.plain.write m env (.variant i v)) ∧
    ((e.fns i).reader = none → ∀ r r', e.plain.read m env r = (.ok (.variant i v), r') →
      e.read m env r = (.ok (.variant i v), r')) := by
  refine ⟨fun h => ?_, fun h r r' hr => ?_⟩
  · simp only [FEnum.write, FEnum.plain, Ty.write, FEnum.writeArm, h]
  · rw [FEnum.plain, Ty.read_enum] at hr
    rw [FEnum.read_eq]
    obtain ⟨_, r1, h1, hr⟩ := M.bind_eq_ok hr
    obtain ⟨x, r2, h2, hr⟩ := M.bind_eq_ok hr
    rw [M.bind_ok h1, M.bind_ok h2]
    simp only [dispatch, FEnum.pick] at hr ⊢
    cases hs : e.vs.select { ctx := e.args env } x with
    | none => rw [hs] at hr; simp [M.throw] at hr
    | some j =>
      rw [hs] at hr
      simp only at hr ⊢
      obtain ⟨fs, r3, h3, h4⟩ := M.bind_eq_ok hr
      simp [M.pure_run] at h4
      obtain ⟨⟨rfl, rfl⟩, rfl⟩ := h4
      simp only [FEnum.readArm, h]
      exact hr

/-- **C105**, round trip: a value of a variant with functions, or with one of them, is written and read back if the arm
writes an id that selects the variant and then something that the arm of the reader reads as the value. -/
theorem C105_round_trip (m : Machine) (o : Order) (e : FEnum) (env : Env) (i : Nat) (v x : Val) (size : Option Nat)
    (c : Env → Codec) (hid : e.id = .typed size c) (R Q : Nat → Prop) (body : M Writer Unit)
    (hm : e.magic = [] ∨ ByteSafe o (· = 0))
    (hw : e.writeArm m { ctx := e.args env } i v = ((c { ctx := e.args env }).write x >>= fun _ => body))
    (hs : e.vs.select { ctx := e.args env } x = some i)
    (hx : SoundOn o (shift (· = 0) (8 * e.magic.length)) (c { ctx := e.args env }).read ((c { ctx := e.args env }).write x) x R)
    (hb : SoundOn o R (e.readArm m { ctx := e.args env } x true i) body (.variant i v) Q) (out : List Byte)
    (hout : toBytes (e.write m env (.variant i v)) = .ok out) :
    ∃ n, n ≤ 8 * out.length ∧ 8 * out.length < n + 8 ∧ Q n ∧
      ∀ extra, fromBytes (e.read m env) (out ++ extra) 0 = .ok (((out ++ extra).drop (n / 8), n % 8), .variant i v) := by
  refine SoundOn.round_trip (o := o) ?_ hout
  rw [FEnum.read_eq]
  simp only [FEnum.write]
  refine (magic_sound m.native hm).bind ?_
  rw [hw, hid]
  refine hx.bind ?_
  simp only [FEnum.pick, hs, IdSrc.isTyped]
  exact hb

/-- **C105**, the same if the id is an argument of the context: then there is no id to write. -/
theorem C105_round_trip_with_the_id_from_the_context (m : Machine) (o : Order) (e : FEnum) (env : Env) (i : Nat) (v : Val)
    (f : Env → Val) (hid : e.id = .ctx f) (Q : Nat → Prop) (hm : e.magic = [] ∨ ByteSafe o (· = 0))
    (hs : e.vs.select { ctx := e.args env } (f { ctx := e.args env }) = some i)
    (hb : SoundOn o (shift (· = 0) (8 * e.magic.length))
      (e.readArm m { ctx := e.args env } (f { ctx := e.args env }) false i) (e.writeArm m { ctx := e.args env } i v) (.variant i v) Q)
    (out : List Byte) (hout : toBytes (e.write m env (.variant i v)) = .ok out) :
    ∃ n, n ≤ 8 * out.length ∧ 8 * out.length < n + 8 ∧ Q n ∧
      ∀ extra, fromBytes (e.read m env) (out ++ extra) 0 = .ok (((out ++ extra).drop (n / 8), n % 8), .variant i v) := by
  refine SoundOn.round_trip (o := o) ?_ hout
  rw [FEnum.read_eq]
  simp only [FEnum.write]
  refine (magic_sound m.native hm).bind ?_
  rw [hid]
  simp only [IdSrc.get, M.pure_bind, FEnum.pick, hs, IdSrc.isTyped]
  exact hb

/-- **C105.** The generated code does not write the id of a variant with a writer: whatever the ids, the same is written. -/
theorem C105_the_id_is_left_to_the_writer (m : Machine) (e : FEnum) (env : Env) (i : Nat) (v : Val)
    (w : Env → Val → M Writer Unit) (h : (e.fns i).writer = some w) (id : IdSrc) (store : Nat → Env → Val → M Writer Unit)
    (vs : Variants) :
    e.write m env (.variant i v) = { e with id := id, store := store, vs := vs }.write m env (.variant i v) := by
  simp only [FEnum.write, FEnum.writeArm, h]

/-- **C105.** `deku_id` of a variant with a reader is an error, also if it has an `id`; of others it is as before. -/
theorem C105_deku_id (e : FEnum) (i : Nat) (v : Val) :
    e.dekuId (.variant i v) = if (e.fns i).reader = none then e.plain.dekuId (.variant i v) else .err .idVariantNotFound := by
  simp only [FEnum.dekuId, FEnum.plain, Ty.dekuId]
  cases (e.fns i).reader <;> simp

/-! ### Examples -/

namespace VariantFnsExample

open Example (any u8_sound)

def mach : Machine := { native := .little, mem := 2 ^ 40 }

/-- `u8`. -/
def byte : Codec := uintCodec .little 1 .unit

/-- `E::read`. -/
def flip (x : Val) : Val :=
  match x with
  | .num n => .variant 0 (.ofList [.num (255 - n)])
  | x => x

/-- ```
#[deku(id_type = "u8")]
enum E {
    #[deku(id = 1, reader = "return E::read(deku::reader)", writer = "…")] A(u8),
    #[deku(id = 2)] B,
}
```
where `E::read` is `Ok(E::A(!u8::from_reader_with_ctx(reader, ())?))`. -/
def withWriter (w : Env → Val → M Writer Unit) : FEnum where
  args := fun _ => []
  magic := []
  id := .typed (some 8) fun _ => byte
  store := fun _ _ _ => M.panic
  vs := .cons { pat := fun _ x => x = .num 1, id := some (.num 1) } (.cons {} (.prim (some 8) fun _ => byte) .nil)
    (.cons { pat := fun _ x => x = .num 2, id := some (.num 2) } .nil .nil)
  fns := fun i => if i = 0 then { reader := some (.ret fun _ => byte.read >>= fun x => pure (flip x)), writer := some w } else {}

/-- The counterpart of `E::read`. -/
def body (v : Val) : M Writer Unit :=
  match v with
  | .cons (.num n) .nil => byte.write (.num (255 - n))
  | _ => M.panic

/-- Without the id. -/
def short : FEnum := withWriter fun _ v => body v

/-- With the id. -/
def full : FEnum := withWriter fun _ v => do
  byte.write (.num 1)
  body v

example : readerCompiles [some (.ret fun _ => byte.read), none] false none = true := by decide

/-- Every value of the variant round trips, if the writer writes the id. -/
example (n : Int) (out : List Byte) (hout : toBytes (full.write mach {} (.variant 0 (.ofList [.num n]))) = .ok out) :
    ∃ k, k ≤ 8 * out.length ∧ 8 * out.length < k + 8 ∧ any k ∧ ∀ extra,
      fromBytes (full.read mach {}) (out ++ extra) 0 =
        .ok (((out ++ extra).drop (k / 8), k % 8), .variant 0 (.ofList [.num n])) := by
  refine C105_round_trip mach .msb0 full {} 0 _ (.num 1) (some 8) (fun _ => byte) rfl any any
    (byte.write (.num (255 - n))) (.inl rfl) rfl rfl u8_sound ?_ out hout
  have h := (u8_sound (P := any) (v := .num (255 - n))).mapRead flip
  have e : flip (.num (255 - n)) = .variant 0 (.ofList [.num n]) := by
    show Val.variant 0 (.ofList [.num (255 - (255 - n))]) = _
    rw [show 255 - (255 - n) = n by omega]
  rw [e] at h
  exact h

/-- With the id as an argument of the context the counterpart of the reader is enough. -/
example (n : Int) (out : List Byte)
    (hout : toBytes ({ short with id := .ctx fun _ => .num 1 }.write mach {} (.variant 0 (.ofList [.num n]))) = .ok out) :
    ∃ k, k ≤ 8 * out.length ∧ 8 * out.length < k + 8 ∧ any k ∧ ∀ extra,
      fromBytes ({ short with id := .ctx fun _ => .num 1 }.read mach {}) (out ++ extra) 0 =
        .ok (((out ++ extra).drop (k / 8), k % 8), .variant 0 (.ofList [.num n])) := by
  refine C105_round_trip_with_the_id_from_the_context mach .msb0 _ {} 0 _ (fun _ => .num 1) rfl any (.inl rfl) rfl ?_ out hout
  have h := (u8_sound (P := shift (· = 0) 0) (v := .num (255 - n))).mapRead flip
  have e : flip (.num (255 - n)) = .variant 0 (.ofList [.num n]) := by
    show Val.variant 0 (.ofList [.num (255 - (255 - n))]) = _
    rw [show 255 - (255 - n) = n by omega]
  rw [e] at h
  exact h

example : toBytes (full.write mach {} (.variant 0 (.ofList [.num 2]))) = .ok [1, 0xfd] := by decide +kernel

/-- The same code as the generated one. -/
example : ∃ e : FEnum, (e.fns 0).reader.isSome ∧ (e.fns 0).writer.isSome ∧ ∀ env, e.read mach env = full.plain.read mach env := by
  refine ⟨{ full with fns := fun i => if i = 0 then
      { reader := some (.ret fun env => full.vs.readAt mach env (.num 1) true 0 >>= fun fs => pure (.variant 0 fs)),
        writer := some fun env v => full.vs.writeAt mach env full.id (full.store 0) 0 v } else {} }, rfl, rfl, fun env => ?_⟩
  refine (C105_generated_code_as_functions mach _ ?_ ?_ env).1
  · intro i r h
    by_cases hi : i = 0
    · subst hi
      simp only [if_true, Option.some.injEq] at h
      subst h
      exact ⟨_, rfl, fun _ _ _ => rfl⟩
    · simp [hi] at h
  · intro i w h
    by_cases hi : i = 0
    · subst hi
      simp only [if_true, Option.some.injEq] at h
      subst h
      exact fun _ _ => rfl
    · simp [hi] at h

end VariantFnsExample

open VariantFnsExample in
/-- **C105.** Tokens that give a value, as a `reader` on a field has to, do not compile, neither with `?` nor without. -/
theorem C105_a_reader_with_a_value_does_not_compile (readers : List (Option VReader)) (wild : Bool) (default : Option Nat) :
    readerCompiles (some (.expr .other) :: readers) wild default = false ∧
    readerCompiles (some (.expr .self) :: readers) wild default = false := by
  refine ⟨?_, ?_⟩ <;> refine Bool.eq_false_iff.2 fun h => ?_ <;>
    exact absurd ((C105_a_reader_of_a_variant_has_to_return _ _ _).1 h _ (List.mem_cons_self ..)) (by decide)

open VariantFnsExample in
/-- **A writer that is the counterpart of the reader does not round trip**: the reader starts after the id, and nobody
writes it. What is written is refused, or is another variant. -/
theorem C105_counterparts_do_not_round_trip :
    fromBytes (short.read mach {}) [1, 0xfd] 0 = .ok (([], 0), .variant 0 (.ofList [.num 2])) ∧
    toBytes (short.write mach {} (.variant 0 (.ofList [.num 2]))) = .ok [0xfd] ∧
    fromBytes (short.read mach {}) [0xfd] 0 = .err .parse ∧
    toBytes (short.write mach {} (.variant 0 (.ofList [.num 0xfd]))) = .ok [2] ∧
    fromBytes (short.read mach {}) [2] 0 = .ok (([], 0), .variant 1 .nil) ∧
    short.dekuId (.variant 0 (.ofList [.num 2])) = .err .idVariantNotFound ∧
    short.dekuId (.variant 1 .nil) = .ok (.num 2) := by
  decide +kernel

end Deku
