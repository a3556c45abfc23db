import Verif.Spec.Conform
import Verif.Lemmas.Yields
import Verif.Lemmas.Select
import Verif.Props.CoreEnum

/-! # What is read satisfies what the definition states -/

namespace Deku

open Reader Coll

variable {α σ : Type}

/-- The scope is made of these arguments and fields. -/
def Env.Is (env : Env) (args before : List Val) : Prop := env.ctx = args ∧ env.vars = before.reverse

theorem Env.Is.at {env : Env} {args before : List Val} (h : env.Is args before) (off : Nat) :
    (env.at off).Is args before := h

theorem Env.Is.push {env : Env} {args before : List Val} (h : env.Is args before) (x : Val) :
    (env.push x).Is args (before ++ [x]) := ⟨h.1, by simp [Env.push, h.2]⟩

theorem Op.Says.eval {o : Op} {x y k : Int} (h : o.Says x y k) : o.eval x y = k := by
  cases o with
  | add => exact h.symm
  | mul =>
    obtain ⟨hx, hy, rfl⟩ := h
    obtain ⟨a, rfl⟩ := Int.eq_ofNat_of_zero_le hx
    obtain ⟨b, rfl⟩ := Int.eq_ofNat_of_zero_le hy
    simp [Op.eval]
  | sub => obtain ⟨hx, hy, hk, h1, h2⟩ := h; simp only [Op.eval]; omega
  | min => obtain ⟨h1, h2, h3⟩ := h; simp only [Op.eval]; split <;> omega
  | max => obtain ⟨h1, h2, h3⟩ := h; simp only [Op.eval]; split <;> omega

theorem LitOp.Says.eval {o : LitOp} {x k : Int} (h : o.Says x k) : o.eval x = k := by
  cases o with
  | div n =>
    obtain ⟨hk, r, hr, hn, rfl⟩ := h
    obtain ⟨a, rfl⟩ := Int.eq_ofNat_of_zero_le hk
    obtain ⟨b, rfl⟩ := Int.eq_ofNat_of_zero_le hr
    have hb : b < n := by omega
    have he : ((n : Int) * a + b).toNat = n * a + b := by
      rw [← Int.natCast_mul, ← Int.natCast_add, Int.toNat_natCast]
    simp only [LitOp.eval, he]
    rw [Nat.mul_add_div (by omega), Nat.div_eq_of_lt hb, Nat.add_zero]
  | mod n =>
    obtain ⟨hk, hn, q, hq, rfl⟩ := h
    obtain ⟨a, rfl⟩ := Int.eq_ofNat_of_zero_le hq
    obtain ⟨b, rfl⟩ := Int.eq_ofNat_of_zero_le hk
    have hb : b < n := by omega
    have he : ((n : Int) * a + b).toNat = n * a + b := by
      rw [← Int.natCast_mul, ← Int.natCast_add, Int.toNat_natCast]
    simp only [LitOp.eval, he]
    rw [Nat.mul_add_mod, Nat.mod_eq_of_lt hb]
  | and n =>
    obtain ⟨a, b, rfl, rfl, h⟩ := h
    simp only [LitOp.eval, Int.toNat_natCast, Int.natCast_inj]
    exact Nat.eq_of_testBit_eq fun i => by rw [h, Nat.testBit_and]
  | shr n =>
    obtain ⟨a, b, rfl, rfl, h⟩ := h
    simp only [LitOp.eval, Int.toNat_natCast, Int.natCast_inj]
    exact Nat.eq_of_testBit_eq fun i => by rw [h, Nat.testBit_shiftRight, Nat.add_comm]

theorem Expr.Denotes.eval {env : Env} {args before : List Val} {e : Expr} {k : Int}
    (hd : e.Denotes args before k) (h : env.Is args before) : e.eval env = k := by
  obtain ⟨h1, h2⟩ := h
  induction e generalizing k with
  | lit n => exact hd.symm
  | op o a b ha hb =>
    obtain ⟨x, y, hx, hy, hs⟩ := hd
    simp only [Expr.eval, ha hx, hb hy, hs.eval]
  | lop o a ha =>
    obtain ⟨x, hx, hs⟩ := hd
    simp only [Expr.eval, ha hx, hs.eval]
  | field i =>
    obtain ⟨hi, hd⟩ := hd
    simp only [Expr.eval, h2, List.getElem?_reverse hi, hd]
  | arg i =>
    simp only [Expr.Denotes] at hd
    simp only [Expr.eval, h1, hd]

theorem Cond.Says.eval {env : Env} {args before : List Val} (h : env.Is args before) : ∀ {c : Cond} {t : Bool},
    c.Says args before t → c.eval env = t
  | .eq a b, t, hs => by
    obtain ⟨x, y, hx, hy, ht⟩ := hs
    simp only [Cond.eval, hx.eval h, hy.eval h]
    cases t <;> simp_all
  | .lt a b, t, hs => by
    obtain ⟨x, y, hx, hy, ht⟩ := hs
    simp only [Cond.eval, hx.eval h, hy.eval h]
    cases t <;> simp_all
  | .not c, t, hs => by
    have := Cond.Says.eval h (c := c) hs
    simp [Cond.eval, this]
  | .and c d, t, hs => by
    obtain ⟨x, y, hx, hy, ht⟩ := hs
    simp only [Cond.eval, Cond.Says.eval h hx, Cond.Says.eval h hy]
    cases t <;> cases x <;> cases y <;> simp_all
  | .or c d, t, hs => by
    obtain ⟨x, y, hx, hy, ht⟩ := hs
    simp only [Cond.eval, Cond.Says.eval h hx, Cond.Says.eval h hy]
    cases t <;> cases x <;> cases y <;> simp_all

theorem DAttrs.Reads.isRead {env : Env} {args before : List Val} {a : DAttrs} {t : Bool}
    (hr : a.Reads args before t) (h : env.Is args before) : a.toAttrs.isRead env = t := by
  obtain ⟨magic, pb, pa, po, skip, cond, dflt, ae, sz⟩ := a
  simp only [DAttrs.Reads] at hr
  cases skip with
  | none =>
    cases cond with
    | none => simpa [Attrs.isRead, DAttrs.toAttrs] using hr.symm
    | some c => simpa [Attrs.isRead, DAttrs.toAttrs] using Cond.Says.eval h hr
  | some s =>
    cases s <;> cases cond with
    | none => simpa [Attrs.isRead, DAttrs.toAttrs] using hr.symm
    | some c =>
      first
      | simpa [Attrs.isRead, DAttrs.toAttrs] using hr.symm
      | (have := Cond.Says.eval h hr; simp [Attrs.isRead, DAttrs.toAttrs, this])

theorem Passed.of_map {env : Env} {args before : List Val} (h : env.Is args before) (es : List Expr) :
    Passed args before es (es.map fun e => e.val env) := by
  refine ⟨by simp, fun i e k he hk => ?_⟩
  simp [he, Expr.val, hk.eval h]

/-- The variant selected is the one for the id. -/
theorem DVariants.for_of_select {vs : DVariants} {m : Machine} {env : Env} {x : Int} {i : Nat}
    (h : (vs.toVariants m).select env (.num x) = some i) : vs.For x i := by
  obtain ⟨a, ha, h⟩ := Variants.select_some.1 h
  rw [DVariants.toList_toVariants] at ha h
  rw [List.getElem?_map, Option.map_eq_some_iff] at ha
  obtain ⟨b, hb, rfl⟩ := ha
  refine ⟨b, hb, ?_⟩
  rcases h with ⟨h1, h2⟩ | ⟨h1, h2, h3⟩
  · refine .inl ⟨(VKind.hits_iff _ _).1 h1, fun j c hj hc => (VKind.hits_false_iff _ _).1 ?_⟩
    exact h2 j (c.1.toVAttrs, c.2.toFields m) hj (by simp [hc])
  · refine .inr ⟨fun c hc => (VKind.hits_false_iff _ _).1 ?_, h2, fun j c hj hc => ?_⟩
    · exact h1 (c.1.toVAttrs, c.2.toFields m) (List.mem_map.2 ⟨c, hc, rfl⟩)
    · exact h3 j (c.1.toVAttrs, c.2.toFields m) hj (by simp [hc])

/-! ### lists -/

theorem Yields.assoc {β γ τ : Type} {R : γ → Prop} {f : M τ α} {g : α → M τ β} {h : β → M τ γ}
    (hy : Yields R (f >>= fun a => g a >>= h)) : Yields R (f >>= g >>= h) := by
  intro r a r' hr he
  rw [M.bind_assoc_run] at he
  exact hy r a r' hr he

theorem Yields.unassoc {β γ τ : Type} {R : γ → Prop} {f : M τ α} {g : α → M τ β} {h : β → M τ γ}
    (hy : Yields R (f >>= g >>= h)) : Yields R (f >>= fun a => g a >>= h) := by
  intro r a r' hr he
  rw [← M.bind_assoc_run] at he
  exact hy r a r' hr he

theorem vecLoop_exactly {f : M Reader α} {start : Nat} : ∀ {mem n : Nat}, n ≠ 0 →
    Yields (fun vs => vs.length = n) (vecLoop f countPred start mem n)
  | 0, n, _ => Yields.after fun _ => Keeps.panic
  | mem + 1, n, hn => by
    refine Yields.after fun v => Yields.after fun r => Yields.after fun _ => ?_
    by_cases h1 : n = 1
    · subst h1
      exact Keeps.pure (by simp)
    · rw [if_neg (by simp [countPred]; omega)]
      refine (vecLoop_exactly (n := n - 1) (by omega)).bind fun vs h => Keeps.pure ?_
      simp [h]; omega

/-- The predicate sees the last element only. -/
theorem vecLoop_until {f : M Reader Val} {start : Nat} {n : Int} {env : Env} : ∀ {mem : Nat} {seen : List Val},
    Yields (fun vs => ∃ front, vs = front ++ [.num n] ∧ ∀ x ∈ front, x ≠ .num n)
      (vecLoop f (fun (_ : Nat) v (st : List Val) =>
        ((fun (_ : Env) (l : List Val) => decide (l.head? = some (Val.num n))) env (v :: st), v :: st)) start mem seen)
  | 0, seen => Yields.after fun _ => Keeps.panic
  | mem + 1, seen => by
    refine Yields.after fun v => Yields.after fun r => Yields.after fun _ => ?_
    by_cases h1 : v = .num n
    · subst h1
      rw [if_pos (by simp)]
      exact Keeps.pure ⟨[], rfl, by simp⟩
    · rw [if_neg (by simpa using h1)]
      refine (vecLoop_until (env := env)).bind fun vs ⟨front, hv, hf⟩ => Keeps.pure ⟨v :: front, by simp [hv], ?_⟩
      intro x hx
      rcases List.mem_cons.1 hx with rfl | hx
      · exact h1
      · exact hf x hx

theorem toUsize_yields {τ : Type} (n : Int) : Yields (fun k : Nat => (k : Int) = n) (toUsize n : M τ Nat) := by
  unfold toUsize
  exact Yields.ite (fun h => Keeps.pure (by omega)) fun _ => Keeps.throw

theorem readExact_yields (n : Nat) : Yields (fun bs => bs.length = n) (readExact n) := by
  unfold readExact
  refine Yields.after fun _ => Yields.after fun _ => Yields.after fun _ => Yields.after fun _ => ?_
  refine Yields.ite (fun _ => Yields.after fun _ => Keeps.throw) fun _ => readBytes_yields n _

/-- A list read with a limit is one the limit allows. -/
theorem Lim.read_allows {m : Machine} {env : Env} {args before : List Val} (h : env.Is args before) (l : Lim)
    (size : Nat) (hs : size ≠ 0) (f : M Reader Val) :
    Yields (fun vs => l.Allows args before vs)
      (do let lim ← l.toLimit.eval env
          vecRead m.mem size f lim : M Reader (List Val)) := by
  cases l with
  | count e =>
    simp only [Lim.toLimit, LimitE.eval]
    refine Yields.assoc ((toUsize_yields (e.eval env)).bind fun k hk => ?_)
    show Yields _ (vecRead m.mem size f (Limit.count (σ := List Val) k))
    have key : Yields (fun vs => vs.length = k) (vecRead m.mem size f (Limit.count (σ := List Val) k)) := by
      simp only [vecRead]
      refine Yields.ite (fun h => Keeps.pure (by simp [h])) fun hk => ?_
      unfold vecWithPredicate
      rw [if_neg hs]
      exact Yields.after fun _ => Yields.after fun _ => vecLoop_exactly hk
    exact key.mono fun vs hvs j hj => by rw [hvs, hk, hj.eval h]
  | «until» n =>
    simp only [Lim.toLimit, LimitE.eval, M.pure_bind]
    simp only [vecRead, vecWithPredicate]
    rw [if_neg hs]
    exact Yields.after fun _ => Yields.after fun _ => vecLoop_until (env := env)
  | bytes e =>
    simp only [Lim.toLimit, LimitE.eval]
    refine Yields.assoc ((toUsize_yields (e.eval env)).bind fun k hk => ?_)
    show Yields _ (vecRead m.mem size f (Limit.bytes (σ := List Val) k))
    by_cases h0 : k = 0
    · subst h0
      simp only [vecRead, usize, Nat.zero_mul]
      rw [if_pos (by decide)]
      exact Keeps.pure fun _ => rfl
    · exact (Yields.any _).mono fun vs _ hj => by rw [hj.eval h] at hk; omega
  | bits e =>
    simp only [Lim.toLimit, LimitE.eval]
    refine Yields.assoc ((toUsize_yields (e.eval env)).bind fun k hk => ?_)
    show Yields _ (vecRead m.mem size f (Limit.bits (σ := List Val) k))
    by_cases h0 : k = 0
    · subst h0
      exact Keeps.pure fun _ => rfl
    · exact (Yields.any _).mono fun vs _ hj => by rw [hj.eval h] at hk; omega
  | all => exact (Yields.any _).mono fun _ _ => trivial

theorem Yields.and {R S : α → Prop} {f : M Reader α} (h : Yields R f) (h' : Yields S f) :
    Yields (fun a => R a ∧ S a) f := fun r a r' hr he => ⟨trivial, (h r a r' hr he).2, (h' r a r' hr he).2⟩

/-- What a field is read as. -/
theorem DAttrs.read_conforms {R : Val → Prop} {a : DAttrs} {native : Endian} {rd : Env → M Reader Val} {env : Env}
    {args before : List Val} (h : env.Is args before) (hrd : ∀ off, Yields R (rd (env.at off))) :
    Yields (fun x => (a.Reads args before true → R x) ∧ (a.Reads args before false → x = a.default) ∧
      ∀ e k, a.assertEq = some e → e.Denotes args before k → x = .num k) (a.toAttrs.read native rd env) := by
  unfold Attrs.read
  refine Yields.after fun _ => Yields.after fun _ => Yields.after fun _ => Yields.after fun r => ?_
  refine Keeps.bind (R := fun x => (a.Reads args before true → R x) ∧ (a.Reads args before false → x = a.default)) ?_
    fun v hv => ?_
  · refine Yields.ite (fun hb => (hrd _).bind fun raw hraw => Keeps.pure ⟨fun _ => hraw, fun hf => ?_⟩)
      fun hb => Keeps.pure ⟨fun ht => ?_, fun _ => rfl⟩
    · have := hf.isRead (h.at (if a.toAttrs.usesOffset then r.bitsRead else 0))
      rw [this] at hb; cases hb
    · exact absurd (ht.isRead (h.at (if a.toAttrs.usesOffset then r.bitsRead else 0))) hb
  · refine Keeps.bind (R := fun _ => ∀ e k, a.assertEq = some e → e.Denotes args before k → v = .num k) ?_
      fun _ hc => Yields.after fun _ => Keeps.pure ⟨hv.1, hv.2, hc⟩
    unfold Attrs.check
    refine Yields.ite (fun _ => Keeps.throw) fun _ => ?_
    cases hae : a.assertEq with
    | none =>
      simp only [DAttrs.toAttrs, hae]
      exact Keeps.pure (by intro e k he; cases he)
    | some e =>
      simp only [DAttrs.toAttrs, hae]
      refine Yields.ite (fun _ => Keeps.throw) fun hx => Keeps.pure ?_
      intro e' k he hk
      cases he
      exact (Decidable.not_not.1 hx).trans (congrArg Val.num (hk.eval (h.at _)))

mutual

theorem Def.read_conforms (m : Machine) : ∀ (d : Def) (env : Env) (args before : List Val), env.Is args before →
    Yields (fun v => d.Conforms args before v) ((d.toTy m).read m env)
  | .leaf _ l, env, args, before, h => (Yields.any _).mono fun _ _ => by simp [Def.Conforms]
  | .option t, env, args, before, h => by
    simp only [Def.toTy, Ty.read]
    exact (t.read_conforms m env args before h).bind fun v hv => Keeps.pure (by
      simp only [Def.Conforms]; exact ⟨v, rfl, hv⟩)
  | .array n t, env, args, before, h => by
    simp only [Def.toTy, Ty.read]
    refine (arrayRead_keeps (t.read_conforms m env args before h) n).bind fun vs hv => Keeps.pure ?_
    simp only [Def.Conforms, elems_ofList]
    exact hv
  | .pair a b, env, args, before, h => by
    simp only [Def.toTy, Ty.read]
    exact (a.read_conforms m env args before h).bind fun x hx => (b.read_conforms m env args before h).bind fun y hy =>
      Keeps.pure (by simp only [Def.Conforms]; exact ⟨x, y, rfl, hx, hy⟩)
  | .vec z l t, env, args, before, h => by
    simp only [Def.toTy, Ty.read]
    have h1 : Yields (fun vs => ∀ x ∈ vs, t.Conforms args before x)
        (do let lim ← l.toLimit.eval env
            vecRead m.mem (if z then 0 else 1) ((t.toTy m).read m env) lim : M Reader (List Val)) :=
      Yields.after fun lim => vecRead_keeps (t.read_conforms m env args before h) (Yields.any _) _ _ _
    have h2 : Yields (fun vs => z = false → l.Allows args before vs)
        (do let lim ← l.toLimit.eval env
            vecRead m.mem (if z then 0 else 1) ((t.toTy m).read m env) lim : M Reader (List Val)) := by
      cases z with
      | true => exact (Yields.any _).mono fun _ _ hz => by cases hz
      | false => exact (Lim.read_allows h l _ (by simp) _).mono fun _ hv _ => hv
    refine Yields.unassoc ((h1.and h2).bind fun vs hv => Keeps.pure ?_)
    simp only [Def.Conforms, elems_ofList]
    exact hv
  | .bytes e ctx, env, args, before, h => by
    simp only [Def.toTy, Ty.read]
    refine (toUsize_yields (e.eval env)).bind fun k hk => ?_
    refine (readExact_yields k).bind fun bs hbs => Keeps.pure ?_
    simp only [Def.Conforms, elems_ofList, List.length_map]
    intro j hj
    rw [hbs, hk, hj.eval h]
  | .struct es magic fs, env, args, before, h => by
    simp only [Def.toTy, Ty.read]
    refine Yields.after fun _ => Yields.after fun _ => ?_
    refine (fs.read_conforms m _ (es.map fun e => e.val env) [] ⟨rfl, rfl⟩).mono fun v hv => ?_
    simp only [Def.Conforms]
    exact ⟨_, Passed.of_map h es, hv⟩
  | .enum es magic id vs, env, args, before, h => by
    simp only [Def.toTy, Ty.read]
    refine Yields.after fun _ => ?_
    have key : ∀ (x : Int) typed, typed = (match id with | .typed _ _ _ _ => true | .arg _ => false) →
        (∀ e, id = .arg e → ∀ k, e.Denotes (es.map fun e => e.val env) [] k → x = k) →
        Yields (fun v => (Def.enum es magic id vs).Conforms args before v)
          (dispatch ((vs.toVariants m).select { ctx := es.map fun e => e.val env } (.num x))
            ((vs.toVariants m).readAt m { ctx := es.map fun e => e.val env } (.num x) typed)) := by
      intro x typed htyped hx
      unfold dispatch
      split
      · exact Keeps.throw
      · rename_i i hi
        refine (vs.read_conforms m { ctx := es.map fun e => e.val env } (es.map fun e => e.val env) x typed i
          ⟨rfl, rfl⟩).bind fun fs hfs => Keeps.pure ?_
        simp only [Def.Conforms]
        subst htyped
        exact ⟨_, i, fs, x, rfl, Passed.of_map h es, DVariants.for_of_select hi, hx, hfs⟩
    cases id with
    | arg e =>
      exact key (e.eval { ctx := es.map fun e => e.val env }) false rfl fun e' he k hk => by
        cases he
        exact hk.eval ⟨rfl, rfl⟩
    | typed s W c st =>
      simp only [DId.toSrc, uintCodec]
      exact Yields.assoc (Yields.after fun n => key n true rfl (by intro e he; cases he))

theorem DFields.read_conforms (m : Machine) : ∀ (fs : DFields) (env : Env) (args before : List Val),
    env.Is args before → Yields (fun v => fs.Conforms args before v) ((fs.toFields m).read m env)
  | .nil, env, args, before, h => by
    simp only [DFields.toFields, Fields.read]
    exact Keeps.pure (by simp [DFields.Conforms])
  | .cons a t rest, env, args, before, h => by
    simp only [DFields.toFields, Fields.read]
    refine (DAttrs.read_conforms h fun off => t.read_conforms m (env.at off) args before (h.at off)).bind fun x hx =>
      (rest.read_conforms m _ args (before ++ [x]) (h.push x)).bind fun xs hxs => Keeps.pure ?_
    simp only [DFields.Conforms]
    exact ⟨x, xs, rfl, hx.1, hx.2.1, hx.2.2, hxs⟩
  | .temp a t value rest, env, args, before, h => by
    simp only [DFields.toFields, Fields.read]
    refine (DAttrs.read_conforms h fun off => t.read_conforms m (env.at off) args before (h.at off)).bind fun x hx =>
      (rest.read_conforms m _ args (before ++ [x]) (h.push x)).mono fun xs hxs => ?_
    simp only [DFields.Conforms]
    exact ⟨x, hx.1, hx.2.1, hx.2.2, hxs⟩

theorem DVariants.read_conforms (m : Machine) : ∀ (vs : DVariants) (env : Env) (args : List Val) (x : Int)
    (typed : Bool) (i : Nat), env.Is args [] →
    Yields (fun v => vs.ConformsAt typed args x i v) ((vs.toVariants m).readAt m env (.num x) typed i)
  | .nil, env, args, x, typed, i, h => by
    simp only [DVariants.toVariants, Variants.readAt]
    exact Keeps.panic
  | .cons a fs rest, env, args, x, typed, 0, h => by
    simp only [DVariants.toVariants, Variants.readAt]
    have hp : a.toVAttrs.idPat = a.kind.isPat := rfl
    rw [hp]
    refine Yields.ite (fun hb => ?_) fun hb => ?_
    · simp only [Bool.and_eq_true] at hb
      cases fs with
      | nil =>
        simp only [DFields.toFields, Fields.readStored]
        refine Keeps.pure ?_
        simp [DVariants.ConformsAt, hb, DFields.ConformsStored]
      | cons a' t tl =>
        simp only [DFields.toFields, Fields.readStored]
        refine (tl.read_conforms m _ args [.num x] (h.push _)).bind fun xs hxs => Keeps.pure ?_
        simp [DVariants.ConformsAt, hb, DFields.ConformsStored, hxs]
      | temp a' t val tl =>
        simp only [DFields.toFields, Fields.readStored]
        refine (tl.read_conforms m _ args [.num x] (h.push _)).mono fun xs hxs => ?_
        simp [DVariants.ConformsAt, hb, DFields.ConformsStored, hxs]
    · refine (fs.read_conforms m env args [] h).mono fun v hv => ?_
      simp only [DVariants.ConformsAt]
      refine ⟨fun h1 h2 => absurd (by simp [h1, h2]) hb, fun _ => hv⟩
  | .cons a fs rest, env, args, x, typed, i + 1, h => by
    simp only [DVariants.toVariants, Variants.readAt, DVariants.ConformsAt]
    exact rest.read_conforms m env args x typed i h

end

end Deku
