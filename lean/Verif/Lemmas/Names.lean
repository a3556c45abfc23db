import Verif.Spec.Names
import Verif.Lemmas.Chain
import Verif.Lemmas.FitsSound

/-!
# Names and numbers
-/

namespace Deku

variable {α β σ : Type}

theorem M.bind_congr {x : M σ α} {f g : α → M σ β} (h : ∀ a, f a = g a) : (x >>= f) = (x >>= g) :=
  congrArg (x >>= ·) (funext h)

theorem Env.scope_push (as ns : List Name) (env : Env) (n : Name) (v : Val) (k : Name) :
    ((env.push v).scope as (n :: ns)).get k = ((env.scope as ns).bind n v).get k := by
  simp only [Env.scope, Env.push, Names.bind, List.zip_cons_cons, List.cons_append, List.lookup_cons]
  by_cases h : k = n
  · simp [h]
  · have : (k == n) = false := by simpa using h
    simp [h, this]

theorem Env.scope_params (args : List (Name × (Names → Val))) (sc : Names) (k : Name) :
    (Names.params (args.map fun p => (p.1, p.2 sc))).get k =
    (({ ctx := args.map fun p => p.2 sc } : Env).scope (args.map (·.1)) []).get k := by
  simp only [Names.params, Env.scope, List.zip_nil_left, List.nil_append, List.zip_map_left, List.zip_map_right]
  congr 1
  induction args with
  | nil => rfl
  | cons a l ih => simp_all

/-! ### Reading -/

/-- Two scopes in which the expressions that may mention `deku::bit_offset` if `o` have the same values. -/
structure Alike (N : List Name) (o : Bool) (sc sc' : Names) : Prop where
  get : ∀ n, n ∉ N → sc.get n = sc'.get n
  off : o = true → sc.off = sc'.off

theorem Ignores.app {X : Type} {f : Names → X} {N : List Name} {o : Bool} (h : Ignores f N o) {sc sc' : Names}
    (ha : Alike N o sc sc') : f sc = f sc' := h sc sc' ha.get ha.off

theorem Alike.left {N : List Name} {o o' : Bool} {sc sc' : Names} (h : Alike N o sc sc') : Alike N (o && o') sc sc' :=
  ⟨h.get, fun ho => h.off (by simp_all)⟩

theorem Alike.right {N : List Name} {o o' : Bool} {sc sc' : Names} (h : Alike N o' sc sc') : Alike N (o && o') sc sc' :=
  ⟨h.get, fun ho => h.off (by simp_all)⟩

theorem NExpr.ignores {N : List Name} {o : Bool} : ∀ e : NExpr, (∀ n ∈ e.free, n ∉ N) → (e.here = true → o = true) → Ignores e.eval N o
  | .lit _, _, _ => fun _ _ _ _ => rfl
  | .name n, h, _ => fun sc sc' hg _ => by simp only [NExpr.eval, hg n (h n (by simp [NExpr.free]))]
  | .offset, _, h => fun sc sc' _ ho => by simp only [NExpr.eval, ho (h rfl)]
  | .add a b, h, h' => fun sc sc' hg ho => by
    simp only [NExpr.eval]
    rw [a.ignores (fun n hn => h n (by simp [NExpr.free, hn])) (fun hh => h' (by simp [NExpr.here, hh])) sc sc' hg ho,
      b.ignores (fun n hn => h n (by simp [NExpr.free, hn])) (fun hh => h' (by simp [NExpr.here, hh])) sc sc' hg ho]
  | .mod a b, h, h' => fun sc sc' hg ho => by
    simp only [NExpr.eval]
    rw [a.ignores (fun n hn => h n (by simp [NExpr.free, hn])) (fun hh => h' (by simp [NExpr.here, hh])) sc sc' hg ho,
      b.ignores (fun n hn => h n (by simp [NExpr.free, hn])) (fun hh => h' (by simp [NExpr.here, hh])) sc sc' hg ho]

theorem Ignores.comp {X Y : Type} {f : Names → X} {N : List Name} {o : Bool} (h : Ignores f N o) (g : X → Y) :
    Ignores (fun sc => g (f sc)) N o := fun sc sc' h1 h2 => congrArg g (h sc sc' h1 h2)

theorem Ignores.const {X : Type} (x : X) (N : List Name) (o : Bool) : Ignores (fun _ => x) N o := fun _ _ _ _ => rfl

theorem Alike.weaken {N N' : List Name} {o : Bool} {sc sc' : Names} (h : Alike N o sc sc') (hn : ∀ n ∈ N, n ∈ N') :
    Alike N' o sc sc' := ⟨fun n hn' => h.get n fun hh => hn' (hn n hh), h.off⟩

theorem NAttrs.isRead_eq {a : NAttrs} {as ns N : List Name} {n : Name} {o : Bool} {sc : Names} {env : Env}
    (hc : ∀ f, a.cond = some f → Ignores f N o) (ha : Alike N o sc (env.scope as ns)) :
    a.isRead sc = (a.inst as ns n).isRead env := by
  unfold NAttrs.isRead Attrs.isRead NAttrs.inst
  cases h : a.cond with
  | none => rcases a.skip with _ | _ | _ | _ <;> rfl
  | some f =>
    have := (hc f h).app ha
    rcases a.skip with _ | _ | _ | _ <;> simp [this]

theorem NAttrs.isWritten_eq {a : NAttrs} {as ns N : List Name} {n : Name} {o : Bool} {sc : Names} {env : Env}
    (hc : ∀ f, a.cond = some f → Ignores f N o) (ha : Alike N o sc (env.scope as ns)) :
    a.isWritten sc = (a.inst as ns n).isWritten env := by
  unfold NAttrs.isWritten Attrs.isWritten NAttrs.inst
  cases h : a.cond with
  | none => rcases a.skip with _ | _ | _ | _ <;> rfl
  | some f =>
    have := (hc f h).app ha
    rcases a.skip with _ | _ | _ | _ <;> simp [this]

theorem NAttrs.check_eq {a : NAttrs} {as ns N C : List Name} {n : Name} {o : Bool} {sc : Names} {env : Env} {v : Val}
    (h1 : Ignores a.assert C o) (h2 : Ignores a.assertEq N o)
    (ha1 : Alike C o sc ((env.scope as ns).bind n v)) (ha2 : Alike N o sc (env.scope as ns)) :
    (a.check sc v : M σ Unit) = (a.inst as ns n).check env v := by
  unfold NAttrs.check Attrs.check NAttrs.inst
  simp only [h1.app ha1, h2.app ha2]
  rfl

theorem padRead_congr (o : Option Order) {p q : Option (Env → Int)} {e e' : Env}
    (h : p.map (fun f => f e) = q.map (fun f => f e')) : padRead o p e = padRead o q e' := by
  cases p <;> cases q <;> simp_all [padRead]

theorem padWrite_congr (o : Option Order) {p q : Option (Env → Int)} {e e' : Env}
    (h : p.map (fun f => f e) = q.map (fun f => f e')) : padWrite o p e = padWrite o q e' := by
  cases p <;> cases q <;> simp_all [padWrite]

theorem seekRead_congr {p q : Option (Env → Option SeekFrom)} {e e' : Env}
    (h : p.map (fun f => f e) = q.map (fun f => f e')) : seekRead p e = seekRead q e' := by
  cases p <;> cases q <;> simp_all [seekRead]

theorem seekWrite_congr {p q : Option (Env → Option SeekFrom)} {e e' : Env}
    (h : p.map (fun f => f e) = q.map (fun f => f e')) : seekWrite p e = seekWrite q e' := by
  cases p <;> cases q <;> simp_all [seekWrite]

theorem Ignores.opt {X : Type} {p : Option (Names → X)} {N : List Name} {o : Bool} (h : ∀ f, p = some f → Ignores f N o)
    {sc : Names} {as ns : List Name} {env : Env} (ha : Alike N o sc (env.scope as ns)) :
    (p.map fun f (_ : Env) => f sc).map (fun f => f {}) = (p.map fun f env => f (Env.scope as ns env)).map fun f => f env := by
  cases p with
  | none => rfl
  | some f => simp [(h f rfl).app ha]

theorem NAttrs.read_eq {a : NAttrs} {B C A : List Name} (hs : a.Settled B C A) (native : Endian)
    {rd : Names → M Reader Val} {rd' : Env → M Reader Val} {n : Name} {sc : Names} {env : Env} {as ns : List Name}
    (hg : ∀ k, sc.get k = (env.scope as ns).get k)
    (hrd : ∀ sc env, (∀ k, sc.get k = (Env.scope as ns env).get k) → (a.usesRead = true → sc.off = env.off) → rd sc = rd' env)
    (hn : Ignores a.assertEq B (a.usesRead && a.usesWrite) → n ∈ B)
    {k : Val × Names → M Reader β} {k' : Val → M Reader β}
    (hk : ∀ v sc, (∀ i, sc.get i = ((env.push v).scope as (n :: ns)).get i) → k (v, sc) = k' v) :
    (a.read native rd n sc >>= k) = ((a.inst as ns n).read native rd' env >>= k') := by
  unfold NAttrs.read Attrs.read
  simp only [M.bind_assoc]
  have hal : Alike B false sc (env.scope as ns) := ⟨fun i _ => hg i, fun h => by simp at h⟩
  rw [seekRead_congr (Ignores.opt hs.seek hal)]
  refine M.bind_congr fun _ => M.bind_congr fun _ => ?_
  rw [padRead_congr a.padOrder (Ignores.opt hs.padBefore hal)]
  refine M.bind_congr fun _ => M.bind_congr fun r => ?_
  generalize hsc1 : (if a.usesRead = true then sc.at r.bitsRead else sc) = sc1
  generalize henv1 : env.at (if (a.inst as ns n).usesOffset = true then r.bitsRead else 0) = env1
  have hg1 : ∀ k, sc1.get k = (env1.scope as ns).get k := by
    intro k
    subst hsc1 henv1
    rw [← show (env.scope as ns).get k = ((env.at (if (a.inst as ns n).usesOffset = true then r.bitsRead else 0)).scope as ns).get k from rfl, ← hg k]
    split <;> rfl
  have ho1 : a.usesRead = true → sc1.off = env1.off := by
    intro h
    subst hsc1 henv1
    simp [h, NAttrs.inst, Names.at, Env.at]
  have hal1 : ∀ N, Alike N a.usesRead sc1 (env1.scope as ns) := fun N => ⟨fun i _ => hg1 i, ho1⟩
  have hv : a.value rd sc1 = (a.inst as ns n).value rd' env1 := by
    unfold NAttrs.value Attrs.value Attrs.applyMap
    rw [show (a.inst as ns n).map env1 = a.map sc1 from (hs.map.app (hal1 _)).symm,
      show (a.inst as ns n).default env1 = a.default sc1 from (hs.default.app (hal1 _)).symm,
      NAttrs.isRead_eq hs.cond (hal1 _).left, hrd sc1 env1 hg1 ho1]
    rfl
  rw [hv]
  refine M.bind_congr fun v => ?_
  have hgv : ∀ k, (sc1.bind n v).get k = ((env1.scope as ns).bind n v).get k := fun k => by
    simp only [Names.bind]; rw [hg1 k]
  have hch : (a.check (sc1.bind n v) v : M Reader Unit) = (a.inst as ns n).check env1 v :=
    NAttrs.check_eq hs.assert hs.assertEq (Alike.left ⟨fun k _ => hgv k, ho1⟩) (Alike.left ⟨fun k hkB => by
      have hne : k ≠ n := fun h => hkB (h ▸ hn hs.assertEq)
      rw [← hg1 k]; simp [Names.bind, hne], ho1⟩)
  rw [hch]
  refine M.bind_congr fun _ => ?_
  have hgp : ∀ k, (sc1.bind n v).get k = ((env1.push v).scope as (n :: ns)).get k := fun k => by
    rw [hgv, Env.scope_push]
  have hpa : Alike A a.usesRead (sc1.bind n v) ((env1.push v).scope as (n :: ns)) := ⟨fun k _ => hgp k, ho1⟩
  rw [show padRead a.padOrder (a.padAfter.map fun f _ => f (sc1.bind n v)) {} = padRead (a.inst as ns n).padOrder (a.inst as ns n).padAfter (env1.push v) from
    padRead_congr a.padOrder (Ignores.opt hs.padAfter hpa.left)]
  refine M.bind_congr fun _ => ?_
  rw [M.pure_bind, M.pure_bind]
  refine hk v _ fun i => ?_
  rw [hgp i]
  subst henv1
  rfl

theorem NLimit.eval_eq {l : NLimit} {o : Bool} (hl : l.Settled o) {sc : Names} {as ns : List Name} {env : Env}
    (ha : Alike [] o sc (env.scope as ns)) : (l.inst fun _ => sc).eval {} = (l.inst (Env.scope as ns)).eval env := by
  cases l with
  | count n => simp only [NLimit.inst, LimitE.eval, Ignores.app hl ha]
  | «until» p => simp only [NLimit.inst, LimitE.eval, Ignores.app hl ha]
  | bytes n => simp only [NLimit.inst, LimitE.eval, Ignores.app hl ha]
  | bits n => simp only [NLimit.inst, LimitE.eval, Ignores.app hl ha]
  | «end» => rfl

theorem args_eq {args : List (Name × (Names → Val))} {N : List Name} {o : Bool} (h : ∀ p ∈ args, Ignores p.2 N o)
    {sc sc' : Names} (ha : Alike N o sc sc') :
    args.map (fun p => (p.1, p.2 sc)) = args.map fun p => (p.1, p.2 sc') :=
  List.map_congr_left fun p hp => by rw [(h p hp).app ha]

theorem NVariants.firstMatch_eq {as : List Name} {sc : Names} {env : Env} (h : sc = env.scope as []) (id : Val) :
    ∀ (vs : NVariants) (i : Nat), vs.firstMatch sc id i = (vs.toVariants as).firstMatch env id i
  | .nil, _ => by simp [NVariants.firstMatch, NVariants.toVariants, Variants.firstMatch]
  | .cons a fs tl, i => by
    simp only [NVariants.firstMatch, NVariants.toVariants, Variants.firstMatch]
    rw [firstMatch_eq h id tl (i + 1)]
    subst h
    rfl

theorem NVariants.defaultAt_eq (as : List Name) :
    ∀ (vs : NVariants) (i : Nat), vs.defaultAt i = (vs.toVariants as).defaultAt i
  | .nil, _ => by simp [NVariants.defaultAt, NVariants.toVariants, Variants.defaultAt]
  | .cons a fs tl, i => by
    simp only [NVariants.defaultAt, NVariants.toVariants, Variants.defaultAt]
    rw [defaultAt_eq as tl (i + 1)]
    rfl

theorem NVariants.select_eq {as : List Name} {sc : Names} {env : Env} (h : sc = env.scope as []) (id : Val)
    (vs : NVariants) : vs.select sc id = (vs.toVariants as).select env id := by
  unfold NVariants.select Variants.select
  rw [firstMatch_eq h, defaultAt_eq as]
  rfl

theorem Names.ext' {sc sc' : Names} (h : ∀ n, sc.get n = sc'.get n) (ho : sc.off = sc'.off) : sc = sc' := by
  cases sc; cases sc'
  simp only [Names.mk.injEq]
  exact ⟨funext h, ho⟩

/-- The scope in a struct or enum. -/
theorem params_eq (args : List (Name × (Names → Val))) (sc : Names) :
    Names.params (args.map fun p => (p.1, p.2 sc)) =
    ({ ctx := args.map fun p => p.2 sc } : Env).scope (args.map (·.1)) [] :=
  Names.ext' (Env.scope_params args sc) rfl

theorem args_eq' {args : List (Name × (Names → Val))} {N : List Name} {o : Bool} (h : ∀ p ∈ args, Ignores p.2 N o)
    {sc sc' : Names} (ha : Alike N o sc sc') : args.map (fun p => p.2 sc) = args.map fun p => p.2 sc' :=
  List.map_congr_left fun p hp => (h p hp).app ha

mutual

theorem NTy.read_eq (m : Machine) : ∀ (t : NTy) (N : List Name) (o o' : Bool), t.Settled N o o' →
    ∀ (as ns : List Name) (sc : Names) (env : Env), (∀ k, sc.get k = (env.scope as ns).get k) →
    (o = true → sc.off = env.off) → t.read m sc = (t.toTy as ns).read m env
  | .prim _ c, N, o, o', h, as, ns, sc, env, hg, ho => by
    simp only [NTy.read, NTy.toTy, Ty.read]
    rw [Ignores.app h (Alike.left ⟨fun k _ => hg k, ho⟩)]
  | .option t, N, o, o', h, as, ns, sc, env, hg, ho => by
    simp only [NTy.read, NTy.toTy, Ty.read]
    rw [t.read_eq m N o o' h as ns sc env hg ho]
  | .array n t, N, o, o', h, as, ns, sc, env, hg, ho => by
    simp only [NTy.read, NTy.toTy, Ty.read]
    rw [t.read_eq m N o o' h as ns sc env hg ho]
  | .pair a b, N, o, o', h, as, ns, sc, env, hg, ho => by
    simp only [NTy.read, NTy.toTy, Ty.read]
    rw [a.read_eq m N o o' h.1 as ns sc env hg ho, b.read_eq m N o o' h.2 as ns sc env hg ho]
  | .vec size l t, N, o, o', h, as, ns, sc, env, hg, ho => by
    simp only [NTy.read, NTy.toTy, Ty.read]
    rw [t.read_eq m N o o' h.2 as ns sc env hg ho, NLimit.eval_eq h.1 ⟨fun k _ => hg k, ho⟩]
  | .bytes n _, N, o, o', h, as, ns, sc, env, hg, ho => by
    simp only [NTy.read, NTy.toTy, Ty.read]
    rw [Ignores.app h.1 ⟨fun k _ => hg k, ho⟩]
  | .struct args seek magic fs, N, o, o', h, as, ns, sc, env, hg, ho => by
    obtain ⟨h1, h2, h3, h4⟩ := h
    simp only [NTy.read, NTy.toTy, Ty.read]
    rw [params_eq, args_eq' h1 (sc := sc) (sc' := env.scope as ns) (Alike.left ⟨fun k _ => hg k, ho⟩)]
    rw [fs.read_eq m [] h4 _ _ _ _ (fun k => rfl)]
    cases seek <;> rfl
  | .enum args magic id store vs, N, o, o', h, as, ns, sc, env, hg, ho => by
    obtain ⟨h1, h2⟩ := h
    simp only [NTy.read, NTy.toTy, Ty.read]
    rw [params_eq, args_eq' h1 (sc := sc) (sc' := env.scope as ns) (Alike.left ⟨fun k _ => hg k, ho⟩)]
    have hv := vs.readAt_eq m id store h2 (args.map (·.1)) _ { ctx := args.map fun p => p.2 (env.scope as ns) } rfl
    cases id with
    | ctx e =>
      simp only [NId.inst]
      rw [NVariants.select_eq rfl, hv]
    | typed size c =>
      simp only [NId.inst]
      refine M.bind_congr fun _ => M.bind_congr fun x => ?_
      rw [NVariants.select_eq rfl, hv]

theorem NFields.read_eq (m : Machine) : ∀ (fs : NFields) (gone : List Name), fs.Settled gone →
    ∀ (as ns : List Name) (sc : Names) (env : Env), (∀ k, sc.get k = (env.scope as ns).get k) →
    fs.read m sc = (fs.toFields as ns).read m env
  | .nil, _, _, as, ns, sc, env, _ => by simp only [NFields.read, NFields.toFields, Fields.read]
  | .cons n a t tl, gone, h, as, ns, sc, env, hg => by
    obtain ⟨ha, ht, hr⟩ := h
    simp only [NFields.read, NFields.toFields, Fields.read]
    refine NAttrs.read_eq ha m.native hg (fun sc env h1 h2 => t.read_eq m _ _ _ ht as ns sc env h1 h2) (fun _ => by simp) fun v sc' hg' => ?_
    dsimp only
    rw [tl.read_eq m gone hr as (n :: ns) sc' (env.push v) hg']
  | .temp n a t value tl, gone, h, as, ns, sc, env, hg => by
    obtain ⟨ha, ht, hr⟩ := h
    simp only [NFields.read, NFields.toFields, Fields.read]
    refine NAttrs.read_eq ha m.native hg (fun sc env h1 h2 => t.read_eq m _ _ _ ht as ns sc env h1 h2) (fun _ => by simp) fun v sc' hg' => ?_
    dsimp only
    rw [tl.read_eq m _ hr as (n :: ns) sc' (env.push v) hg']

theorem NFields.readStored_eq (m : Machine) : ∀ (fs : NFields) (gone : List Name), fs.Settled gone →
    ∀ (as : List Name) (sc : Names) (env : Env) (id : Val), sc = env.scope as [] →
    fs.readStored m sc id = (fs.toFields as []).readStored m env id
  | .nil, _, _, as, sc, env, id, _ => by simp only [NFields.readStored, NFields.toFields, Fields.readStored]
  | .cons n a t tl, gone, h, as, sc, env, id, hg => by
    obtain ⟨ha, ht, hr⟩ := h
    simp only [NFields.readStored, NFields.toFields, Fields.readStored]
    rw [tl.read_eq m gone hr as [n] (sc.bind n id) (env.push id) (fun k => by rw [Env.scope_push, hg])]
  | .temp n a t value tl, gone, h, as, sc, env, id, hg => by
    obtain ⟨ha, ht, hr⟩ := h
    simp only [NFields.readStored, NFields.toFields, Fields.readStored]
    rw [tl.read_eq m _ hr as [n] (sc.bind n id) (env.push id) (fun k => by rw [Env.scope_push, hg])]

theorem NVariants.readAt_eq (m : Machine) : ∀ (vs : NVariants) (id : NId) (store : Nat → Names → Val → M Writer Unit),
    vs.Settled id store → ∀ (as : List Name) (sc : Names) (env : Env), sc = env.scope as [] → 
    vs.readAt m sc = (vs.toVariants as).readAt m env
  | .nil, _, _, _, as, sc, env, _ => by
    funext x b i; simp only [NVariants.readAt, NVariants.toVariants, Variants.readAt]
  | .cons a fs tl, id, store, h, as, sc, env, hg => by
    obtain ⟨h1, h2, h3, h4, h5⟩ := h
    have ih := tl.readAt_eq m id store h5 as sc env hg
    funext x b i
    cases i with
    | zero =>
      simp only [NVariants.readAt, NVariants.toVariants, Variants.readAt]
      rw [fs.read_eq m [] h4 as [] sc env (fun k => by rw [hg]), fs.readStored_eq m [] h4 as sc env x hg]
      rfl
    | succ i =>
      simp only [NVariants.readAt, NVariants.toVariants, Variants.readAt]
      rw [ih]

end

/-! ### Writing -/

theorem NAttrs.write_eq {a : NAttrs} {B C A : List Name} (hs : a.Settled B C A) (native : Endian)
    {wr : Names → Val → M Writer Unit} {wr' : Env → Val → M Writer Unit} {decl : Names → Names} {n : Name} {sc : Names} {env : Env}
    {as ns : List Name} {v : Val}
    (hB : ∀ k, k ∉ B → sc.get k = (env.scope as ns).get k)
    (hC : ∀ k, k ∉ C → sc.get k = ((env.scope as ns).bind n v).get k)
    (hdB : ∀ k, k ∉ B → (decl sc).get k = (env.scope as ns).get k)
    (hdA : ∀ k, k ∉ A → (decl sc).get k = ((env.push v).scope as (n :: ns)).get k)
    (hd : ∀ sc off, decl (sc.at off) = (decl sc).at off) (hoff : ∀ sc, (decl sc).off = sc.off)
    (hwr : ∀ sc env v, Alike B a.usesWrite sc (Env.scope as ns env) → wr sc v = wr' env v)
    {k : Names → M Writer β} {k' : Unit → M Writer β}
    (hk : ∀ sc', (∀ i, sc'.get i = (decl sc).get i) → k sc' = k' ()) :
    (a.write native wr decl sc v >>= k) = ((a.inst as ns n).write native wr' env v >>= k') := by
  unfold NAttrs.write Attrs.write
  simp only [M.bind_assoc]
  have hal : Alike B false sc (env.scope as ns) := ⟨hB, fun h => by simp at h⟩
  rw [seekWrite_congr (Ignores.opt hs.seek hal)]
  refine M.bind_congr fun _ => M.bind_congr fun _ => ?_
  rw [padWrite_congr a.padOrder (Ignores.opt hs.padBefore hal)]
  refine M.bind_congr fun _ => M.bind_congr fun w => ?_
  generalize hsc1 : (if a.usesWrite = true then sc.at w.bitsWritten else sc) = sc1
  generalize henv1 : env.at (if (a.inst as ns n).usesOffset = true then w.bitsWritten else 0) = env1
  have hget : ∀ k, sc1.get k = sc.get k := by subst hsc1; intro k; split <;> rfl
  have hdget : ∀ k, (decl sc1).get k = (decl sc).get k := by
    subst hsc1; intro k
    split
    · rw [hd]; rfl
    · rfl
  have henv : (env1.scope as ns).get = (env.scope as ns).get := by subst henv1; rfl
  have ho1 : a.usesWrite = true → sc1.off = (env1.scope as ns).off := by
    intro h
    subst hsc1 henv1
    simp [h, NAttrs.inst, Names.at, Env.at, Env.scope]
  have hal1 : Alike B a.usesWrite sc1 (env1.scope as ns) := ⟨fun k hk => by rw [hget, henv, hB k hk], ho1⟩
  have hal2 : Alike B a.usesWrite (decl sc1) (env1.scope as ns) :=
    ⟨fun k hk => by rw [hdget, henv, hdB k hk], fun h => by rw [hoff, ho1 h]⟩
  have hch : (a.check sc1 v : M Writer Unit) = (a.inst as ns n).check env1 v :=
    NAttrs.check_eq hs.assert hs.assertEq (Alike.right ⟨fun k hk => by
      rw [hget, hC k hk]; simp only [Names.bind]; rw [henv], ho1⟩) hal1.right
  rw [hch]
  refine M.bind_congr fun _ => ?_
  have hput : a.put wr (decl sc1) v = (a.inst as ns n).put wr' env1 v := by
    unfold NAttrs.put Attrs.put
    rw [show (a.inst as ns n).unmap env1 = a.unmap (decl sc1) from (hs.unmap.app hal2).symm,
      NAttrs.isWritten_eq hs.cond hal2.right, hwr _ _ _ hal2]
  rw [hput]
  refine M.bind_congr fun _ => ?_
  have hpa : Alike A a.usesWrite (decl sc1) ((env1.push v).scope as (n :: ns)) :=
    ⟨fun k hk => by rw [hdget, hdA k hk]; subst henv1; rfl, fun h => by rw [hoff, ho1 h]; rfl⟩
  rw [show padWrite a.padOrder (a.padAfter.map fun f _ => f (decl sc1)) {} = padWrite (a.inst as ns n).padOrder (a.inst as ns n).padAfter (env1.push v) from
    padWrite_congr a.padOrder (Ignores.opt hs.padAfter hpa.right)]
  refine M.bind_congr fun _ => ?_
  rw [M.pure_bind]
  exact hk _ hdget

/-- The fields that are still to be written are bound. -/
def NFields.Holds : NFields → Names → Val → Prop
  | .nil, _, _ => True
  | .cons n _ _ rest, sc, v => ∀ x xs, v = .cons x xs → sc.get n = some x ∧ rest.Holds sc xs
  | .temp _ _ _ _ rest, sc, v => rest.Holds sc v

theorem NFields.Holds.congr {sc sc' : Names} : ∀ (fs : NFields) (v : Val), (∀ n ∈ fs.names, sc'.get n = sc.get n) →
    fs.Holds sc v → fs.Holds sc' v
  | .nil, _, _, _ => trivial
  | .cons n a t tl, v, h, hh => fun x xs hv => by
    obtain ⟨h1, h2⟩ := hh x xs hv
    exact ⟨by rw [h n (by simp [NFields.names]), h1], NFields.Holds.congr tl xs (fun k hk => h k (by simp [NFields.names, hk])) h2⟩
  | .temp n a t value tl, v, h, hh => NFields.Holds.congr tl v h hh

theorem NFields.names_sub : ∀ fs : NFields, fs.names.Sublist fs.allNames
  | .nil => List.Sublist.slnil
  | .cons n _ _ tl => tl.names_sub.cons_cons n
  | .temp n _ _ _ tl => tl.names_sub.cons n

theorem Names.bindAll_get {k : Name} : ∀ (ns : List Name) (vs : List Val) (sc : Names), k ∉ ns →
    (sc.bindAll ns vs).get k = sc.get k
  | [], _, _, _ => by simp [Names.bindAll]
  | _ :: _, [], _, _ => by simp [Names.bindAll]
  | n :: ns, v :: vs, sc, h => by
    simp only [List.mem_cons, not_or] at h
    simp only [Names.bindAll]
    rw [Names.bindAll_get ns vs _ h.2]
    simp [Names.bind, h.1]

theorem Names.bindAll_off : ∀ (ns : List Name) (vs : List Val) (sc : Names), (sc.bindAll ns vs).off = sc.off
  | [], _, _ => by simp [Names.bindAll]
  | _ :: _, [], _ => by simp [Names.bindAll]
  | n :: ns, v :: vs, sc => by
    simp only [Names.bindAll]
    rw [Names.bindAll_off ns vs]
    rfl

theorem NFields.holds_bindAll : ∀ (fs : NFields) (v : Val) (sc : Names), fs.names.Nodup →
    fs.Holds (sc.bindAll fs.names v.elems) v
  | .nil, _, _, _ => trivial
  | .cons n a t tl, v, sc, h => fun x xs hv => by
    subst hv
    simp only [NFields.names, List.nodup_cons] at h
    simp only [NFields.names, Val.elems, Names.bindAll]
    exact ⟨by rw [Names.bindAll_get _ _ _ h.1]; simp [Names.bind], tl.holds_bindAll xs _ h.2⟩
  | .temp n a t value tl, v, sc, h => tl.holds_bindAll v sc h

theorem Env.scope_pushed {as ns N : List Name} {n : Name} {v : Val} {env : Env} {sc : Names}
    (hg : ∀ k, k ∉ n :: N → sc.get k = (env.scope as ns).get k) (hn : sc.get n = some v) :
    ∀ k, k ∉ N → sc.get k = ((env.push v).scope as (n :: ns)).get k := by
  intro k hk
  rw [Env.scope_push]
  by_cases h : k = n
  · subst h; simp [Names.bind, hn]
  · simp only [Names.bind, h, if_false]
    exact hg k (by simp [h, hk])

theorem Env.scope_unpushed {as ns N : List Name} {n : Name} {v : Val} {env : Env} {sc : Names}
    (hg : ∀ k, k ∉ n :: N → sc.get k = (env.scope as ns).get k) :
    ∀ k, k ∉ n :: N → sc.get k = ((env.push v).scope as (n :: ns)).get k := by
  intro k hk
  rw [Env.scope_push]
  have h : k ≠ n := fun h => hk (by simp [h])
  simp only [Names.bind, h, if_false]
  exact hg k hk

mutual

theorem NTy.write_eq (m : Machine) : ∀ (t : NTy) (N : List Name) (o o' : Bool), t.Settled N o o' →
    ∀ (as ns : List Name) (sc : Names) (env : Env) (v : Val), Alike N o' sc (env.scope as ns) →
    t.write m sc v = (t.toTy as ns).write m env v
  | .prim _ c, N, o, o', h, as, ns, sc, env, v, ha => by
    simp only [NTy.write, NTy.toTy, Ty.write]
    rw [Ignores.app h ha.right]
  | .option t, N, o, o', h, as, ns, sc, env, v, ha => by
    simp only [NTy.write, NTy.toTy, Ty.write]
    cases v <;> first | rfl | exact t.write_eq m N o o' h as ns sc env _ ha
  | .array n t, N, o, o', h, as, ns, sc, env, v, ha => by
    simp only [NTy.write, NTy.toTy, Ty.write]
    rw [funext fun x => t.write_eq m N o o' h as ns sc env x ha]
  | .pair a b, N, o, o', h, as, ns, sc, env, v, ha => by
    simp only [NTy.write, NTy.toTy, Ty.write]
    rw [funext fun x => a.write_eq m N o o' h.1 as ns sc env x ha, funext fun x => b.write_eq m N o o' h.2 as ns sc env x ha]
    rfl
  | .vec size l t, N, o, o', h, as, ns, sc, env, v, ha => by
    simp only [NTy.write, NTy.toTy, Ty.write]
    rw [funext fun x => t.write_eq m N o o' h.2 as ns sc env x ha]
  | .bytes n _, N, o, o', h, as, ns, sc, env, v, ha => by
    simp only [NTy.write, NTy.toTy, Ty.write]
    rw [Ignores.app h.2 ha]
  | .struct args seek magic fs, N, o, o', h, as, ns, sc, env, v, ha => by
    obtain ⟨h1, h2, h3, h4⟩ := h
    simp only [NTy.write, NTy.toTy, Ty.write]
    rw [params_eq, args_eq' h1 ha.right]
    have hb : ∀ k, k ∉ fs.names → ((Env.scope (args.map (·.1)) [] { ctx := args.map fun p => p.2 (env.scope as ns) }).bindAll fs.names v.elems).get k =
      (Env.scope (args.map (·.1)) [] { ctx := args.map fun p => p.2 (env.scope as ns) }).get k := fun k hk => Names.bindAll_get _ _ _ hk
    rw [seekWrite_congr (Ignores.opt h2 ⟨hb, fun _ => Names.bindAll_off _ _ _⟩)]
    rw [fs.write_eq m [] h4 h3 _ [] _ _ v v (by simpa using hb) (fs.holds_bindAll v _ (fs.names_sub.nodup h3))]
  | .enum args magic id store vs, N, o, o', h, as, ns, sc, env, v, ha => by
    obtain ⟨h1, h2⟩ := h
    simp only [NTy.write, NTy.toTy, Ty.write]
    rw [params_eq, args_eq' h1 ha.right]
    cases v <;> first | rfl | skip
    dsimp only
    refine M.bind_congr fun _ => ?_
    exact vs.writeAt_eq m id store h2 (args.map (·.1)) _ _ rfl _ _ _

theorem NFields.write_eq (m : Machine) : ∀ (fs : NFields) (gone : List Name), fs.Settled gone → fs.allNames.Nodup →
    ∀ (as ns : List Name) (sc : Names) (env : Env) (all v : Val), (∀ k, k ∉ fs.names ++ gone → sc.get k = (env.scope as ns).get k) →
    fs.Holds sc v → fs.write m sc all v = (fs.toFields as ns).write m env all v
  | .nil, _, _, _, as, ns, sc, env, all, v, _, _ => by simp only [NFields.write, NFields.toFields, Fields.write]
  | .cons n a t tl, gone, h, hd, as, ns, sc, env, all, v, hg, hh => by
    obtain ⟨ha, ht, hr⟩ := h
    simp only [NFields.allNames, List.nodup_cons] at hd
    simp only [NFields.write, NFields.toFields, Fields.write]
    cases v <;> first | rfl | skip
    rename_i x xs
    obtain ⟨hn, hh⟩ := hh x xs rfl
    dsimp only
    simp only [NFields.names, List.cons_append] at hg
    refine NAttrs.write_eq (decl := id) ha m.native hg
      (fun k hk => by rw [← Env.scope_push]; exact Env.scope_pushed hg hn k hk) hg (Env.scope_pushed hg hn) (fun _ _ => rfl) (fun _ => rfl)
      (fun sc env v h1 => t.write_eq m _ _ _ ht as ns sc env v h1) fun sc' hsc' => ?_
    exact tl.write_eq m gone hr hd.2 as (n :: ns) sc' (env.push x) all xs
      (fun k hk => by rw [hsc']; exact Env.scope_pushed hg hn k hk) (NFields.Holds.congr tl xs (fun k _ => hsc' k) hh)
  | .temp n a t value tl, gone, h, hd, as, ns, sc, env, all, v, hg, hh => by
    obtain ⟨ha, ht, hr⟩ := h
    simp only [NFields.allNames, List.nodup_cons] at hd
    have hn : n ∉ tl.names := fun h => hd.1 (tl.names_sub.subset h)
    simp only [NFields.write, NFields.toFields, Fields.write]
    simp only [NFields.names] at hg
    have hB : ∀ k, k ∉ n :: tl.names ++ gone → sc.get k = (env.scope as ns).get k := fun k hk =>
      hg k fun h => hk (by simp at h ⊢; exact Or.inr h)
    have hgone : ∀ k, k ∉ tl.names ++ n :: gone → k ∉ n :: tl.names ++ gone := fun k hk h => hk (by
      simp at h ⊢; rcases h with h | h | h <;> simp [h])
    cases value with
    | none =>
      dsimp only
      simp only [Option.isSome_none, Bool.false_and, Bool.false_eq_true, if_false] at ha hr
      refine NAttrs.write_eq (decl := id) ha m.native hB (fun k hk => by rw [← Env.scope_push]; exact Env.scope_unpushed (N := tl.names ++ gone) hB k hk) hB
        (Env.scope_unpushed (N := tl.names ++ gone) hB) (fun _ _ => rfl) (fun _ => rfl) (fun _ _ _ _ => rfl) fun sc' hsc' => ?_
      exact tl.write_eq m _ hr hd.2 as (n :: ns) sc' (env.push .none) all v
        (fun k hk => by rw [hsc']; exact Env.scope_unpushed (N := tl.names ++ gone) hB k (hgone k hk)) (NFields.Holds.congr tl v (fun k _ => hsc' k) hh)
    | some f =>
      dsimp only
      by_cases hdecl : a.declared = true
      · simp only [Option.isSome_some, Bool.true_and, hdecl, if_true] at ha hr ⊢
        have hb : ∀ k, k ∉ n :: tl.names ++ gone → (sc.bind n (f all)).get k = (env.scope as ns).get k := fun k hk => by
          have : k ≠ n := fun h => hk (by simp [h])
          simp only [Names.bind, this, if_false]
          exact hB k hk
        have hbn : (sc.bind n (f all)).get n = some (f all) := by simp [Names.bind]
        refine NAttrs.write_eq (decl := fun sc => sc.bind n (f all)) ha m.native hB (fun k hk => by rw [← Env.scope_push]; exact Env.scope_unpushed (N := tl.names ++ gone) hB k hk) hb
          (Env.scope_pushed (N := tl.names ++ gone) hb hbn) (fun _ _ => rfl) (fun _ => rfl) (fun sc env v h1 => t.write_eq m _ _ _ ht as ns sc env v h1) fun sc' hsc' => ?_
        exact tl.write_eq m _ hr hd.2 as (n :: ns) sc' (env.push (f all)) all v
          (fun k hk => by rw [hsc']; exact Env.scope_pushed (N := tl.names ++ gone) hb hbn k hk)
          (NFields.Holds.congr tl v (fun k hk => by
            have : k ≠ n := fun h => hn (h ▸ hk)
            rw [hsc']; simp [Names.bind, this]) hh)
      · have hdecl : a.declared = false := by simpa using hdecl
        simp only [Option.isSome_some, Bool.true_and, hdecl, Bool.false_eq_true, if_false] at ha hr ⊢
        refine NAttrs.write_eq (decl := fun sc => sc) ha m.native hB (fun k hk => by rw [← Env.scope_push]; exact Env.scope_unpushed (N := tl.names ++ gone) hB k hk) hB
          (Env.scope_unpushed (N := tl.names ++ gone) hB) (fun _ _ => rfl) (fun _ => rfl) (fun sc env v h1 => t.write_eq m _ _ _ ht as ns sc env v h1) fun sc' hsc' => ?_
        exact tl.write_eq m _ hr hd.2 as (n :: ns) sc' (env.push (f all)) all v
          (fun k hk => by rw [hsc']; exact Env.scope_unpushed (N := tl.names ++ gone) hB k (hgone k hk)) (NFields.Holds.congr tl v (fun k _ => hsc' k) hh)

theorem NFields.writeStored_eq (m : Machine) : ∀ (fs : NFields), fs.Settled [] → fs.allNames.Nodup →
    ∀ (store : Names → Val → M Writer Unit) (as : List Name) (sc : Names) (env : Env) (v : Val),
    Ignores store fs.names true → Alike fs.names true sc (env.scope as []) → fs.Holds sc v →
    fs.writeStored m store sc v = (fs.toFields as []).writeStored m (fun env => store (env.scope as [])) env v
  | .nil, _, _, store, as, sc, env, v, _, _, _ => by simp only [NFields.writeStored, NFields.toFields, Fields.writeStored]
  | .cons n a t tl, h, hd, store, as, sc, env, v, hs, hg, hh => by
    obtain ⟨ha, ht, hr⟩ := h
    simp only [NFields.allNames, List.nodup_cons] at hd
    simp only [NFields.writeStored, NFields.toFields, Fields.writeStored]
    cases v <;> first | rfl | skip
    rename_i x xs
    obtain ⟨hn, hh⟩ := hh x xs rfl
    dsimp only
    rw [hs.app hg]
    refine M.bind_congr fun _ => ?_
    exact tl.write_eq m [] hr hd.2 as [n] sc (env.push x) _ xs
      (fun k hk => Env.scope_pushed (N := tl.names) hg.get hn k (by simpa using hk)) hh
  | .temp n a t value tl, h, hd, store, as, sc, env, v, _, _, _ => by
    simp only [NFields.writeStored, NFields.toFields, Fields.writeStored]

theorem NVariants.writeAt_eq (m : Machine) : ∀ (vs : NVariants) (id : NId) (store : Nat → Names → Val → M Writer Unit),
    vs.Settled id store → ∀ (as : List Name) (sc : Names) (env : Env), sc = env.scope as [] → ∀ (j i : Nat) (v : Val),
    vs.writeAt m sc id (store j) i v =
    (vs.toVariants as).writeAt m env (id.inst as) (fun env => store j (env.scope as [])) i v
  | .nil, _, _, _, as, sc, env, _, j, i, v => by simp only [NVariants.writeAt, NVariants.toVariants, Variants.writeAt]
  | .cons a fs tl, id, store, h, as, sc, env, hg, j, i, v => by
    obtain ⟨h1, h2, h3, h4, h5⟩ := h
    cases i with
    | succ i =>
      simp only [NVariants.writeAt, NVariants.toVariants, Variants.writeAt]
      exact tl.writeAt_eq m id store h5 as sc env hg j i v
    | zero =>
      have hal : Alike fs.names true (sc.bindAll fs.names v.elems) (env.scope as []) :=
        ⟨fun k hk => by rw [Names.bindAll_get _ _ _ hk, hg], fun _ => by rw [Names.bindAll_off, hg]⟩
      have hh := fs.holds_bindAll v sc (fs.names_sub.nodup h3)
      simp only [NVariants.writeAt, NVariants.toVariants, Variants.writeAt]
      rw [fs.writeStored_eq m h4 h3 (store j) as _ env v (h2 j) hal hh,
        fs.write_eq m [] h4 h3 as [] _ env v v (by simpa using hal.get) hh]
      cases id with
      | ctx e => rfl
      | typed size c =>
        have : c (sc.bindAll fs.names v.elems) = c (env.scope as []) := Ignores.app h1 hal
        rcases a with ⟨pat, _ | x, ip, d, df⟩
        · rfl
        · simp only [NId.inst, NVAttrs.inst, this]
          rfl

end

end Deku
