import Verif.Spec.Rename
import Verif.Lemmas.Names

/-!
# Renaming fields and arguments
-/

namespace Deku

variable {β σ : Type} {ρ : Name → Name} (hρ : ∀ a b, ρ a = ρ b → a = b)

include hρ in
theorem Names.rename_bind (sc : Names) (n : Name) (v : Val) : (sc.bind (ρ n) v).rename ρ = (sc.rename ρ).bind n v := by
  refine Names.ext' (fun k => ?_) rfl
  simp only [Names.rename, Names.bind]
  by_cases h : k = n
  · simp [h]
  · have : ρ k ≠ ρ n := fun h' => h (hρ _ _ h')
    simp [h, this]

theorem Names.rename_at (sc : Names) (off : Nat) : (sc.at off).rename ρ = (sc.rename ρ).at off := rfl

include hρ in
theorem Names.rename_params : ∀ (args : List (Name × Val)),
    (Names.params (args.map fun p => (ρ p.1, p.2))).rename ρ = Names.params args
  | [] => rfl
  | (n, v) :: tl => by
    refine Names.ext' (fun k => ?_) rfl
    have ih := congrArg (fun s => Names.get s k) (Names.rename_params tl)
    simp only [Names.rename, Names.params] at ih
    simp only [Names.rename, Names.params, List.map_cons, List.lookup_cons, ih]
    by_cases h : k = n
    · simp [h]
    · have h1 : (k == n) = false := by simpa using h
      have h2 : (ρ k == ρ n) = false := by simpa using fun h' => h (hρ _ _ h')
      rw [h1, h2]

include hρ in
theorem Names.rename_bindAll : ∀ (ns : List Name) (vs : List Val) (sc : Names),
    (sc.bindAll (ns.map ρ) vs).rename ρ = (sc.rename ρ).bindAll ns vs
  | [], _, _ => by simp [Names.bindAll]
  | _ :: _, [], _ => by simp [Names.bindAll]
  | n :: ns, v :: vs, sc => by
    simp only [List.map_cons, Names.bindAll]
    rw [Names.rename_bindAll ns vs, Names.rename_bind hρ]

theorem NFields.names_rename : ∀ fs : NFields, (fs.rename ρ).names = fs.names.map ρ
  | .nil => rfl
  | .cons n _ _ tl => by simp only [NFields.rename, NFields.names, List.map_cons, NFields.names_rename tl]
  | .temp _ _ _ _ tl => by simp only [NFields.rename, NFields.names, NFields.names_rename tl]

theorem opt_rename {X : Type} (p : Option (Names → X)) (sc : Names) :
    ((p.map fun f sc => f (Names.rename ρ sc)).map fun f (_ : Env) => f sc) = p.map fun f _ => f (sc.rename ρ) := by
  cases p <;> rfl

theorem NAttrs.isRead_rename (a : NAttrs) (sc : Names) : (a.rename ρ).isRead sc = a.isRead (sc.rename ρ) := by
  unfold NAttrs.isRead NAttrs.rename
  cases a.cond <;> rcases a.skip with _ | _ | _ | _ <;> rfl

theorem NAttrs.isWritten_rename (a : NAttrs) (sc : Names) : (a.rename ρ).isWritten sc = a.isWritten (sc.rename ρ) := by
  unfold NAttrs.isWritten NAttrs.rename
  cases a.cond <;> rcases a.skip with _ | _ | _ | _ <;> rfl

theorem NAttrs.declared_rename (a : NAttrs) : (a.rename ρ).declared = a.declared := by
  unfold NAttrs.declared NAttrs.rename
  cases a.cond <;> rcases a.skip with _ | _ | _ | _ <;> rfl

include hρ in
theorem NAttrs.read_rename (a : NAttrs) (native : Endian) {rd rd' : Names → M Reader Val}
    (hrd : ∀ sc, rd sc = rd' (sc.rename ρ)) (n : Name) (sc : Names) {k k' : Val × Names → M Reader β}
    (hk : ∀ v sc, k (v, sc) = k' (v, sc.rename ρ)) :
    ((a.rename ρ).read native rd (ρ n) sc >>= k) = (a.read native rd' n (sc.rename ρ) >>= k') := by
  unfold NAttrs.read
  simp only [M.bind_assoc]
  rw [show (a.rename ρ).seek = a.seek.map fun f sc => f (sc.rename ρ) from rfl, opt_rename,
    show (a.rename ρ).padBefore = a.padBefore.map fun f sc => f (sc.rename ρ) from rfl, opt_rename]
  refine M.bind_congr fun _ => M.bind_congr fun _ => M.bind_congr fun _ => M.bind_congr fun r => ?_
  rw [show (a.rename ρ).usesRead = a.usesRead from rfl]
  generalize hs : (if a.usesRead = true then sc.at r.bitsRead else sc) = sc1
  rw [show (if a.usesRead = true then (sc.rename ρ).at r.bitsRead else sc.rename ρ) = sc1.rename ρ by subst hs; split <;> rfl]
  rw [show (a.rename ρ).value rd sc1 = a.value rd' (sc1.rename ρ) by
    unfold NAttrs.value
    rw [NAttrs.isRead_rename, hrd]
    rfl]
  refine M.bind_congr fun v => ?_
  rw [← Names.rename_bind hρ]
  refine M.bind_congr fun _ => ?_
  rw [show (a.rename ρ).padAfter = a.padAfter.map fun f sc => f (sc.rename ρ) from rfl, opt_rename]
  refine M.bind_congr fun _ => ?_
  rw [M.pure_bind, M.pure_bind, hk]

theorem NAttrs.write_rename (a : NAttrs) (native : Endian) {wr wr' : Names → Val → M Writer Unit} {decl decl' : Names → Names}
    (hwr : ∀ sc v, wr sc v = wr' (sc.rename ρ) v) (hd : ∀ sc, (decl sc).rename ρ = decl' (sc.rename ρ)) (sc : Names) (v : Val)
    {k k' : Names → M Writer β} (hk : ∀ sc, k sc = k' (sc.rename ρ)) :
    ((a.rename ρ).write native wr decl sc v >>= k) = (a.write native wr' decl' (sc.rename ρ) v >>= k') := by
  unfold NAttrs.write
  simp only [M.bind_assoc]
  rw [show (a.rename ρ).seek = a.seek.map fun f sc => f (sc.rename ρ) from rfl, opt_rename,
    show (a.rename ρ).padBefore = a.padBefore.map fun f sc => f (sc.rename ρ) from rfl, opt_rename]
  refine M.bind_congr fun _ => M.bind_congr fun _ => M.bind_congr fun _ => M.bind_congr fun r => ?_
  rw [show (a.rename ρ).usesWrite = a.usesWrite from rfl]
  generalize hs : (if a.usesWrite = true then sc.at r.bitsWritten else sc) = sc1
  rw [show (if a.usesWrite = true then (sc.rename ρ).at r.bitsWritten else sc.rename ρ) = sc1.rename ρ by subst hs; split <;> rfl]
  refine M.bind_congr fun _ => ?_
  rw [← hd]
  rw [show (a.rename ρ).put wr (decl sc1) v = a.put wr' ((decl sc1).rename ρ) v by
    unfold NAttrs.put
    rw [NAttrs.isWritten_rename, hwr]
    rfl]
  refine M.bind_congr fun _ => ?_
  rw [show (a.rename ρ).padAfter = a.padAfter.map fun f sc => f (sc.rename ρ) from rfl, opt_rename]
  refine M.bind_congr fun _ => ?_
  rw [M.pure_bind, M.pure_bind, hk]

theorem NLimit.rename_inst (l : NLimit) (sc : Names) : ((l.rename ρ).inst fun _ => sc) = l.inst fun _ => sc.rename ρ := by
  cases l <;> rfl

include hρ in
theorem args_rename (args : List (Name × (Names → Val))) (sc : Names) :
    (Names.params ((args.map fun p => (ρ p.1, fun sc => p.2 (Names.rename ρ sc))).map fun p => (p.1, p.2 sc))).rename ρ =
    Names.params (args.map fun p => (p.1, p.2 (sc.rename ρ))) := by
  rw [← Names.rename_params hρ (args.map fun p => (p.1, p.2 (sc.rename ρ)))]
  simp only [List.map_map]
  rfl

theorem NVariants.firstMatch_rename (sc : Names) (id : Val) : ∀ (vs : NVariants) (i : Nat),
    (vs.rename ρ).firstMatch sc id i = vs.firstMatch (sc.rename ρ) id i
  | .nil, _ => by simp only [NVariants.firstMatch, NVariants.rename]
  | .cons a fs tl, i => by
    simp only [NVariants.firstMatch, NVariants.rename]
    rw [firstMatch_rename sc id tl (i + 1)]
    rfl

theorem NVariants.defaultAt_rename : ∀ (vs : NVariants) (i : Nat), (vs.rename ρ).defaultAt i = vs.defaultAt i
  | .nil, _ => by simp only [NVariants.defaultAt, NVariants.rename]
  | .cons a fs tl, i => by
    simp only [NVariants.defaultAt, NVariants.rename]
    rw [defaultAt_rename tl (i + 1)]
    rfl

theorem NVariants.select_rename (sc : Names) (id : Val) (vs : NVariants) :
    (vs.rename ρ).select sc id = vs.select (sc.rename ρ) id := by
  unfold NVariants.select
  rw [firstMatch_rename, defaultAt_rename]

mutual

theorem NTy.read_rename (hρ : ∀ a b, ρ a = ρ b → a = b) (m : Machine) : ∀ (t : NTy) (sc : Names),
    (t.rename ρ).read m sc = t.read m (sc.rename ρ)
  | .prim _ c, sc => by simp only [NTy.read, NTy.rename]
  | .option t, sc => by
    simp only [NTy.read, NTy.rename]
    rw [t.read_rename hρ m]
  | .array n t, sc => by
    simp only [NTy.read, NTy.rename]
    rw [t.read_rename hρ m]
  | .pair a b, sc => by
    simp only [NTy.read, NTy.rename]
    rw [a.read_rename hρ m, b.read_rename hρ m]
  | .vec size l t, sc => by
    simp only [NTy.read, NTy.rename]
    rw [t.read_rename hρ m, NLimit.rename_inst]
  | .bytes n _, sc => by simp only [NTy.read, NTy.rename]
  | .struct args seek magic fs, sc => by
    simp only [NTy.read, NTy.rename]
    rw [fs.read_rename hρ m, opt_rename, args_rename hρ]
  | .enum args magic id store vs, sc => by
    simp only [NTy.read, NTy.rename]
    rw [vs.readAt_rename hρ m]
    cases id with
    | ctx e =>
      simp only [NId.rename]
      rw [NVariants.select_rename, args_rename hρ]
    | typed size c =>
      simp only [NId.rename]
      rw [args_rename hρ]
      refine M.bind_congr fun _ => M.bind_congr fun x => ?_
      rw [NVariants.select_rename, args_rename hρ]

theorem NFields.read_rename (hρ : ∀ a b, ρ a = ρ b → a = b) (m : Machine) : ∀ (fs : NFields) (sc : Names),
    (fs.rename ρ).read m sc = fs.read m (sc.rename ρ)
  | .nil, _ => by simp only [NFields.read, NFields.rename]
  | .cons n a t tl, sc => by
    simp only [NFields.read, NFields.rename]
    refine NAttrs.read_rename hρ a m.native (fun sc => t.read_rename hρ m sc) n sc fun v sc => ?_
    dsimp only
    rw [tl.read_rename hρ m]
  | .temp n a t value tl, sc => by
    simp only [NFields.read, NFields.rename]
    refine NAttrs.read_rename hρ a m.native (fun sc => t.read_rename hρ m sc) n sc fun v sc => ?_
    dsimp only
    rw [tl.read_rename hρ m]

theorem NFields.readStored_rename (hρ : ∀ a b, ρ a = ρ b → a = b) (m : Machine) : ∀ (fs : NFields) (sc : Names) (id : Val),
    (fs.rename ρ).readStored m sc id = fs.readStored m (sc.rename ρ) id
  | .nil, _, _ => by simp only [NFields.readStored, NFields.rename]
  | .cons n a t tl, sc, id => by
    simp only [NFields.readStored, NFields.rename]
    rw [tl.read_rename hρ m, Names.rename_bind hρ]
  | .temp n a t value tl, sc, id => by
    simp only [NFields.readStored, NFields.rename]
    rw [tl.read_rename hρ m, Names.rename_bind hρ]

theorem NVariants.readAt_rename (hρ : ∀ a b, ρ a = ρ b → a = b) (m : Machine) : ∀ (vs : NVariants) (sc : Names),
    (vs.rename ρ).readAt m sc = vs.readAt m (sc.rename ρ)
  | .nil, sc => by funext x b i; simp only [NVariants.readAt, NVariants.rename]
  | .cons a fs tl, sc => by
    have ih := tl.readAt_rename hρ m sc
    funext x b i
    cases i with
    | zero =>
      simp only [NVariants.readAt, NVariants.rename]
      rw [fs.read_rename hρ m, fs.readStored_rename hρ m]
      rfl
    | succ i =>
      simp only [NVariants.readAt, NVariants.rename]
      rw [ih]

end

mutual

theorem NTy.write_rename (hρ : ∀ a b, ρ a = ρ b → a = b) (m : Machine) : ∀ (t : NTy) (sc : Names) (v : Val),
    (t.rename ρ).write m sc v = t.write m (sc.rename ρ) v
  | .prim _ c, sc, v => by simp only [NTy.write, NTy.rename]
  | .option t, sc, v => by
    simp only [NTy.write, NTy.rename]
    cases v <;> first | rfl | exact t.write_rename hρ m sc _
  | .array n t, sc, v => by
    simp only [NTy.write, NTy.rename]
    rw [funext fun x => t.write_rename hρ m sc x]
  | .pair a b, sc, v => by
    simp only [NTy.write, NTy.rename]
    rw [funext fun x => a.write_rename hρ m sc x, funext fun x => b.write_rename hρ m sc x]
  | .vec size l t, sc, v => by
    simp only [NTy.write, NTy.rename]
    rw [funext fun x => t.write_rename hρ m sc x]
  | .bytes n _, sc, v => by simp only [NTy.write, NTy.rename]
  | .struct args seek magic fs, sc, v => by
    simp only [NTy.write, NTy.rename]
    rw [fs.write_rename hρ m, opt_rename, NFields.names_rename, Names.rename_bindAll hρ, args_rename hρ]
  | .enum args magic id store vs, sc, v => by
    simp only [NTy.write, NTy.rename]
    cases v <;> first | rfl | skip
    dsimp only
    refine M.bind_congr fun _ => ?_
    rw [vs.writeAt_rename hρ m id (store _), args_rename hρ]

theorem NFields.write_rename (hρ : ∀ a b, ρ a = ρ b → a = b) (m : Machine) : ∀ (fs : NFields) (sc : Names) (all v : Val),
    (fs.rename ρ).write m sc all v = fs.write m (sc.rename ρ) all v
  | .nil, _, _, _ => by simp only [NFields.write, NFields.rename]
  | .cons n a t tl, sc, all, v => by
    simp only [NFields.write, NFields.rename]
    cases v <;> first | rfl | skip
    dsimp only
    exact NAttrs.write_rename (decl := id) (decl' := id) a m.native (fun sc v => t.write_rename hρ m sc v) (fun _ => rfl) sc _
      fun sc => tl.write_rename hρ m sc all _
  | .temp n a t value tl, sc, all, v => by
    simp only [NFields.write, NFields.rename]
    cases value with
    | none =>
      dsimp only
      refine NAttrs.write_rename (ρ := ρ) (decl := id) (decl' := id) (wr' := fun _ _ => pure ()) a m.native (fun _ _ => rfl) (fun _ => rfl)
        sc .none fun sc => ?_
      exact tl.write_rename hρ m sc all v
    | some f =>
      dsimp only
      refine NAttrs.write_rename a m.native (fun sc v => t.write_rename hρ m sc v) (fun sc => ?_) sc (f all)
        fun sc => tl.write_rename hρ m sc all v
      rw [NAttrs.declared_rename]
      split
      · exact Names.rename_bind hρ sc n _
      · rfl

theorem NFields.writeStored_rename (hρ : ∀ a b, ρ a = ρ b → a = b) (m : Machine) : ∀ (fs : NFields)
    (store : Names → Val → M Writer Unit) (sc : Names) (v : Val),
    (fs.rename ρ).writeStored m (fun sc => store (sc.rename ρ)) sc v = fs.writeStored m store (sc.rename ρ) v
  | .nil, _, _, _ => by simp only [NFields.writeStored, NFields.rename]
  | .cons n a t tl, store, sc, v => by
    simp only [NFields.writeStored, NFields.rename]
    cases v <;> first | rfl | skip
    dsimp only
    rw [tl.write_rename hρ m]
  | .temp n a t value tl, store, sc, v => by simp only [NFields.writeStored, NFields.rename]

theorem NVariants.writeAt_rename (hρ : ∀ a b, ρ a = ρ b → a = b) (m : Machine) : ∀ (vs : NVariants) (id : NId)
    (store : Names → Val → M Writer Unit) (sc : Names) (i : Nat) (v : Val),
    (vs.rename ρ).writeAt m sc (id.rename ρ) (fun sc => store (sc.rename ρ)) i v = vs.writeAt m (sc.rename ρ) id store i v
  | .nil, _, _, _, i, v => by simp only [NVariants.writeAt, NVariants.rename]
  | .cons a fs tl, id, store, sc, i, v => by
    cases i with
    | succ i =>
      simp only [NVariants.writeAt, NVariants.rename]
      exact tl.writeAt_rename hρ m id store sc i v
    | zero =>
      simp only [NVariants.writeAt, NVariants.rename]
      rw [fs.writeStored_rename hρ m, fs.write_rename hρ m, NFields.names_rename, Names.rename_bindAll hρ]
      rcases a with ⟨pat, _ | x, ip, d, df⟩
      · cases id <;> rfl
      · cases id with
        | ctx e => rfl
        | typed size c =>
          simp only [NId.rename, NVAttrs.rename, Names.rename_bindAll hρ]
          rfl

end

end Deku
