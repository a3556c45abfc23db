import Verif.Spec.Recursive
import Verif.Lemmas.Safe
import Verif.Lemmas.Regroup

/-!
# Types that contain themselves
-/

namespace Deku

open Coll

variable {ι : Type}

/-! ### The same result, or a panic -/

section
variable {σ α β : Type}

theorem Under.refl (x : M σ α) : Under x x := fun _ => .inl rfl

theorem Under.panic (x : M σ α) : Under M.panic x := fun _ => .inr rfl

theorem Under.trans {x y z : M σ α} (h : Under x y) (h' : Under y z) : Under x z := fun s => by
  rcases h s with e | e
  · rcases h' s with e' | e'
    · exact .inl (e.trans e')
    · exact .inr (by rw [e]; exact e')
  · exact .inr e

theorem Under.bind {x y : M σ α} {f g : α → M σ β} (h : Under x y) (hf : ∀ a, Under (f a) (g a)) :
    Under (x >>= f) (y >>= g) := fun s => by
  rcases h s with e | e
  · rcases e1 : y s with ⟨v | _ | _, s'⟩
    · rw [M.bind_ok e1, M.bind_ok (e.trans e1)]
      exact hf v s'
    · rw [M.bind_err e1, M.bind_err (e.trans e1)]
      exact .inl rfl
    · rw [M.bind_panic e1, M.bind_panic (e.trans e1)]
      exact .inl rfl
  · rcases e1 : x s with ⟨v | _ | _, s'⟩
    · rw [e1] at e; cases e
    · rw [e1] at e; cases e
    · exact .inr (by rw [M.bind_panic e1])

theorem Under.ite {c : Prop} [Decidable c] {x y x' y' : M σ α} (h : Under x y) (h' : Under x' y') :
    Under (if c then x else x') (if c then y else y') := by
  split
  · exact h
  · exact h'

end

section
variable {α σ : Type} {f g : M Reader α} (h : Under f g)
include h

theorem arrayRead_under : ∀ n, Under (arrayRead f n) (arrayRead g n)
  | 0 => Under.refl _
  | n + 1 => h.bind fun _ => (arrayRead_under n).bind fun _ => Under.refl _

theorem vecLoop_under (pred : Nat → α → σ → Bool × σ) (start : Nat) : ∀ (mem : Nat) (st : σ),
    Under (vecLoop f pred start mem st) (vecLoop g pred start mem st)
  | 0, _ => h.bind fun _ => Under.refl _
  | mem + 1, _ => h.bind fun _ => (Under.refl _).bind fun _ => (Under.refl _).bind fun _ =>
    Under.ite (Under.refl _) ((vecLoop_under pred start mem _).bind fun _ => Under.refl _)

theorem vecEndLoop_under : ∀ mem, Under (vecEndLoop f mem) (vecEndLoop g mem)
  | 0 => (Under.refl _).bind fun _ => Under.ite (Under.refl _) (h.bind fun _ => Under.refl _)
  | mem + 1 => (Under.refl _).bind fun _ => Under.ite (Under.refl _)
    (h.bind fun _ => (vecEndLoop_under mem).bind fun _ => Under.refl _)

theorem vecWithPredicate_under (mem size : Nat) (cap : Option Nat) (pred : Nat → α → σ → Bool × σ) (init : σ) :
    Under (vecWithPredicate mem size cap f pred init) (vecWithPredicate mem size cap g pred init) :=
  Under.ite (Under.refl _) ((Under.refl _).bind fun _ => (Under.refl _).bind fun _ => vecLoop_under h _ _ _ _)

theorem vecRead_under (mem size : Nat) (l : Limit α σ) : Under (vecRead mem size f l) (vecRead mem size g l) := by
  cases l with
  | count n => exact Under.ite (Under.refl _) (vecWithPredicate_under h _ _ _ _ _)
  | «until» p st => exact vecWithPredicate_under h _ _ _ _ _
  | bytes n => exact (Under.refl _).bind fun _ => Under.ite (Under.refl _) (vecWithPredicate_under h _ _ _ _ _)
  | bits n => exact Under.ite (Under.refl _) (vecWithPredicate_under h _ _ _ _ _)
  | «end» => exact Under.ite (Under.refl _) (vecEndLoop_under h _)

end

theorem writeAll_under {α : Type} {f g : α → M Writer Unit} (h : ∀ v, Under (f v) (g v)) : ∀ l : List α,
    Under (writeAll f l) (writeAll g l)
  | [] => Under.refl _
  | v :: l => (h v).bind fun _ => writeAll_under h l

theorem Attrs.read_under (a : Attrs) (native : Endian) {rd rd' : Env → M Reader Val} (h : ∀ env, Under (rd env) (rd' env))
    (env : Env) : Under (a.read native rd env) (a.read native rd' env) := by
  unfold Attrs.read Attrs.value
  refine (Under.refl _).bind fun _ => (Under.refl _).bind fun _ => (Under.refl _).bind fun _ => (Under.refl _).bind fun _ =>
    Under.bind ?_ fun _ => Under.refl _
  exact Under.ite ((h _).bind fun _ => Under.refl _) (Under.refl _)

theorem Attrs.write_under (a : Attrs) (native : Endian) {wr wr' : Env → Val → M Writer Unit}
    (h : ∀ env v, Under (wr env v) (wr' env v)) (env : Env) (v : Val) :
    Under (a.write native wr env v) (a.write native wr' env v) := by
  unfold Attrs.write Attrs.put
  refine (Under.refl _).bind fun _ => (Under.refl _).bind fun _ => (Under.refl _).bind fun _ => (Under.refl _).bind fun _ =>
    (Under.refl _).bind fun _ => Under.bind ?_ fun _ => Under.refl _
  exact Under.ite (h _ _) (Under.refl _)

/-! ### Bodies -/

/-- Both directions. -/
structure Ty.Below (m : Machine) (t u : Ty) : Prop where
  read : ∀ env, Under (t.read m env) (u.read m env)
  write : ∀ env v, Under (t.write m env v) (u.write m env v)

structure Fields.Below (m : Machine) (fs gs : Fields) : Prop where
  read : ∀ env, Under (fs.read m env) (gs.read m env)
  stored : ∀ env x, Under (fs.readStored m env x) (gs.readStored m env x)
  write : ∀ env all v, Under (fs.write m env all v) (gs.write m env all v)
  writeStored : ∀ store env v, Under (fs.writeStored m store env v) (gs.writeStored m store env v)

structure Variants.Below (m : Machine) (vs ws : Variants) : Prop where
  first : ∀ env id i, vs.firstMatch env id i = ws.firstMatch env id i
  default : ∀ i, vs.defaultAt i = ws.defaultAt i
  read : ∀ env x typed i, Under (vs.readAt m env x typed i) (ws.readAt m env x typed i)
  write : ∀ env id store i v, Under (vs.writeAt m env id store i v) (ws.writeAt m env id store i v)

theorem Variants.Below.select {m : Machine} {vs ws : Variants} (h : vs.Below m ws) (env : Env) (id : Val) :
    vs.select env id = ws.select env id := by
  rw [Variants.select, Variants.select, h.first, h.default]

theorem dispatch_under {sel : Option Nat} {arm arm' : Nat → M Reader Val} (h : ∀ i, Under (arm i) (arm' i)) :
    Under (dispatch sel arm) (dispatch sel arm') := by
  cases sel with
  | none => exact Under.refl _
  | some i => exact (h i).bind fun _ => Under.refl _

section
variable (m : Machine) {σ τ : ι → Ty} (hst : ∀ i, (σ i).Below m (τ i))
include hst

mutual

theorem Shape.under : ∀ {F : (ι → Ty) → Ty}, Shape F → (F σ).Below m (F τ)
  | _, .hole i => hst i
  | _, .const t => ⟨fun _ => Under.refl _, fun _ _ => Under.refl _⟩
  | _, .option h => by
    have ih := Shape.under h
    refine ⟨fun env => ?_, fun env v => ?_⟩
    · simp only [Ty.read]
      exact (ih.read env).bind fun _ => Under.refl _
    · cases v <;> simp only [Ty.write] <;> first | exact Under.refl _ | exact ih.write _ _
  | _, .array n h => by
    have ih := Shape.under h
    refine ⟨fun env => ?_, fun env v => ?_⟩
    · simp only [Ty.read]
      exact (arrayRead_under (ih.read env) n).bind fun _ => Under.refl _
    · simp only [Ty.write]
      exact Under.ite (writeAll_under (ih.write env) _) (Under.refl _)
  | _, .pair h h' => by
    have ih := Shape.under h
    have ih' := Shape.under h'
    refine ⟨fun env => ?_, fun env v => ?_⟩
    · simp only [Ty.read]
      exact (ih.read env).bind fun _ => (ih'.read env).bind fun _ => Under.refl _
    · simp only [Ty.write]
      split
      · exact (ih.write env _).bind fun _ => ih'.write env _
      · exact Under.refl _
  | _, .vec size l h => by
    have ih := Shape.under h
    refine ⟨fun env => ?_, fun env v => ?_⟩
    · simp only [Ty.read]
      exact (Under.refl _).bind fun _ => (vecRead_under (ih.read env) _ _ _).bind fun _ => Under.refl _
    · simp only [Ty.write]
      exact Under.ite (writeAll_under (ih.write env) _) (Under.refl _)
  | _, .struct args seek magic h => by
    have ih := ShapeF.under h
    refine ⟨fun env => ?_, fun env v => ?_⟩
    · simp only [Ty.read]
      exact (Under.refl _).bind fun _ => (Under.refl _).bind fun _ => ih.read _
    · simp only [Ty.write]
      exact (Under.refl _).bind fun _ => (Under.refl _).bind fun _ => ih.write _ _ _
  | _, .enum args magic id store h => by
    have ih := ShapeV.under h
    refine ⟨fun env => ?_, fun env v => ?_⟩
    · simp only [Ty.read]
      refine (Under.refl _).bind fun _ => ?_
      cases id with
      | ctx e =>
        simp only [ih.select]
        exact dispatch_under fun i => ih.read _ _ _ _
      | typed sz c =>
        simp only [ih.select]
        exact (Under.refl _).bind fun _ => dispatch_under fun i => ih.read _ _ _ _
    · cases v <;> simp only [Ty.write] <;> try exact Under.refl _
      exact (Under.refl _).bind fun _ => ih.write _ _ _ _ _

theorem ShapeF.under : ∀ {F : (ι → Ty) → Fields}, ShapeF F → (F σ).Below m (F τ)
  | _, .nil => ⟨fun _ => Under.refl _, fun _ _ => Under.refl _, fun _ _ _ => Under.refl _, fun _ _ _ => Under.refl _⟩
  | _, .cons a h h' => by
    have ih := Shape.under h
    have ih' := ShapeF.under h'
    refine ⟨fun env => ?_, fun env x => ?_, fun env all v => ?_, fun store env v => ?_⟩
    · simp only [Fields.read]
      exact (a.read_under _ ih.read env).bind fun _ => (ih'.read _).bind fun _ => Under.refl _
    · simp only [Fields.readStored]
      exact (ih'.read _).bind fun _ => Under.refl _
    · cases v <;> simp only [Fields.write] <;> try exact Under.refl _
      exact (a.write_under _ ih.write env _).bind fun _ => ih'.write _ _ _
    · cases v <;> simp only [Fields.writeStored] <;> try exact Under.refl _
      exact (Under.refl _).bind fun _ => ih'.write _ _ _
  | _, .temp a value h h' => by
    have ih := Shape.under h
    have ih' := ShapeF.under h'
    refine ⟨fun env => ?_, fun env x => ?_, fun env all v => ?_, fun store env v => ?_⟩
    · simp only [Fields.read]
      exact (a.read_under _ ih.read env).bind fun _ => ih'.read _
    · simp only [Fields.readStored]
      exact ih'.read _
    · cases value with
      | none =>
        simp only [Fields.write]
        exact (Under.refl _).bind fun _ => ih'.write _ _ _
      | some f =>
        simp only [Fields.write]
        exact (a.write_under _ ih.write env _).bind fun _ => ih'.write _ _ _
    · simp only [Fields.writeStored]
      exact Under.refl _

theorem ShapeV.under : ∀ {F : (ι → Ty) → Variants}, ShapeV F → (F σ).Below m (F τ)
  | _, .nil => ⟨fun _ _ _ => rfl, fun _ => rfl, fun _ _ _ _ => Under.refl _, fun _ _ _ _ _ => Under.refl _⟩
  | _, .cons a h h' => by
    have ih := ShapeF.under h
    have ih' := ShapeV.under h'
    refine ⟨fun env id i => ?_, fun i => ?_, fun env x typed i => ?_, fun env id store i v => ?_⟩
    · simp only [Variants.firstMatch, ih'.first]
    · simp only [Variants.defaultAt, ih'.default]
    · cases i with
      | zero => simp only [Variants.readAt]; exact Under.ite (ih.stored _ _) (ih.read _)
      | succ i => simp only [Variants.readAt]; exact ih'.read _ _ _ _
    · cases i with
      | zero =>
        simp only [Variants.writeAt]
        split
        · refine (Under.refl _).bind fun _ => ?_
          split
          · exact ih.writeStored _ _ _
          · exact ih.write _ _ _
        · split
          · exact ih.writeStored _ _ _
          · exact ih.write _ _ _
      | succ i => simp only [Variants.writeAt]; exact ih'.write _ _ _ _ _

end

end

theorem overflow_below (m : Machine) (t : Ty) : overflow.Below m t :=
  ⟨fun _ => by simp only [overflow, Ty.read]; exact Under.panic _, fun _ _ => by simp only [overflow, Ty.write]; exact Under.panic _⟩

theorem unroll_below (m : Machine) {F : (ι → Ty) → ι → Ty} (hF : ∀ i, Shape fun σ => F σ i) :
    ∀ n k, n ≤ k → ∀ i, (unroll F n i).Below m (unroll F k i)
  | 0, _, _, i => overflow_below m _
  | n + 1, k + 1, h, i => Shape.under m (unroll_below m hF n k (by omega)) (hF i)

/-! ### Bodies without seeks do not move back -/

mutual

theorem Guarded.runs {σ : ι → Ty} (hs : ∀ i, (σ i).Runs) : ∀ {g : Prop} {F : (ι → Ty) → Ty}, Guarded g F → (F σ).Runs
  | _, _, .hole i _ => hs i
  | _, _, .const _ h => h
  | _, _, .option h => by simp only [Ty.Runs]; exact Guarded.runs hs h
  | _, _, .array _ h => by simp only [Ty.Runs]; exact Guarded.runs hs h
  | _, _, .pair h h' => by simp only [Ty.Runs]; exact ⟨Guarded.runs hs h, Guarded.runs hs h'⟩
  | _, _, .vec _ _ h => by simp only [Ty.Runs]; exact Guarded.runs hs h
  | _, _, .struct _ _ h => by simp only [Ty.Runs]; exact ⟨trivial, GuardedF.runs hs h⟩
  | _, _, .enum _ _ _ _ h => by simp only [Ty.Runs]; exact ⟨trivial, GuardedV.runs hs h⟩
  | _, _, .enumTyped _ _ _ _ _ hc h => by simp only [Ty.Runs]; exact ⟨hc, GuardedV.runs hs h⟩

theorem GuardedF.runs {σ : ι → Ty} (hs : ∀ i, (σ i).Runs) : ∀ {g : Prop} {F : (ι → Ty) → Fields}, GuardedF g F → (F σ).Runs
  | _, _, .nil => by simp only [Fields.Runs]
  | _, _, .cons _ ha h h' => by simp only [Fields.Runs]; exact ⟨ha, Guarded.runs hs h, GuardedF.runs hs h'⟩
  | _, _, .temp _ _ ha h h' => by simp only [Fields.Runs]; exact ⟨ha, Guarded.runs hs h, GuardedF.runs hs h'⟩

theorem GuardedV.runs {σ : ι → Ty} (hs : ∀ i, (σ i).Runs) : ∀ {g : Prop} {F : (ι → Ty) → Variants}, GuardedV g F → (F σ).Runs
  | _, _, .nil => by simp only [Variants.Runs]
  | _, _, .cons _ _ h h' => by simp only [Variants.Runs]; exact ⟨GuardedF.runs hs h, GuardedV.runs hs h'⟩

end

/-! ### The same result from some readers -/

/-- From the readers of `P`, the same result. -/
def EqOn {α : Type} (P : Reader → Prop) (x y : M Reader α) : Prop := ∀ r, r.In .any → P r → x r = y r

/-- What holds of a reader holds of it later on. -/
def Onward (P : Reader → Prop) : Prop :=
  ∀ r r' : Reader, P r → r'.inner.data = r.inner.data → r.bitsRead ≤ r'.bitsRead → P r'

theorem Moves.onward {α : Type} {P : Reader → Prop} (hP : Onward P) {x : M Reader α} (hx : Moves x) {r r' : Reader} {a : α}
    (hr : r.In .any) (h : P r) (e : x r = (.ok a, r')) : r'.In .any ∧ P r' := by
  obtain ⟨h1, h2, _, h4⟩ := hx r a r' hr e
  exact ⟨h1, hP r r' h h2 h4⟩

section
variable {α β : Type} {P : Reader → Prop}

theorem EqOn.refl (P : Reader → Prop) (x : M Reader α) : EqOn P x x := fun _ _ _ => rfl

theorem EqOn.bind' {Q : Reader → Prop} {x y : M Reader α} {f g : α → M Reader β} (h : EqOn P x y)
    (hx : ∀ r a r', r.In .any → P r → x r = (.ok a, r') → r'.In .any ∧ Q r') (hf : ∀ a, EqOn Q (f a) (g a)) :
    EqOn P (x >>= f) (y >>= g) := fun r hr hp => by
  have e := h r hr hp
  rcases e1 : x r with ⟨v | _ | _, r'⟩
  · obtain ⟨h1, h2⟩ := hx r v r' hr hp e1
    rw [M.bind_ok e1, M.bind_ok (e.symm.trans e1)]
    exact hf v r' h1 h2
  · rw [M.bind_err e1, M.bind_err (e.symm.trans e1)]
  · rw [M.bind_panic e1, M.bind_panic (e.symm.trans e1)]

theorem EqOn.bind (hP : Onward P) {x y : M Reader α} {f g : α → M Reader β} (h : EqOn P x y) (hx : Moves x)
    (hf : ∀ a, EqOn P (f a) (g a)) : EqOn P (x >>= f) (y >>= g) :=
  h.bind' (fun _ _ _ hr hp e => hx.onward hP hr hp e) hf

theorem EqOn.get {f g : Reader → M Reader β} (hf : ∀ a, EqOn P (f a) (g a)) :
    EqOn P ((M.get : M Reader Reader) >>= f) (M.get >>= g) := fun r hr hp => by
  rw [M.get_bind_run, M.get_bind_run]
  exact hf r r hr hp

theorem EqOn.ite {c : Prop} [Decidable c] {x y x' y' : M Reader α} (h : EqOn P x y) (h' : EqOn P x' y') :
    EqOn P (if c then x else x') (if c then y else y') := by
  split
  · exact h
  · exact h'

end

section
variable {α σ : Type} {P : Reader → Prop} (hP : Onward P) {f g : M Reader α} (h : EqOn P f g) (hf : Moves f)
include hP h hf

theorem arrayRead_eqOn : ∀ n, EqOn P (arrayRead f n) (arrayRead g n)
  | 0 => EqOn.refl _ _
  | n + 1 => h.bind hP hf fun _ => (arrayRead_eqOn n).bind hP (arrayRead_moves hf n) fun _ => EqOn.refl _ _

theorem vecLoop_eqOn (pred : Nat → α → σ → Bool × σ) (start : Nat) : ∀ (mem : Nat) (st : σ),
    EqOn P (vecLoop f pred start mem st) (vecLoop g pred start mem st)
  | 0, _ => h.bind hP hf fun _ => EqOn.refl _ _
  | mem + 1, _ => h.bind hP hf fun _ => EqOn.get fun _ => (EqOn.refl P _).bind hP (assert_moves _) fun _ =>
    EqOn.ite (EqOn.refl _ _) ((vecLoop_eqOn pred start mem _).bind hP (vecLoop_moves hf _ _ _ _) fun _ => EqOn.refl _ _)

theorem vecEndLoop_eqOn : ∀ mem, EqOn P (vecEndLoop f mem) (vecEndLoop g mem)
  | 0 => (EqOn.refl P _).bind hP end_moves fun _ => EqOn.ite (EqOn.refl _ _) (h.bind hP hf fun _ => EqOn.refl _ _)
  | mem + 1 => (EqOn.refl P _).bind hP end_moves fun _ => EqOn.ite (EqOn.refl _ _)
    (h.bind hP hf fun _ => (vecEndLoop_eqOn mem).bind hP (vecEndLoop_moves hf mem) fun _ => EqOn.refl _ _)

theorem vecWithPredicate_eqOn (mem size : Nat) (cap : Option Nat) (pred : Nat → α → σ → Bool × σ) (init : σ) :
    EqOn P (vecWithPredicate mem size cap f pred init) (vecWithPredicate mem size cap g pred init) :=
  EqOn.ite (EqOn.refl _ _) ((EqOn.refl P _).bind hP (withCapacity_moves _ _) fun _ => EqOn.get fun _ =>
    vecLoop_eqOn hP h hf _ _ _ _)

theorem vecRead_eqOn (mem size : Nat) (l : Limit α σ) : EqOn P (vecRead mem size f l) (vecRead mem size g l) := by
  cases l with
  | count n => exact EqOn.ite (EqOn.refl _ _) (vecWithPredicate_eqOn hP h hf _ _ _ _ _)
  | «until» p st => exact vecWithPredicate_eqOn hP h hf _ _ _ _ _
  | bytes n =>
    exact (EqOn.refl P _).bind hP (usize_moves _) fun _ => EqOn.ite (EqOn.refl _ _) (vecWithPredicate_eqOn hP h hf _ _ _ _ _)
  | bits n => exact EqOn.ite (EqOn.refl _ _) (vecWithPredicate_eqOn hP h hf _ _ _ _ _)
  | «end» => exact EqOn.ite (EqOn.refl _ _) (vecEndLoop_eqOn hP h hf _)

end

/-! ### Guarded bodies -/

/-- Something that eats leads from the readers of `Q` to those of `P`. -/
def EatsTo (Q P : Reader → Prop) : Prop :=
  ∀ r r' : Reader, Q r → r.In .any → r.inner.pos ≤ r.inner.data.length → r'.inner.data = r.inner.data →
    r.bitsRead < r'.bitsRead → P r'

theorem Eats.eatsTo {α : Type} {P Q : Reader → Prop} (hl : EatsTo Q P) {x : M Reader α} (hx : Moves x) (he : Eats x)
    {r r' : Reader} {a : α} (hr : r.In .any) (h : Q r) (e : x r = (.ok a, r')) : r'.In .any ∧ P r' := by
  obtain ⟨h1, h2, _, _⟩ := hx r a r' hr e
  obtain ⟨h3, h4⟩ := he r a r' hr e
  exact ⟨h1, hl r r' h hr h3 h2 h4⟩

/-- The readers from which a body is read: `P` if something has been read already. -/
def On (P Q : Reader → Prop) (g : Prop) (r : Reader) : Prop := Q r ∧ (g → P r)

section
variable {P Q : Reader → Prop} (hP : Onward P) (hQ : Onward Q) (hl : EatsTo Q P)

theorem On.onward (hP : Onward P) (hQ : Onward Q) (g : Prop) : Onward (On P Q g) :=
  fun r r' h h1 h2 => ⟨hQ r r' h.1 h1 h2, fun hg => hP r r' (h.2 hg) h1 h2⟩

include hP hQ hl in
/-- After something that may eat. -/
theorem On.after {α : Type} {g c : Prop} {x : M Reader α} (hx : Moves x) (he : c → Eats x) {r r' : Reader} {a : α}
    (hr : r.In .any) (h : On P Q g r) (e : x r = (.ok a, r')) : r'.In .any ∧ On P Q (g ∨ c) r' := by
  obtain ⟨h1, h2⟩ := hx.onward (On.onward hP hQ g) hr h e
  refine ⟨h1, h2.1, ?_⟩
  rintro (hg | hc)
  · exact h2.2 hg
  · exact ((he hc).eatsTo hl hx hr h.1 e).2

theorem On.assoc {g c d : Prop} {r : Reader} (h : On P Q ((g ∨ c) ∨ d) r) : On P Q (g ∨ c ∨ d) r :=
  ⟨h.1, fun hg => h.2 (or_assoc.mpr hg)⟩

end

theorem EqOn.weaken {α : Type} {P P' : Reader → Prop} {x y : M Reader α} (h : EqOn P x y) (hw : ∀ r, P' r → P r) :
    EqOn P' x y := fun r hr hp => h r hr (hw r hp)

theorem dispatch_eqOn {R : Reader → Prop} (hR : Onward R) {sel : Option Nat} {arm arm' : Nat → M Reader Val}
    (h : ∀ i, EqOn R (arm i) (arm' i)) (hm : ∀ i, Moves (arm i)) : EqOn R (dispatch sel arm) (dispatch sel arm') := by
  cases sel with
  | none => exact EqOn.refl _ _
  | some i => exact (h i).bind hR (hm i) fun _ => EqOn.refl _ _

section
variable {P Q : Reader → Prop} (hP : Onward P) (hQ : Onward Q) (hl : EatsTo Q P)
include hP hQ hl

theorem Attrs.read_eqOn {a : Attrs} (ha : a.seek = none) (native : Endian) {g : Prop} {rd rd' : Env → M Reader Val}
    (hm : ∀ env, Moves (rd env)) (h : ∀ env, EqOn (On P Q (g ∨ a.magic ≠ [])) (rd env) (rd' env)) (env : Env) :
    EqOn (On P Q g) (a.read native rd env) (a.read native rd' env) := by
  have ho := On.onward hP hQ (g ∨ a.magic ≠ [])
  unfold Attrs.read
  rw [ha, seekRead_none, M.pure_bind, M.pure_bind]
  refine (EqOn.refl _ _).bind' (Q := On P Q (g ∨ a.magic ≠ []))
    (fun r v r' hr hp e => On.after hP hQ hl (magicRead_moves _ _) (fun hc => magicRead_eats native hc) hr hp e) fun _ => ?_
  refine (EqOn.refl _ _).bind ho (padRead_moves _ _ _) fun _ => EqOn.get fun r => ?_
  refine EqOn.bind ho ?_ (Attrs.value_moves a hm _) fun v => EqOn.refl _ _
  exact EqOn.ite ((h _).bind ho (hm _) fun _ => EqOn.refl _ _) (EqOn.refl _ _)

end

/-- Variants choose alike. -/
structure Variants.Same (vs ws : Variants) : Prop where
  first : ∀ env id i, vs.firstMatch env id i = ws.firstMatch env id i
  default : ∀ i, vs.defaultAt i = ws.defaultAt i

theorem Variants.Same.select {vs ws : Variants} (h : vs.Same ws) (env : Env) (id : Val) :
    vs.select env id = ws.select env id := by
  rw [Variants.select, Variants.select, h.first, h.default]

theorem GuardedV.same (σ τ : ι → Ty) : ∀ {g : Prop} {F : (ι → Ty) → Variants}, GuardedV g F → (F σ).Same (F τ)
  | _, _, .nil => ⟨fun _ _ _ => rfl, fun _ => rfl⟩
  | _, _, .cons _ _ _ h' => by
    have ih := GuardedV.same σ τ h'
    refine ⟨fun env id i => ?_, fun i => ?_⟩
    · simp only [Variants.firstMatch, ih.first]
    · simp only [Variants.defaultAt, ih.default]

section
variable {P Q : Reader → Prop} (hP : Onward P) (hQ : Onward Q) (hl : EatsTo Q P) (m : Machine) {σ τ : ι → Ty}
  (hs : ∀ i, (σ i).Runs) (h : ∀ i env, EqOn P ((σ i).read m env) ((τ i).read m env))
include hP hQ hl hs h

mutual

theorem Guarded.eqOn : ∀ {g : Prop} {F : (ι → Ty) → Ty}, Guarded g F → ∀ env,
    EqOn (On P Q g) ((F σ).read m env) ((F τ).read m env)
  | g, _, .hole i hg => fun env => (h i env).weaken fun _ hp => hp.2 hg
  | _, _, .const _ _ => fun _ => EqOn.refl _ _
  | g, _, .option hF => fun env => by
    simp only [Ty.read]
    exact (Guarded.eqOn hF env).bind (On.onward hP hQ g) (Ty.moves m _ _ (hF.runs hs)) fun _ => EqOn.refl _ _
  | g, _, .array n hF => fun env => by
    have hm := Ty.moves m _ env (hF.runs hs)
    simp only [Ty.read]
    exact (arrayRead_eqOn (On.onward hP hQ g) (Guarded.eqOn hF env) hm n).bind (On.onward hP hQ g) (arrayRead_moves hm n)
      fun _ => EqOn.refl _ _
  | g, _, .pair (F := F) hF hG => fun env => by
    have hm := Ty.moves m _ env (hF.runs hs)
    simp only [Ty.read]
    exact (Guarded.eqOn hF env).bind'
      (fun r v r' hr hp e => On.after hP hQ hl hm (fun hc => Ty.eats m (F σ) env (hF.runs hs) (hc σ)) hr hp e) fun _ =>
      (Guarded.eqOn hG env).bind (On.onward hP hQ _) (Ty.moves m _ _ (hG.runs hs)) fun _ => EqOn.refl _ _
  | g, _, .vec size l hF => fun env => by
    have hm := Ty.moves m _ env (hF.runs hs)
    simp only [Ty.read]
    exact (EqOn.refl _ _).bind (On.onward hP hQ g) (limitEval_moves _ _) fun _ =>
      (vecRead_eqOn (On.onward hP hQ g) (Guarded.eqOn hF env) hm _ _ _).bind (On.onward hP hQ g)
        (vecRead_moves hm _ _ _) fun _ => EqOn.refl _ _
  | g, _, .struct args magic hF => fun env => by
    simp only [Ty.read, seekRead_none, M.pure_bind]
    exact (EqOn.refl _ _).bind'
      (fun r v r' hr hp e => On.after hP hQ hl (magicRead_moves _ _) (fun hc => magicRead_eats _ hc) hr hp e) fun _ =>
      GuardedF.eqOn hF _
  | g, _, .enum args magic e store hF => fun env => by
    simp only [Ty.read, (hF.same σ τ).select]
    exact (EqOn.refl _ _).bind'
      (fun r v r' hr hp e => On.after hP hQ hl (magicRead_moves _ _) (fun hc => magicRead_eats _ hc) hr hp e) fun _ =>
      dispatch_eqOn (On.onward hP hQ _) (fun i => GuardedV.eqOn hF _ _ _ i) fun i =>
        Variants.moves m _ _ _ _ _ (hF.runs hs)
  | g, _, .enumTyped args magic size c store hc hF => fun env => by
    simp only [Ty.read, (hF.same σ τ).select]
    refine (EqOn.refl _ _).bind'
      (fun r v r' hr hp e => On.after hP hQ hl (magicRead_moves _ _) (fun hc => magicRead_eats _ hc) hr hp e) fun _ => ?_
    refine (EqOn.refl _ _).bind'
      (fun r v r' hr hp e => On.after hP hQ hl (hc _) (fun (he : ∀ env, Eats (c env).read) => he _) hr hp e) fun _ => ?_
    exact (dispatch_eqOn (On.onward hP hQ _) (fun i => GuardedV.eqOn hF _ _ _ i) fun i =>
        Variants.moves m _ _ _ _ _ (hF.runs hs)).weaken fun _ => On.assoc

theorem GuardedF.eqOn : ∀ {g : Prop} {F : (ι → Ty) → Fields}, GuardedF g F → ∀ env,
    EqOn (On P Q g) ((F σ).read m env) ((F τ).read m env)
  | _, _, .nil => fun _ => EqOn.refl _ _
  | g, _, .cons (F := F) a ha hF hG => fun env => by
    have hm := fun env => Ty.moves m (F σ) env (hF.runs hs)
    simp only [Fields.read]
    exact (Attrs.read_eqOn hP hQ hl ha _ hm (Guarded.eqOn hF) env).bind'
      (fun r v r' hr hp e => On.after hP hQ hl (Attrs.read_moves ha _ hm env) (fun hc => Attrs.read_eats ha _ hm
        (hc.imp id fun hc => ⟨hc.1, fun env => Ty.eats m (F σ) env (hF.runs hs) (hc.2 σ)⟩) env) hr hp e) fun _ =>
      (GuardedF.eqOn hG _).bind (On.onward hP hQ _) (Fields.moves m _ _ (hG.runs hs)) fun _ => EqOn.refl _ _
  | g, _, .temp (F := F) a value ha hF hG => fun env => by
    have hm := fun env => Ty.moves m (F σ) env (hF.runs hs)
    simp only [Fields.read]
    exact (Attrs.read_eqOn hP hQ hl ha _ hm (Guarded.eqOn hF) env).bind'
      (fun r v r' hr hp e => On.after hP hQ hl (Attrs.read_moves ha _ hm env) (fun hc => Attrs.read_eats ha _ hm
        (hc.imp id fun hc => ⟨hc.1, fun env => Ty.eats m (F σ) env (hF.runs hs) (hc.2 σ)⟩) env) hr hp e) fun _ =>
      GuardedF.eqOn hG _

theorem GuardedF.storedEqOn : ∀ {g : Prop} {F : (ι → Ty) → Fields}, GuardedF g F → g → ∀ env x,
    EqOn (On P Q g) ((F σ).readStored m env x) ((F τ).readStored m env x)
  | _, _, .nil => fun _ _ _ => EqOn.refl _ _
  | g, _, .cons a ha hF hG => fun hg env x => by
    simp only [Fields.readStored]
    exact ((GuardedF.eqOn hG _).weaken fun _ hp => ⟨hp.1, fun _ => hp.2 hg⟩).bind (On.onward hP hQ g)
      (Fields.moves m _ _ (hG.runs hs)) fun _ => EqOn.refl _ _
  | g, _, .temp a value ha hF hG => fun hg env x => by
    simp only [Fields.readStored]
    exact (GuardedF.eqOn hG _).weaken fun _ hp => ⟨hp.1, fun _ => hp.2 hg⟩

theorem GuardedV.eqOn : ∀ {g : Prop} {F : (ι → Ty) → Variants}, GuardedV g F → ∀ env x typed i,
    EqOn (On P Q g) ((F σ).readAt m env x typed i) ((F τ).readAt m env x typed i)
  | _, _, .nil => fun _ _ _ _ => EqOn.refl _ _
  | g, _, .cons a hg hF hG => fun env x typed i => by
    cases i with
    | zero =>
      simp only [Variants.readAt]
      split
      · rename_i hc
        rw [Bool.and_eq_true] at hc
        exact GuardedF.storedEqOn hF (hg hc.1) _ _
      · exact GuardedF.eqOn hF _
    | succ i =>
      simp only [Variants.readAt]
      exact GuardedV.eqOn hG _ _ _ _

end

end

/-! ### How deep it goes -/

/-- At most `b` calls are left on an input of at most `len` bytes. -/
def Left (len b : Nat) (r : Reader) : Prop := r.inner.data.length ≤ len ∧ 8 * len + 1 ≤ r.bitsRead + b

theorem Left.onward (len b : Nat) : Onward (Left len b) := fun _ _ h h1 h2 => ⟨by rw [h1]; exact h.1, by have := h.2; omega⟩

theorem Left.eatsTo (len b : Nat) : EatsTo (Left len (b + 1)) (Left len b) :=
  fun _ _ h _ _ h1 h2 => ⟨by rw [h1]; exact h.1, by have := h.2; omega⟩

theorem Left.eatsTo_zero (len : Nat) : EatsTo (Left len 0) fun _ => False := fun r _ h hr hp _ _ => by
  have h1 := hr.sync
  have h2 := h.1
  have h3 := h.2
  unfold Reader.Synced at h1
  omega

theorem unrollOn_runs {F : (ι → Ty) → ι → Ty} (hF : ∀ i, Guarded False fun σ => F σ i) {base : ι → Ty}
    (hb : ∀ i, (base i).Runs) : ∀ n i, (unrollOn F base n i).Runs
  | 0, i => hb i
  | n + 1, i => (hF i).runs (unrollOn_runs hF hb n)

theorem unrollOn_eqOn (m : Machine) {F : (ι → Ty) → ι → Ty} (hF : ∀ i, Guarded False fun σ => F σ i) (len : Nat)
    {σ τ : ι → Ty} (hs : ∀ i, (σ i).Runs) : ∀ n i env,
    EqOn (Left len n) ((unrollOn F σ (n + 1) i).read m env) ((unrollOn F τ (n + 1) i).read m env)
  | 0, i, env => (Guarded.eqOn (fun _ _ h _ _ => h) (Left.onward len 0) (Left.eatsTo_zero len) m hs
      (fun _ _ _ _ h => h.elim) (hF i) env).weaken fun _ h => ⟨h, fun h => h.elim⟩
  | n + 1, i, env => (Guarded.eqOn (Left.onward len n) (Left.onward len (n + 1)) (Left.eatsTo len n) m (unrollOn_runs hF hs _)
      (fun j env => unrollOn_eqOn m hF len hs n j env) (hF i) env).weaken fun _ h => ⟨h, fun h => h.elim⟩

theorem unrollOn_add {F : (ι → Ty) → ι → Ty} {base : ι → Ty} : ∀ n k, unrollOn F base (n + k) = unrollOn F (unrollOn F base k) n
  | 0, k => by rw [Nat.zero_add]; rfl
  | n + 1, k => by rw [show n + 1 + k = n + k + 1 by omega, unrollOn, unrollOn_add n k]; rfl

theorem readFrom_eqOn {α : Type} {P : Reader → Prop} (hP : Onward P) {f g : M Reader α} (h : EqOn P f g) (off : Nat) :
    EqOn P (readFrom f off) (readFrom g off) := by
  unfold readFrom
  exact EqOn.ite ((EqOn.refl P _).bind hP (skipBits_moves _ _) fun _ => h) h

theorem fromBytes_eqOn {α : Type} {len : Nat} {f g : M Reader α} {b : Nat} (h : EqOn (Left len b) f g) {data : List Byte}
    (hd : data.length ≤ len) (hb : 8 * len + 1 ≤ b) (off : Nat) : fromBytes f data off = fromBytes g data off := by
  have e := readFrom_eqOn (Left.onward len b) h off (Reader.new { data := data }) (in_new data .any) ⟨hd, by omega⟩
  unfold fromBytes
  rw [e]

theorem overflow_runs : overflow.Runs := by simp only [overflow, Ty.Runs]; exact fun _ => Moves.panic

theorem Under.readFrom {α : Type} {f g : M Reader α} (h : Under f g) (off : Nat) : Under (readFrom f off) (readFrom g off) := by
  unfold Deku.readFrom
  exact Under.ite ((Under.refl _).bind fun _ => h) h

theorem Under.fromBytes {α : Type} {f g : M Reader α} (h : Under f g) (data : List Byte) (off : Nat) :
    Deku.fromBytes f data off = Deku.fromBytes g data off ∨ Deku.fromBytes f data off = .panic := by
  rcases h.readFrom off (Reader.new { data := data }) with e | e
  · left; unfold Deku.fromBytes; rw [e]
  · right
    rcases e1 : Deku.readFrom f off (Reader.new { data := data }) with ⟨v | _ | _, r'⟩ <;> rw [e1] at e <;> try cases e
    unfold Deku.fromBytes; rw [e1]

theorem Under.toBytes {f g : M Writer Unit} (h : Under f g) :
    Deku.toBytes f = Deku.toBytes g ∨ Deku.toBytes f = .panic := by
  rcases (h.bind fun _ => Under.refl Writer.finalize) (Writer.new {}) with e | e
  · left; unfold Deku.toBytes; rw [e]
  · right
    rcases e1 : (f >>= fun _ => Writer.finalize) (Writer.new {}) with ⟨v | _ | _, r'⟩ <;> rw [e1] at e <;> try cases e
    unfold Deku.toBytes; rw [e1]

end Deku
