import Verif.Spec.Grow
import Verif.Lemmas.Monad

/-! # Lemmas about definitions that grow -/

namespace Deku

/-- The call ends with this error; `none` is a panic. -/
def Res.Stops {α : Type} (e : Option DekuError) : Res α → Prop
  | .ok _ => False
  | .err x => e = some x
  | .panic => e = none

namespace M

variable {σ α β : Type} {e : Option DekuError}

/-- `g` does what `f` does, unless `f` ends with `e`. -/
def Below (e : Option DekuError) (f g : M σ α) : Prop := ∀ s, g s = f s ∨ (f s).1.Stops e

theorem Below.refl (f : M σ α) : Below e f f := fun _ => .inl rfl

theorem Below.bind {f g : M σ α} {h k : α → M σ β} (hf : Below e f g) (hk : ∀ a, Below e (h a) (k a)) :
    Below e (f >>= h) (g >>= k) := by
  intro s
  rcases hf s with hs | hs
  · rcases hr : f s with ⟨x, s'⟩
    rw [hr] at hs
    cases x with
    | ok a => rw [bind_ok hr, bind_ok hs]; exact hk a s'
    | err x => rw [bind_err hr, bind_err hs]; exact .inl rfl
    | panic => rw [bind_panic hr, bind_panic hs]; exact .inl rfl
  · right
    rcases hr : f s with ⟨x, s'⟩
    rw [hr] at hs
    cases x with
    | ok a => exact hs.elim
    | err x => rw [bind_err hr]; exact hs
    | panic => rw [bind_panic hr]; exact hs

theorem Below.after (f : M σ α) {h k : α → M σ β} (hk : ∀ a, Below e (h a) (k a)) : Below e (f >>= h) (f >>= k) :=
  .bind (.refl f) hk

theorem Below.then {f g : M σ α} (hf : Below e f g) (h : α → M σ β) : Below e (f >>= h) (g >>= h) :=
  .bind hf fun _ => .refl _

theorem Below.ite {c : Prop} [Decidable c] {f g h k : M σ α} (h1 : Below e f g) (h2 : Below e h k) :
    Below e (if c then f else h) (if c then g else k) := by
  by_cases hc : c
  · rw [if_pos hc, if_pos hc]; exact h1
  · rw [if_neg hc, if_neg hc]; exact h2

end M

open M

variable {α σ : Type} {e : Option DekuError}

theorem arrayRead_below {f g : M Reader α} (h : Below e f g) : ∀ n, Below e (Coll.arrayRead f n) (Coll.arrayRead g n)
  | 0 => .refl _
  | n + 1 => .bind h fun _ => .then (arrayRead_below h n) _

theorem vecLoop_below {f g : M Reader α} (h : Below e f g) (pred : Nat → α → σ → Bool × σ) (start : Nat) :
    ∀ mem st, Below e (Coll.vecLoop f pred start mem st) (Coll.vecLoop g pred start mem st)
  | 0, _ => .then h _
  | mem + 1, _ => .bind h fun _ => .after _ fun _ => .after _ fun _ =>
      .ite (.refl _) (.then (vecLoop_below h pred start mem _) _)

theorem vecWithPredicate_below {f g : M Reader α} (h : Below e f g) (mem size : Nat) (cap : Option Nat)
    (pred : Nat → α → σ → Bool × σ) (init : σ) :
    Below e (Coll.vecWithPredicate mem size cap f pred init) (Coll.vecWithPredicate mem size cap g pred init) :=
  .ite (.refl _) (.after _ fun _ => .after _ fun _ => vecLoop_below h pred _ mem init)

theorem vecEndLoop_below {f g : M Reader α} (h : Below e f g) :
    ∀ mem, Below e (Coll.vecEndLoop f mem) (Coll.vecEndLoop g mem)
  | 0 => .after _ fun _ => .ite (.refl _) (.then h _)
  | mem + 1 => .after _ fun _ => .ite (.refl _) (.bind h fun _ => .then (vecEndLoop_below h mem) _)

theorem vecRead_below {f g : M Reader α} (h : Below e f g) (mem size : Nat) (l : Limit α σ) :
    Below e (Coll.vecRead mem size f l) (Coll.vecRead mem size g l) := by
  cases l with
  | count n => exact .ite (.refl _) (vecWithPredicate_below h _ _ _ _ _)
  | «until» p i => exact vecWithPredicate_below h _ _ _ _ _
  | bits n => exact .ite (.refl _) (vecWithPredicate_below h _ _ _ _ _)
  | bytes n => exact .after _ fun _ => .ite (.refl _) (vecWithPredicate_below h _ _ _ _ _)
  | «end» => exact .ite (.refl _) (vecEndLoop_below h mem)

theorem writeAll_below {f g : α → M Writer Unit} (h : ∀ v, Below e (f v) (g v)) :
    ∀ vs, Below e (Coll.writeAll f vs) (Coll.writeAll g vs)
  | [] => .refl _
  | v :: vs => .bind (h v) fun _ => writeAll_below h vs

theorem Attrs.read_below (a : Attrs) (native : Endian) {f g : Env → M Reader Val} (h : ∀ env, Below e (f env) (g env))
    (env : Env) : Below e (a.read native f env) (a.read native g env) :=
  .after _ fun _ => .after _ fun _ => .after _ fun _ => .after _ fun _ =>
    .then (.ite (.then (h _) _) (.refl _)) _

theorem Attrs.write_below (a : Attrs) (native : Endian) {f g : Env → Val → M Writer Unit}
    (h : ∀ env v, Below e (f env v) (g env v)) (env : Env) (v : Val) :
    Below e (a.write native f env v) (a.write native g env v) :=
  .after _ fun _ => .after _ fun _ => .after _ fun _ => .after _ fun _ => .after _ fun _ =>
    .then (.ite (h _ _) (.refl _)) _

/-! ## The choice of the variant -/

theorem Variants.grows_firstMatch {more : Prop} (env : Env) (id : Val) : ∀ (vs ws : Variants), vs.Grows more ws →
    ∀ i k, vs.firstMatch env id i = some k → ws.firstMatch env id i = some k
  | .nil, _, _ => fun _ _ h => nomatch h
  | .cons a fs rest, ws, h => by
    rw [Variants.Grows] at h
    obtain ⟨fs', rest', rfl, _, hr⟩ := h
    intro i k hk
    rw [Variants.firstMatch] at hk ⊢
    by_cases hp : a.pat env id = true
    · rw [if_pos hp] at hk ⊢; exact hk
    · rw [if_neg hp] at hk ⊢; exact Variants.grows_firstMatch env id rest rest' hr _ _ hk

theorem Variants.grows_same {more : Prop} (hm : ¬ more) (env : Env) (id : Val) : ∀ (vs ws : Variants), vs.Grows more ws →
    ∀ i, ws.firstMatch env id i = vs.firstMatch env id i ∧ ws.defaultAt i = vs.defaultAt i
  | .nil, ws, h => by
    rw [Variants.Grows] at h
    intro i
    rw [h.resolve_left hm]; exact ⟨rfl, rfl⟩
  | .cons a fs rest, ws, h => by
    rw [Variants.Grows] at h
    obtain ⟨fs', rest', rfl, _, hr⟩ := h
    intro i
    have ih := Variants.grows_same hm env id rest rest' hr (i + 1)
    simp only [Variants.firstMatch, Variants.defaultAt, ih.1, ih.2]
    exact ⟨trivial, trivial⟩

/-- The same variant is chosen, or there was none. -/
theorem Variants.grows_select (env : Env) (id : Val) {vs ws : Variants} (h : vs.Grows (vs.defaultAt 0 = none) ws) :
    ws.select env id = vs.select env id ∨ vs.select env id = none := by
  by_cases hd : vs.defaultAt 0 = none
  · rcases hf : vs.firstMatch env id 0 with _ | k
    · right; rw [Variants.select, hf]; exact hd
    · left; rw [Variants.select, Variants.select, hf, Variants.grows_firstMatch env id vs ws h 0 k hf]
  · have := Variants.grows_same hd env id vs ws h 0
    left; rw [Variants.select, Variants.select, this.1, this.2]

/-! ## Reading -/

/-- The number of variants. -/
def Variants.count : Variants → Nat
  | .nil => 0
  | .cons _ _ rest => rest.count + 1

theorem Variants.firstMatch_lt (env : Env) (id : Val) : ∀ (vs : Variants) i k, vs.firstMatch env id i = some k →
    k < i + vs.count
  | .nil, _, _, h => nomatch h
  | .cons a _ rest, i, k, h => by
    rw [Variants.firstMatch] at h
    rw [Variants.count]
    by_cases hp : a.pat env id = true
    · rw [if_pos hp] at h; cases h; omega
    · rw [if_neg hp] at h
      have := Variants.firstMatch_lt env id rest _ _ h
      omega

theorem Variants.defaultAt_lt : ∀ (vs : Variants) i k, vs.defaultAt i = some k → k < i + vs.count
  | .nil, _, _, h => nomatch h
  | .cons a _ rest, i, k, h => by
    rw [Variants.defaultAt] at h
    rw [Variants.count]
    by_cases hp : a.default = true
    · rw [if_pos hp] at h; cases h; omega
    · rw [if_neg hp] at h
      have := Variants.defaultAt_lt rest _ _ h
      omega

theorem Variants.select_count (env : Env) (id : Val) (vs : Variants) (k : Nat) (h : vs.select env id = some k) :
    k < vs.count := by
  rw [Variants.select] at h
  rcases hf : vs.firstMatch env id 0 with _ | j
  · rw [hf] at h
    have := Variants.defaultAt_lt vs 0 k h
    omega
  · rw [hf] at h; cases h
    have := Variants.firstMatch_lt env id vs 0 k hf
    omega

mutual

theorem Ty.read_below (m : Machine) : ∀ (t t' : Ty), t.Grows t' → ∀ env,
    Below (some .parse) (t.read m env) (t'.read m env)
  | .prim _ _, _, h => by
    intro env; rw [Ty.Grows] at h; subst h; exact .refl _
  | .option t, _, h => by
    intro env; rw [Ty.Grows] at h; obtain ⟨t', rfl, h⟩ := h
    rw [Ty.read, Ty.read]
    exact .then (Ty.read_below m t t' h env) _
  | .array n t, _, h => by
    intro env; rw [Ty.Grows] at h; obtain ⟨t', rfl, h⟩ := h
    rw [Ty.read, Ty.read]
    exact .then (arrayRead_below (Ty.read_below m t t' h env) n) _
  | .pair a b, _, h => by
    intro env; rw [Ty.Grows] at h; obtain ⟨a', b', rfl, ha, hb⟩ := h
    rw [Ty.read, Ty.read]
    exact .bind (Ty.read_below m a a' ha env) fun _ => .then (Ty.read_below m b b' hb env) _
  | .vec size l t, _, h => by
    intro env; rw [Ty.Grows] at h; obtain ⟨t', rfl, h⟩ := h
    rw [Ty.read, Ty.read]
    exact .after _ fun lim => .then (vecRead_below (Ty.read_below m t t' h env) m.mem size lim) _
  | .bytes _ _, _, h => by
    intro env; rw [Ty.Grows] at h; subst h; exact .refl _
  | .struct args seek magic fs, _, h => by
    intro env; rw [Ty.Grows] at h; obtain ⟨fs', rfl, h⟩ := h
    rw [Ty.read, Ty.read]
    exact .after _ fun _ => .after _ fun _ => Fields.read_below m fs fs' h _
  | .enum args magic id store vs, _, h => by
    intro env; rw [Ty.Grows] at h; obtain ⟨store', vs', rfl, h, _⟩ := h
    have key : ∀ env x typed, Below (some .parse) (dispatch (vs.select env x) (vs.readAt m env x typed))
        (dispatch (vs'.select env x) (vs'.readAt m env x typed)) := by
      intro env x typed
      rcases Variants.grows_select env x h with hs | hs
      · rw [hs]
        rcases hk : vs.select env x with _ | k
        · exact .refl _
        · exact .then (Variants.readAt_below m vs vs' h env x typed k (Variants.select_count env x vs k hk)) _
      · rw [hs]; exact fun s => .inr rfl
    cases id with
    | ctx e => rw [Ty.read, Ty.read]; exact .after _ fun _ => key _ _ _
    | typed sz c => rw [Ty.read, Ty.read]; exact .after _ fun _ => .after _ fun x => key _ _ _

theorem Fields.read_below (m : Machine) : ∀ (fs fs' : Fields), fs.Grows fs' → ∀ env,
    Below (some .parse) (fs.read m env) (fs'.read m env)
  | .nil, _, h => by intro env; rw [Fields.Grows] at h; subst h; exact .refl _
  | .cons a t rest, _, h => by
    intro env; rw [Fields.Grows] at h; obtain ⟨t', rest', rfl, ht, hr⟩ := h
    rw [Fields.read, Fields.read]
    exact .bind (a.read_below m.native (Ty.read_below m t t' ht) env) fun v => .then (Fields.read_below m rest rest' hr _) _
  | .temp a t value rest, _, h => by
    intro env; rw [Fields.Grows] at h; obtain ⟨t', rest', rfl, ht, hr⟩ := h
    rw [Fields.read, Fields.read]
    exact .bind (a.read_below m.native (Ty.read_below m t t' ht) env) fun v => Fields.read_below m rest rest' hr _

theorem Fields.readStored_below (m : Machine) : ∀ (fs fs' : Fields), fs.Grows fs' → ∀ env id,
    Below (some .parse) (fs.readStored m env id) (fs'.readStored m env id)
  | .nil, _, h => by intro env id; rw [Fields.Grows] at h; subst h; exact .refl _
  | .cons a t rest, _, h => by
    intro env id; rw [Fields.Grows] at h; obtain ⟨t', rest', rfl, ht, hr⟩ := h
    rw [Fields.readStored, Fields.readStored]
    exact .then (Fields.read_below m rest rest' hr _) _
  | .temp a t value rest, _, h => by
    intro env id; rw [Fields.Grows] at h; obtain ⟨t', rest', rfl, ht, hr⟩ := h
    rw [Fields.readStored, Fields.readStored]
    exact Fields.read_below m rest rest' hr _

theorem Variants.readAt_below (m : Machine) {more : Prop} : ∀ (vs vs' : Variants), vs.Grows more vs' →
    ∀ env id typed i, i < vs.count → Below (some .parse) (vs.readAt m env id typed i) (vs'.readAt m env id typed i)
  | .nil, _, _ => fun _ _ _ i hi => (Nat.not_lt_zero i hi).elim
  | .cons a fs rest, _, h => by
    rw [Variants.Grows] at h; obtain ⟨fs', rest', rfl, hf, hr⟩ := h
    intro env id typed i hi
    cases i with
    | zero =>
      rw [Variants.readAt, Variants.readAt]
      exact .ite (Fields.readStored_below m fs fs' hf env id) (Fields.read_below m fs fs' hf env)
    | succ i =>
      rw [Variants.readAt, Variants.readAt]
      exact Variants.readAt_below m rest rest' hr env id typed i (by rw [Variants.count] at hi; omega)

end

/-! ## Writing -/

mutual

theorem Ty.write_below (m : Machine) : ∀ (t t' : Ty), t.Grows t' → ∀ env v,
    Below none (t.write m env v) (t'.write m env v)
  | .prim _ _, _, h => by
    intro env v; rw [Ty.Grows] at h; subst h; exact .refl _
  | .option t, _, h => by
    intro env v; rw [Ty.Grows] at h; obtain ⟨t', rfl, h⟩ := h
    cases v with
    | some x => rw [Ty.write, Ty.write]; exact Ty.write_below m t t' h env x
    | _ => exact .refl _
  | .array n t, _, h => by
    intro env v; rw [Ty.Grows] at h; obtain ⟨t', rfl, h⟩ := h
    rw [Ty.write, Ty.write]
    exact .ite (writeAll_below (Ty.write_below m t t' h env) _) (.refl _)
  | .pair a b, _, h => by
    intro env v; rw [Ty.Grows] at h; obtain ⟨a', b', rfl, ha, hb⟩ := h
    rw [Ty.write.eq_def, Ty.write.eq_def m (.pair a' b')]
    dsimp only
    split
    · exact .bind (Ty.write_below m a a' ha env _) fun _ => Ty.write_below m b b' hb env _
    · exact .refl _
  | .vec size l t, _, h => by
    intro env v; rw [Ty.Grows] at h; obtain ⟨t', rfl, h⟩ := h
    rw [Ty.write, Ty.write]
    exact .ite (writeAll_below (Ty.write_below m t t' h env) _) (.refl _)
  | .bytes _ _, _, h => by
    intro env v; rw [Ty.Grows] at h; subst h; exact .refl _
  | .struct args seek magic fs, _, h => by
    intro env v; rw [Ty.Grows] at h; obtain ⟨fs', rfl, h⟩ := h
    rw [Ty.write, Ty.write]
    exact .after _ fun _ => .after _ fun _ => Fields.write_below m fs fs' h _ _ _
  | .enum args magic id store vs, _, h => by
    intro env v; rw [Ty.Grows] at h; obtain ⟨store', vs', rfl, h, hst⟩ := h
    cases v with
    | variant i fs => rw [Ty.write, Ty.write]; exact .after _ fun _ => Variants.writeAt_below m vs vs' h _ id _ _ i fs (hst i)
    | _ => exact .refl _

theorem Fields.write_below (m : Machine) : ∀ (fs fs' : Fields), fs.Grows fs' → ∀ env all v,
    Below none (fs.write m env all v) (fs'.write m env all v)
  | .nil, _, h => by intro env all v; rw [Fields.Grows] at h; subst h; exact .refl _
  | .cons a t rest, _, h => by
    intro env all v; rw [Fields.Grows] at h; obtain ⟨t', rest', rfl, ht, hr⟩ := h
    cases v with
    | cons x xs =>
      rw [Fields.write, Fields.write]
      exact .bind (a.write_below m.native (Ty.write_below m t t' ht) env x) fun _ => Fields.write_below m rest rest' hr _ _ _
    | _ => exact .refl _
  | .temp a t value rest, _, h => by
    intro env all v; rw [Fields.Grows] at h; obtain ⟨t', rest', rfl, ht, hr⟩ := h
    cases value with
    | some f =>
      rw [Fields.write, Fields.write]
      exact .bind (a.write_below m.native (Ty.write_below m t t' ht) env _) fun _ => Fields.write_below m rest rest' hr _ _ _
    | none => rw [Fields.write, Fields.write]; exact .after _ fun _ => Fields.write_below m rest rest' hr _ _ _

theorem Fields.writeStored_below (m : Machine) (store : Env → Val → M Writer Unit) : ∀ (fs fs' : Fields),
    fs.Grows fs' → ∀ env v, Below none (fs.writeStored m store env v) (fs'.writeStored m store env v)
  | .nil, _, h => by intro env v; rw [Fields.Grows] at h; subst h; exact .refl _
  | .cons a t rest, _, h => by
    intro env v; rw [Fields.Grows] at h; obtain ⟨t', rest', rfl, ht, hr⟩ := h
    cases v with
    | cons x xs => rw [Fields.writeStored, Fields.writeStored]; exact .after _ fun _ => Fields.write_below m rest rest' hr _ _ _
    | _ => exact .refl _
  | .temp a t value rest, _, h => by
    intro env v; rw [Fields.Grows] at h; obtain ⟨t', rest', rfl, ht, hr⟩ := h
    exact .refl _

theorem Variants.writeAt_below (m : Machine) {more : Prop} : ∀ (vs vs' : Variants), vs.Grows more vs' →
    ∀ env id store store' i v, (vs.storesAt i = true → store' = store) →
    Below none (vs.writeAt m env id store i v) (vs'.writeAt m env id store' i v)
  | .nil, _, _ => fun _ _ _ _ _ _ _ _ => .inr rfl
  | .cons a fs rest, _, h => by
    rw [Variants.Grows] at h; obtain ⟨fs', rest', rfl, hf, hr⟩ := h
    intro env id store store' i v hst
    cases i with
    | zero =>
      rw [Variants.storesAt] at hst
      have key : Below none (if a.idPat then fs.writeStored m store env v else fs.write m env v v)
          (if a.idPat then fs'.writeStored m store' env v else fs'.write m env v v) := by
        by_cases hp : a.idPat = true
        · rw [if_pos hp, if_pos hp, hst hp]; exact Fields.writeStored_below m store fs fs' hf env v
        · rw [if_neg hp, if_neg hp]; exact Fields.write_below m fs fs' hf env v v
      unfold Variants.writeAt
      dsimp only
      generalize a.id = x at *
      cases id <;> cases x <;> first | exact key | exact .after _ fun _ => key
    | succ i =>
      rw [Variants.writeAt, Variants.writeAt]
      exact Variants.writeAt_below m rest rest' hr env id store store' i v hst

end

theorem Variants.dekuIdAt_grows {more : Prop} : ∀ (vs vs' : Variants), vs.Grows more vs' → ∀ i,
    vs'.dekuIdAt i = vs.dekuIdAt i ∨ vs.dekuIdAt i = .panic
  | .nil, _, _ => fun _ => .inr rfl
  | .cons a fs rest, _, h => by
    rw [Variants.Grows] at h; obtain ⟨fs', rest', rfl, hf, hr⟩ := h
    intro i
    cases i with
    | zero => exact .inl rfl
    | succ i => exact Variants.dekuIdAt_grows rest rest' hr i

theorem Fields.update_grows : ∀ (fs fs' : Fields), fs.Grows fs' → ∀ i, fs'.update i = fs.update i
  | .nil, _, h => by rw [Fields.Grows] at h; subst h; intro i; rfl
  | .cons a t rest, _, h => by
    rw [Fields.Grows] at h; obtain ⟨t', rest', rfl, ht, hr⟩ := h
    intro i
    simp only [Fields.update, Fields.update_grows rest rest' hr]
  | .temp a t value rest, _, h => by
    rw [Fields.Grows] at h; obtain ⟨t', rest', rfl, ht, hr⟩ := h
    intro i
    simp only [Fields.update, Fields.update_grows rest rest' hr]

/-! ## Sizes -/

mutual

theorem Ty.size_grows : ∀ (t t' : Ty), t.Grows t' → ∀ k l, t.size = some k → t'.size = some l → k ≤ l
  | .prim _ _, _, h => by
    intro k l hk hl; rw [Ty.Grows] at h; subst h; rw [hk] at hl; cases hl; exact Nat.le_refl _
  | .option t, _, h => by intro k l hk; rw [Ty.size] at hk; cases hk
  | .array n t, _, h => by
    intro k l hk hl; rw [Ty.Grows] at h; obtain ⟨t', rfl, h⟩ := h
    rw [Ty.size] at hk hl
    simp only [Option.bind_eq_bind, Option.bind_eq_some_iff, Option.pure_def, Option.some.injEq] at hk hl
    obtain ⟨x, hx, rfl⟩ := hk
    obtain ⟨y, hy, rfl⟩ := hl
    exact Nat.mul_le_mul_left _ (Ty.size_grows t t' h x y hx hy)
  | .pair a b, _, h => by
    intro k l hk hl; rw [Ty.Grows] at h; obtain ⟨a', b', rfl, ha, hb⟩ := h
    rw [Ty.size] at hk hl
    simp only [Option.bind_eq_bind, Option.bind_eq_some_iff, Option.pure_def, Option.some.injEq] at hk hl
    obtain ⟨x, hx, x', hx', rfl⟩ := hk
    obtain ⟨y, hy, y', hy', rfl⟩ := hl
    exact Nat.add_le_add (Ty.size_grows a a' ha x y hx hy) (Ty.size_grows b b' hb x' y' hx' hy')
  | .vec size l t, _, h => by intro k l hk; rw [Ty.size] at hk; cases hk
  | .bytes _ _, _, h => by intro k l hk; rw [Ty.size] at hk; cases hk
  | .struct args seek magic fs, _, h => by
    intro k l hk hl; rw [Ty.Grows] at h; obtain ⟨fs', rfl, h⟩ := h
    rw [Ty.size] at hk hl
    by_cases hs : seek.isSome = true
    · rw [if_pos hs] at hk; cases hk
    · rw [if_neg hs] at hk hl
      simp only [Option.bind_eq_bind, Option.bind_eq_some_iff, Option.pure_def, Option.some.injEq] at hk hl
      obtain ⟨x, hx, rfl⟩ := hk
      obtain ⟨y, hy, rfl⟩ := hl
      exact Nat.add_le_add_left (Fields.size_grows fs fs' h x y hx hy) _
  | .enum args magic id store vs, _, h => by
    intro k l hk hl; rw [Ty.Grows] at h; obtain ⟨store', vs', rfl, h, hst⟩ := h
    unfold Ty.size at hk hl
    simp only [Option.bind_eq_bind, Option.bind_eq_some_iff, Option.pure_def, Option.some.injEq] at hk hl
    obtain ⟨d, hd, x, hx, rfl⟩ := hk
    obtain ⟨d', hd', y, hy, rfl⟩ := hl
    rw [hd] at hd'; cases hd'
    exact Nat.add_le_add_left (Variants.size_grows vs vs' h _ x y hx hy) _

theorem Fields.size_grows : ∀ (fs fs' : Fields), fs.Grows fs' → ∀ k l, fs.size = some k → fs'.size = some l → k ≤ l
  | .nil, _, h => by
    intro k l hk hl; rw [Fields.Grows] at h; subst h; rw [hk] at hl; cases hl; exact Nat.le_refl _
  | .cons a t rest, _, h => by
    intro k l hk hl; rw [Fields.Grows] at h; obtain ⟨t', rest', rfl, ht, hr⟩ := h
    rw [Fields.size] at hk hl
    by_cases hs : a.seek.isSome = true
    · rw [if_pos hs] at hk; cases hk
    · rw [if_neg hs] at hk hl
      cases ha : a.sizeAttr with
      | some n =>
        rw [ha] at hk hl
        simp only [Option.bind_eq_bind, Option.bind_eq_some_iff, Option.pure_def, Option.some.injEq] at hk hl
        obtain ⟨x, rfl, x', hx', rfl⟩ := hk
        obtain ⟨y, rfl, y', hy', rfl⟩ := hl
        have h1 := Fields.size_grows rest rest' hr x' y' hx' hy'
        omega
      | none =>
        rw [ha] at hk hl
        simp only [Option.bind_eq_bind, Option.bind_eq_some_iff, Option.pure_def, Option.some.injEq] at hk hl
        obtain ⟨x, hx, x', hx', rfl⟩ := hk
        obtain ⟨y, hy, y', hy', rfl⟩ := hl
        have h1 := Fields.size_grows rest rest' hr x' y' hx' hy'
        have h2 := Ty.size_grows t t' ht x y hx hy
        omega
  | .temp a t value rest, _, h => by
    intro k l hk hl; rw [Fields.Grows] at h; obtain ⟨t', rest', rfl, ht, hr⟩ := h
    rw [Fields.size] at hk hl
    by_cases hs : a.seek.isSome = true
    · rw [if_pos hs] at hk; cases hk
    · rw [if_neg hs] at hk hl; exact Fields.size_grows rest rest' hr k l hk hl

theorem Variants.size_grows {more : Prop} : ∀ (vs vs' : Variants), vs.Grows more vs' → ∀ typed k l,
    vs.size typed = some k → vs'.size typed = some l → k ≤ l
  | .nil, _, _ => by intro typed k l hk _; rw [Variants.size] at hk; cases hk; exact Nat.zero_le _
  | .cons a fs rest, _, h => by
    rw [Variants.Grows] at h; obtain ⟨fs', rest', rfl, hf, hr⟩ := h
    intro typed k l hk hl
    rw [Variants.size] at hk hl
    by_cases hp : (a.idPat && typed) = true
    · rw [if_pos hp] at hk hl
      simp only [Option.bind_eq_bind, Option.bind_eq_some_iff, Option.pure_def, Option.some.injEq] at hk hl
      obtain ⟨x, hx, x', hx', rfl⟩ := hk
      obtain ⟨y, hy, y', hy', rfl⟩ := hl
      have h1 := Variants.size_grows rest rest' hr typed x' y' hx' hy'
      have h2 := Fields.sizeStored_grows fs fs' hf x y hx hy
      omega
    · rw [if_neg hp] at hk hl
      simp only [Option.bind_eq_bind, Option.bind_eq_some_iff, Option.pure_def, Option.some.injEq] at hk hl
      obtain ⟨x, hx, x', hx', rfl⟩ := hk
      obtain ⟨y, hy, y', hy', rfl⟩ := hl
      have h1 := Variants.size_grows rest rest' hr typed x' y' hx' hy'
      have h2 := Fields.size_grows fs fs' hf x y hx hy
      omega

theorem Fields.sizeStored_grows : ∀ (fs fs' : Fields), fs.Grows fs' → ∀ k l,
    fs.sizeStored = some k → fs'.sizeStored = some l → k ≤ l
  | .nil, _, h => by intro k l hk _; rw [Fields.sizeStored] at hk; cases hk; exact Nat.zero_le _
  | .cons a t rest, _, h => by
    intro k l hk hl; rw [Fields.Grows] at h; obtain ⟨t', rest', rfl, ht, hr⟩ := h
    exact Fields.size_grows rest rest' hr k l hk hl
  | .temp a t value rest, _, h => by
    intro k l hk hl; rw [Fields.Grows] at h; obtain ⟨t', rest', rfl, ht, hr⟩ := h
    exact Fields.size_grows rest rest' hr k l hk hl

end

end Deku
