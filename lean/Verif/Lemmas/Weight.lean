import Verif.Spec.Weight
import Verif.Lemmas.CoreSafe
import Verif.Lemmas.Conform
import Verif.Lemmas.Counts
import Verif.Lemmas.FromBytes

/-! # How large the values are that are read -/

namespace Deku

open Reader Coll

variable {α β σ : Type}

/-- A success weighs at most `B`, and `K` more for every bit read. -/
def Light (w : α → Nat) (B K : Nat) (f : M Reader α) : Prop :=
  ∀ r a r', r.In .any → f r = (.ok a, r') → w a ≤ B + K * (r'.bitsRead - r.bitsRead)

namespace Light

theorem pure {w : α → Nat} {B K : Nat} {a : α} (h : w a ≤ B) : Light w B K (Pure.pure a) := by
  intro r b r' _ he
  simp at he
  obtain ⟨rfl, rfl⟩ := he
  exact Nat.le_trans h (Nat.le_add_right _ _)

theorem throw {w : α → Nat} {B K : Nat} (e : DekuError) : Light w B K (M.throw e) := by
  intro r b r' _ he; simp at he

theorem panic {w : α → Nat} {B K : Nat} : Light w B K (M.panic) := by
  intro r b r' _ he; simp at he

theorem zero {B K : Nat} (f : M Reader α) : Light (fun _ => 0) B K f := fun _ _ _ _ _ => Nat.zero_le _

theorem mono {w w' : α → Nat} {B B' K K' : Nat} {f : M Reader α} (h : Light w B K f) (hw : ∀ a, w' a ≤ w a)
    (hB : B ≤ B') (hK : K ≤ K') : Light w' B' K' f := by
  intro r a r' hr he
  have h1 := h r a r' hr he
  have h2 := Nat.mul_le_mul_right (r'.bitsRead - r.bitsRead) hK
  have h3 := hw a
  omega

theorem bind {w : α → Nat} {w' : β → Nat} {B B' K : Nat} {f : M Reader α} {g : α → M Reader β}
    (hm : Moves f) (hg' : ∀ a, Moves (g a)) (hf : Light w B K f) (hg : ∀ a, Light w' (w a + B') K (g a)) :
    Light w' (B + B') K (f >>= g) := by
  intro r b r' hr he
  obtain ⟨a, r1, h1, h2⟩ := M.bind_eq_ok he
  obtain ⟨k1, k2, k3, k4⟩ := hm r a r1 hr h1
  obtain ⟨j1, j2, j3, j4⟩ := hg' a r1 b r' k1 h2
  have i1 := hf r a r1 hr h1
  have i2 := hg a r1 b r' k1 h2
  have : K * (r'.bitsRead - r.bitsRead) = K * (r1.bitsRead - r.bitsRead) + K * (r'.bitsRead - r1.bitsRead) := by
    rw [← Nat.mul_add]
    congr 1
    omega
  omega

/-- What comes first does not weigh anything. -/
theorem after {w' : β → Nat} {B K : Nat} {f : M Reader α} {g : α → M Reader β}
    (hm : Moves f) (hg' : ∀ a, Moves (g a)) (hg : ∀ a, Light w' B K (g a)) : Light w' B K (f >>= g) := by
  have := bind (w := fun _ => 0) (B := 0) (B' := B) hm hg' (zero f) fun a => by simpa using hg a
  simpa using this

/-- What comes after does not read anything. -/
theorem last {w : α → Nat} {w' : β → Nat} {B B' K : Nat} {f : M Reader α} {g : α → β}
    (hm : Moves f) (hf : Light w B K f) (hg : ∀ a, w' (g a) ≤ w a + B') :
    Light w' (B + B') K (f >>= fun a => Pure.pure (g a)) :=
  bind hm (fun _ => Moves.pure _) hf fun a => Light.pure (hg a)

theorem ite {c : Prop} [Decidable c] {w : α → Nat} {B K : Nat} {f g : M Reader α} (hf : Light w B K f)
    (hg : Light w B K g) : Light w B K (if c then f else g) := by
  split
  · exact hf
  · exact hg

theorem get {w : α → Nat} {B K : Nat} {g : Reader → M Reader α} (h : ∀ r, Light w B K (g r)) :
    Light w B K (M.get >>= g) := by
  intro r a r' hr he
  rw [M.get_bind_run] at he
  exact h r r a r' hr he

/-- Something that always reads something. -/
theorem eats {w : α → Nat} {B K : Nat} {f : M Reader α} (hf : Light w B K f) (he : Eats f) : Light w 0 (B + K) f := by
  intro r a r' hr h
  have h1 := hf r a r' hr h
  have h2 := (he r a r' hr h).2
  have : B * 1 ≤ B * (r'.bitsRead - r.bitsRead) := Nat.mul_le_mul_left B (by omega)
  rw [Nat.add_mul]
  omega

/-- Something of a fixed shape. -/
theorem yields {w : α → Nat} {B K : Nat} {R : α → Prop} {f : M Reader α} (hf : Yields R f)
    (h : ∀ a, R a → w a ≤ B) : Light w B K f := by
  intro r a r' _ he
  exact Nat.le_trans (h a (hf r a r' trivial he).2) (Nat.le_add_right _ _)

end Light

/-! ### lists -/

/-- The cells of a list and what is in them. -/
def cells (w : α → Nat) (vs : List α) : Nat := (vs.map fun v => w v + 1).sum

@[simp] theorem cells_nil (w : α → Nat) : cells w [] = 0 := rfl
@[simp] theorem cells_cons (w : α → Nat) (v : α) (vs : List α) : cells w (v :: vs) = w v + 1 + cells w vs := rfl

theorem Val.weight_ofList : ∀ vs : List Val, (Val.ofList vs).weight = cells Val.weight vs + 1
  | [] => rfl
  | v :: vs => by
    simp only [Val.ofList, Val.weight, Val.weight_ofList vs, cells_cons]
    omega

theorem Val.one_le_weight (v : Val) : 1 ≤ v.weight := by cases v <;> simp [Val.weight]

theorem Val.cells_elems_le : ∀ v : Val, 2 * v.elems.length + 1 ≤ v.weight
  | .cons v vs => by
    have := Val.cells_elems_le vs
    have := v.one_le_weight
    simp only [Val.elems, List.length_cons, Val.weight]
    omega
  | .num _ => by simp [Val.elems, Val.weight]
  | .none => by simp [Val.elems, Val.weight]
  | .some _ => by simp [Val.elems, Val.weight]
  | .nil => by simp [Val.elems, Val.weight]
  | .variant _ _ => by simp [Val.elems, Val.weight]

theorem cells_bytes : ∀ bs : List Byte, cells Val.weight (bs.map Val.ofByte) = 2 * bs.length
  | [] => rfl
  | b :: bs => by
    rw [List.map_cons, cells_cons, cells_bytes bs]
    simp only [Val.ofByte, Val.weight, List.length_cons]
    omega

theorem arrayRead_light {w : α → Nat} {B K : Nat} {f : M Reader α} (hm : Moves f) (hf : Light w B K f) :
    ∀ n, Light (cells w) (n * (B + 1)) K (arrayRead f n)
  | 0 => Light.pure (by simp)
  | n + 1 => by
    have h := Light.bind (B' := n * (B + 1) + 1) (w' := cells w) hm
      (fun _ => (arrayRead_moves hm n).bind fun _ => Moves.pure _) hf fun v =>
        Light.mono (Light.last (w := cells w) (w' := cells w) (B' := w v + 1) (g := fun vs => v :: vs) (arrayRead_moves hm n)
          (arrayRead_light hm hf n) fun vs => by rw [cells_cons]; omega)
          (fun _ => Nat.le_refl _) (B' := w v + (n * (B + 1) + 1)) (by omega) (Nat.le_refl _)
    exact Light.mono h (fun _ => Nat.le_refl _) (by rw [Nat.succ_mul]; omega) (Nat.le_refl _)

theorem vecLoop_light {w : α → Nat} {K : Nat} {f : M Reader α} (hm : Moves f)
    (hf : Light (fun v => w v + 1) 0 K f) (pred : Nat → α → σ → Bool × σ) (start : Nat) :
    ∀ mem st, Light (cells w) 0 K (vecLoop f pred start mem st)
  | 0, _ => Light.after hm (fun _ => Moves.panic) fun _ => Light.panic
  | mem + 1, st => by
    refine Light.bind (B := 0) (B' := 0) (w := fun v => w v + 1) hm (fun v => Moves.get fun _ => (assert_moves _).bind fun _ =>
      Moves.ite (Moves.pure _) ((vecLoop_moves hm pred start mem _).bind fun _ => Moves.pure _)) hf fun v => ?_
    refine Light.get fun r => Light.after (assert_moves _) (fun _ =>
      Moves.ite (Moves.pure _) ((vecLoop_moves hm pred start mem _).bind fun _ => Moves.pure _)) fun _ =>
      Light.ite (Light.pure (by simp)) ?_
    refine Light.mono (Light.last (w := cells w) (w' := cells w) (B' := w v + 1) (g := fun vs => v :: vs)
      (vecLoop_moves hm pred start mem _) (vecLoop_light hm hf pred start mem _) fun vs => by rw [cells_cons]; omega)
      (fun _ => Nat.le_refl _) (by omega) (Nat.le_refl _)

theorem vecEndLoop_light {w : α → Nat} {K : Nat} {f : M Reader α} (hm : Moves f)
    (hf : Light (fun v => w v + 1) 0 K f) : ∀ mem, Light (cells w) 0 K (vecEndLoop f mem)
  | 0 => Light.after end_moves (fun _ => Moves.ite (Moves.pure _) (hm.bind fun _ => Moves.panic)) fun _ =>
      Light.ite (Light.pure (by simp)) (Light.after hm (fun _ => Moves.panic) fun _ => Light.panic)
  | mem + 1 => by
    refine Light.after end_moves (fun _ => Moves.ite (Moves.pure _) (hm.bind fun _ =>
      (vecEndLoop_moves hm mem).bind fun _ => Moves.pure _)) fun _ => Light.ite (Light.pure (by simp)) ?_
    refine Light.bind (B := 0) (B' := 0) (w := fun v => w v + 1) hm
      (fun _ => (vecEndLoop_moves hm mem).bind fun _ => Moves.pure _) hf fun v => ?_
    exact Light.mono (Light.last (w := cells w) (w' := cells w) (B' := w v + 1) (g := fun vs => v :: vs)
      (vecEndLoop_moves hm mem) (vecEndLoop_light hm hf mem) fun vs => by rw [cells_cons]; omega)
      (fun _ => Nat.le_refl _) (by omega) (Nat.le_refl _)

theorem vecWithPredicate_light {w : α → Nat} {K : Nat} {f : M Reader α} (hm : Moves f) (mem size : Nat)
    (hf : size ≠ 0 → Light (fun v => w v + 1) 0 K f) (cap : Option Nat)
    (pred : Nat → α → σ → Bool × σ) (init : σ) : Light (cells w) 0 K (vecWithPredicate mem size cap f pred init) := by
  unfold vecWithPredicate
  split
  · exact Light.pure (by simp)
  · rename_i hs
    exact Light.after (withCapacity_moves _ _) (fun _ => Moves.get fun _ => vecLoop_moves hm _ _ _ _) fun _ =>
      Light.get fun _ => vecLoop_light hm (hf hs) _ _ _ _

theorem vecRead_light {w : α → Nat} {K : Nat} {f : M Reader α} (hm : Moves f) (mem size : Nat)
    (hf : size ≠ 0 → Light (fun v => w v + 1) 0 K f) (l : Limit α σ) : Light (cells w) 0 K (vecRead mem size f l) := by
  cases l with
  | count n => exact Light.ite (Light.pure (by simp)) (vecWithPredicate_light hm _ _ hf _ _ _)
  | «until» p st => exact vecWithPredicate_light hm _ _ hf _ _ _
  | bytes n =>
    exact Light.after (usize_moves _) (fun _ => Moves.ite (Moves.pure _) (vecWithPredicate_moves hm _ _ _ _ _)) fun _ =>
      Light.ite (Light.pure (by simp)) (vecWithPredicate_light hm _ _ hf _ _ _)
  | bits n => exact Light.ite (Light.pure (by simp)) (vecWithPredicate_light hm _ _ hf _ _ _)
  | «end» =>
    simp only [vecRead, vecToEnd]
    split
    · exact Light.pure (by simp)
    · rename_i hs
      exact vecEndLoop_light hm (hf hs) _

/-- A list of elements that read something. -/
theorem Ty.vec_light (m : Machine) {size B K : Nat} {l : LimitE} {t : Ty} {env : Env} (hr : t.Runs)
    (hh : size ≠ 0 → Eats (t.read m env)) (h : Light Val.weight B K (t.read m env)) :
    Light Val.weight 1 (B + K + 1) ((Ty.vec size l t).read m env) := by
  have hm := Ty.moves m t env hr
  simp only [Ty.read]
  refine Light.after (limitEval_moves l env) (fun _ => (vecRead_moves hm _ _ _).bind fun _ => Moves.pure _) fun lim => ?_
  have hel : size ≠ 0 → Light (fun v : Val => v.weight + 1) 0 (B + K + 1) (t.read m env) := fun hs =>
    Light.mono (Light.eats (w := fun v : Val => v.weight + 1) (B := B + 1) (K := K) (fun r a r' hr he => by
      have := h r a r' hr he
      show a.weight + 1 ≤ _
      omega) (hh hs)) (fun _ => Nat.le_refl _) (Nat.le_refl _) (by omega)
  have := Light.last (w := cells Val.weight) (w' := Val.weight) (B' := 1) (g := Val.ofList) (vecRead_moves hm m.mem size lim)
    (vecRead_light hm _ _ hel lim) fun vs => Nat.le_of_eq (Val.weight_ofList vs)
  simpa using this

/-! ### bytes -/

theorem Counts.srcCall (f : Src → Except IoKind Nat × Src) : Counts 0 (Coll.srcCall f) := by
  intro r v r' h
  unfold Coll.srcCall at h
  split at h
  · cases h; rfl
  · cases h

theorem Counts.usize (n : Nat) : Counts 0 (usize n) := by
  unfold Deku.usize
  split
  · exact Counts.pure _
  · exact Counts.panic _

theorem Counts.readExact (n : Nat) : Counts (n * 8) (Coll.readExact n) := by
  unfold Coll.readExact
  refine Counts.bind0 (Counts.srcCall _) fun _ => Counts.bind0 (Counts.srcCall _) fun _ =>
    Counts.bind0 (Counts.srcCall _) fun _ => Counts.bind0 (Counts.assert _) fun _ => ?_
  split
  · exact Counts.bind0 (Counts.usize _) fun _ => Counts.throw _ _
  · exact Counts.readBytes _ _

theorem readExact_light (n : Nat) : Light (fun bs => 2 * bs.length) 0 1 (Coll.readExact n) := by
  intro r bs r' _ he
  have h1 := Counts.readExact n _ _ _ he
  have h2 : bs.length = n := (readExact_yields n r bs r' trivial he).2
  show 2 * bs.length ≤ _
  omega

/-! ### leaves -/

theorem convert_light {w w' : Val → Nat} {B K : Nat} {c : Codec} {f g : Val → Option Val} (hm : Moves c.read)
    (h : Light w B K c.read) (hf : ∀ v x, f v = some x → w' x ≤ w v) : Light w' B K (convCodec c f g).read := by
  have := Light.bind (w' := w') (B' := 0) hm (g := convert f) (fun v => by
    unfold convert
    split
    · exact Moves.pure _
    · exact Moves.throw _) h fun v => by
      unfold convert
      split
      · rename_i x hx
        exact Light.pure (by have := hf v x hx; omega)
      · exact Light.throw _
  exact this

theorem textOf_weight {v x : Val} (h : textOf v = some x) : x.weight ≤ v.weight := by
  unfold textOf at h
  simp only [Option.map_eq_some_iff] at h
  obtain ⟨l, hl, rfl⟩ := h
  rw [Val.weight_ofList, cells_bytes]
  have h1 := v.cells_elems_le
  have h2 : l.length ≤ v.elems.length := by
    unfold fromVecWithNul at hl
    split at hl
    · split at hl
      · simp only [Option.some.injEq] at hl
        subst hl
        rw [List.length_take, List.length_map]
        omega
      · simp at hl
    · simp at hl
  omega

theorem byteTy_light (m : Machine) (env : Env) : Light Val.weight 1 0 ((byteTy m.native).read m env) := by
  simp only [byteTy, Ty.read]
  refine Light.yields (uintCodec_yields m.native 1 .unit) ?_
  rintro v ⟨n, rfl, _⟩
  simp [Val.weight]

theorem Leaf.num_light (m : Machine) {l : Leaf} {K : Nat} (h : ∀ v, l.has v = true → v.weight ≤ 1) :
    Light Val.weight 1 K (l.codec m).read :=
  Light.yields (l.read_has m) fun v hv => h v hv

theorem weight_of_decide {p : Int → Bool} {v : Val}
    (h : (match v with | .num n => p n | _ => false) = true) : v.weight ≤ 1 := by
  cases v <;> simp_all [Val.weight]

theorem Leaf.light (m : Machine) (size : Option Nat) {l : Leaf} (hv : l.valid m.native = true) :
    Light Val.weight 1 (Def.rate (.leaf size l)) (l.codec m).read := by
  cases l with
  | cstring =>
    simp only [Leaf.codec, cstringCodec_eq, Def.rate]
    refine convert_light (w := Val.weight) (Ty.moves m _ _ (textTy_runs _)) ?_ fun v x h => textOf_weight h
    exact Ty.vec_light m (t := byteTy m.native) (fun _ => uintValid.moves (byte_valid m.native))
      (fun _ => by simp only [byteTy, Ty.read]; exact uintValid.eats (byte_valid m.native)) (byteTy_light m {})
  | cstringSized n =>
    simp only [Leaf.valid, decide_eq_true_iff] at hv
    simp only [Leaf.codec, cstringSizedCodec_eq _ _ hv, Def.rate]
    refine convert_light (w := Val.weight) (Ty.moves m _ _ (sizedTextTy_runs _ n)) ?_ fun v x h => textOf_weight h
    exact Ty.vec_light m (t := byteTy m.native) (fun _ => uintValid.moves (byte_valid m.native))
      (fun _ => by simp only [byteTy, Ty.read]; exact uintValid.eats (byte_valid m.native)) (byteTy_light m {})
  | unit => exact Light.pure (by simp [Val.weight])
  | _ =>
    refine Leaf.num_light m fun v h => ?_
    cases v <;> simp_all [Leaf.has, Val.weight]

/-! ### fields -/

theorem DAttrs.value_light (a : DAttrs) {rd : Env → M Reader Val} {B K : Nat}
    (hm : ∀ env, Moves (rd env)) (h : ∀ env, Light Val.weight B K (rd env)) (env : Env) :
    Light Val.weight (max B a.default.weight) K (a.toAttrs.value rd env) := by
  unfold Attrs.value
  refine Light.ite ?_ (Light.pure (Nat.le_max_right _ _))
  have := Light.bind (B' := 0) (w := Val.weight) (w' := Val.weight) (hm env) (fun v => applyMap_moves a.toAttrs env v)
    (h env) fun v => show Light Val.weight (v.weight + 0) K (a.toAttrs.applyMap env v) from Light.pure (Nat.le_refl _)
  exact Light.mono this (fun _ => Nat.le_refl _) (Nat.le_max_left _ _) (Nat.le_refl _)

theorem DAttrs.read_light (a : DAttrs) (native : Endian) {rd : Env → M Reader Val} {B K : Nat}
    (hm : ∀ env, Moves (rd env)) (h : ∀ env, Light Val.weight B K (rd env)) (env : Env) :
    Light Val.weight (max B a.default.weight) K (a.toAttrs.read native rd env) := by
  unfold Attrs.read
  rw [show a.toAttrs.seek = none from rfl, seekRead_none, M.pure_bind]
  have htail : ∀ env' v, Moves (do
      a.toAttrs.check env' v
      padRead a.toAttrs.padOrder a.toAttrs.padAfter (env'.push v)
      Pure.pure v) := fun env' v => (check_moves _ _ _).bind fun _ => (padRead_moves _ _ _).bind fun _ => Moves.pure _
  refine Light.after (magicRead_moves _ _) (fun _ => (padRead_moves _ _ _).bind fun _ => Moves.get fun r =>
    (Attrs.value_moves _ hm _).bind fun v => htail _ v) fun _ =>
    Light.after (padRead_moves _ _ _) (fun _ => Moves.get fun r => (Attrs.value_moves _ hm _).bind fun v => htail _ v)
    fun _ => Light.get fun r => ?_
  refine Light.bind (B' := 0) (w := Val.weight) (Attrs.value_moves _ hm _) (fun v => htail _ v) ?_ fun v =>
    Light.after (check_moves _ _ _) (fun _ => (padRead_moves _ _ _).bind fun _ => Moves.pure _) fun _ =>
    Light.after (padRead_moves _ _ _) (fun _ => Moves.pure _) fun _ => Light.pure (Nat.le_refl _)
  exact a.value_light hm h _

/-! ### definitions -/

mutual

theorem Def.light (m : Machine) : ∀ (d : Def) (env : Env), d.valid m.native = true → d.dense = true →
    Light Val.weight d.least d.rate ((d.toTy m).read m env)
  | .leaf size l, env, hv, _ => by
    simp only [Def.valid] at hv
    simp only [Def.toTy, Ty.read, Def.least]
    exact Leaf.light m size hv
  | .option t, env, hv, hd => by
    simp only [Def.valid, Def.dense] at hv hd
    simp only [Def.toTy, Ty.read, Def.least, Def.rate]
    exact Light.last (Ty.moves m _ env (t.runs m hv)) (t.light m env hv hd) fun v => Nat.le_refl _
  | .array n t, env, hv, hd => by
    simp only [Def.valid, Def.dense] at hv hd
    simp only [Def.toTy, Ty.read, Def.least, Def.rate]
    have hm := Ty.moves m _ env (t.runs m hv)
    exact Light.last (arrayRead_moves hm n) (arrayRead_light hm (t.light m env hv hd) n) fun vs =>
      Nat.le_of_eq (Val.weight_ofList vs)
  | .pair a b, env, hv, hd => by
    simp only [Def.valid, Def.dense, Bool.and_eq_true] at hv hd
    simp only [Def.toTy, Ty.read, Def.least, Def.rate]
    have hma := Ty.moves m _ env (a.runs m hv.1)
    have hmb := Ty.moves m _ env (b.runs m hv.2)
    have ha := Light.mono (a.light m env hv.1 hd.1) (fun _ => Nat.le_refl _) (Nat.le_refl _) (Nat.le_max_left a.rate b.rate)
    have hb := Light.mono (b.light m env hv.2 hd.2) (fun _ => Nat.le_refl _) (Nat.le_refl _) (Nat.le_max_right a.rate b.rate)
    have := Light.bind (w' := Val.weight) (B' := b.least + 3) hma (fun _ => hmb.bind fun _ => Moves.pure _) ha fun x =>
      Light.mono (Light.last (w' := Val.weight) (B' := x.weight + 3) (g := fun y => Val.cons x (.cons y .nil)) hmb hb
        fun y => by simp only [Val.weight]; omega) (fun _ => Nat.le_refl _) (B' := x.weight + (b.least + 3)) (by omega)
        (Nat.le_refl _)
    exact this
  | .vec zst l t, env, hv, hd => by
    simp only [Def.valid, Def.dense, Bool.and_eq_true, Bool.or_eq_true] at hv hd
    simp only [Def.toTy, Def.least, Def.rate]
    refine Ty.vec_light m (t.runs m hv) (fun hs => ?_) (t.light m env hv hd.1)
    refine Ty.eats m _ env (t.runs m hv) (t.eats m hv ?_)
    rcases hd.2 with h | h
    · rw [h] at hs
      exact absurd rfl hs
    · exact h
  | .bytes n ctx, env, _, _ => by
    simp only [Def.toTy, Ty.read, Def.least, Def.rate]
    refine Light.after (toUsize_moves _) (fun k => (readExact_moves k).bind fun _ => Moves.pure _) fun k => ?_
    have := Light.last (w' := Val.weight) (B' := 1) (g := fun bs : List Byte => Val.ofList (bs.map Val.ofByte))
      (readExact_moves k) (readExact_light k) fun bs => by rw [Val.weight_ofList, cells_bytes]; exact Nat.le_refl _
    simpa using this
  | .struct args magic fs, env, hv, hd => by
    simp only [Def.valid, Def.dense] at hv hd
    simp only [Def.toTy, Ty.read, Def.least, Def.rate]
    rw [seekRead_none, M.pure_bind]
    exact Light.after (magicRead_moves _ _) (fun _ => Fields.moves m _ _ (fs.runs m hv)) fun _ => fs.light m _ hv hd
  | .enum args magic id vs, env, hv, hd => by
    simp only [Def.valid, Def.dense, Bool.and_eq_true] at hv hd
    simp only [Def.toTy, Ty.read, Def.least, Def.rate]
    have hrun := vs.runs m id hv.2
    have hdis : ∀ (sel : Option Nat) (env : Env) (x : Val) (typed : Bool), (typed = true → x.weight ≤ 1) →
        Light Val.weight (vs.least + 1) vs.rate (dispatch sel ((vs.toVariants m).readAt m env x typed)) := by
      intro sel env x typed hx
      cases sel with
      | none => exact Light.throw _
      | some i => exact Light.last (Variants.moves m _ _ _ _ i hrun) (vs.light m id env x typed i hv.2 hd hx) fun v =>
          Nat.le_refl _
    have hmov : ∀ (sel : Option Nat) (env : Env) (x : Val) (typed : Bool),
        Moves (dispatch sel ((vs.toVariants m).readAt m env x typed)) := fun sel env x typed =>
      dispatch_moves fun i => Variants.moves m _ _ _ _ i hrun
    cases id with
    | arg e => exact Light.after (magicRead_moves _ _) (fun _ => hmov _ _ _ _) fun _ => hdis _ _ _ _ (by simp)
    | typed s W c st =>
      simp only [DId.valid, Bool.and_eq_true] at hv
      have hmc : Moves (uintCodec m.native W c).read := uintValid.moves hv.1.1
      refine Light.after (magicRead_moves _ _) (fun _ => hmc.bind fun _ => hmov _ _ _ _) fun _ => ?_
      intro r v r' hr he
      obtain ⟨x, r1, h1, h2⟩ := M.bind_eq_ok he
      obtain ⟨k1, k2, k3, k4⟩ := hmc r x r1 hr h1
      obtain ⟨_, n, hx, _⟩ := uintCodec_yields m.native W c r x r1 trivial h1
      have := hdis _ _ x true (fun _ => by rw [hx]; exact Nat.le_refl _) r1 v r' k1 h2
      have h3 := Nat.mul_le_mul_left vs.rate (Nat.sub_le_sub_left k4 r'.bitsRead)
      omega

theorem DFields.light (m : Machine) : ∀ (fs : DFields) (env : Env), fs.valid m.native = true → fs.dense = true →
    Light Val.weight fs.least fs.rate ((fs.toFields m).read m env)
  | .nil, env, _, _ => by
    simp only [DFields.toFields, Fields.read, DFields.least]
    exact Light.pure (Nat.le_refl _)
  | .cons a t rest, env, hv, hd => by
    simp only [DFields.valid, DFields.dense, Bool.and_eq_true] at hv hd
    simp only [DFields.toFields, Fields.read, DFields.least, DFields.rate]
    have hm := fun env => Ty.moves m _ env (t.runs m hv.1)
    have ha := Light.mono (a.read_light m.native hm (fun env => t.light m env hv.1 hd.1) env) (fun _ => Nat.le_refl _)
      (Nat.le_refl _) (Nat.le_max_left t.rate rest.rate)
    have hr := fun env => Fields.moves m _ env (rest.runs m hv.2)
    have hb := fun env => Light.mono (rest.light m env hv.2 hd.2) (fun _ => Nat.le_refl _) (Nat.le_refl _)
      (Nat.le_max_right t.rate rest.rate)
    have := Light.bind (w' := Val.weight) (B' := rest.least + 1) (Attrs.read_moves (a := a.toAttrs) rfl m.native hm env)
      (fun v => (hr (env.push v)).bind fun _ => Moves.pure _) ha fun v =>
      Light.mono (Light.last (w' := Val.weight) (B' := v.weight + 1) (g := fun vs => Val.cons v vs) (hr (env.push v)) (hb _)
        fun vs => by simp only [Val.weight]; omega) (fun _ => Nat.le_refl _) (B' := v.weight + (rest.least + 1)) (by omega)
        (Nat.le_refl _)
    exact this
  | .temp a t value rest, env, hv, hd => by
    simp only [DFields.valid, DFields.dense, Bool.and_eq_true] at hv hd
    simp only [DFields.toFields, Fields.read, DFields.least, DFields.rate]
    have hm := fun env => Ty.moves m _ env (t.runs m hv.1)
    exact Light.after (Attrs.read_moves (a := a.toAttrs) rfl m.native hm env)
      (fun v => Fields.moves m _ _ (rest.runs m hv.2)) fun v => rest.light m _ hv.2 hd.2

theorem DFields.storedLight (m : Machine) : ∀ (fs : DFields) (env : Env) (x : Val), fs.valid m.native = true →
    fs.dense = true → x.weight ≤ 1 → Light Val.weight fs.least fs.rate ((fs.toFields m).readStored m env x)
  | .nil, env, x, _, _, _ => by
    simp only [DFields.toFields, Fields.readStored, DFields.least]
    exact Light.pure (Nat.le_refl _)
  | .cons a t rest, env, x, hv, hd, hx => by
    simp only [DFields.valid, DFields.dense, Bool.and_eq_true] at hv hd
    simp only [DFields.toFields, Fields.readStored, DFields.least, DFields.rate]
    have h1 := a.default.one_le_weight
    have h2 := Nat.le_max_right t.least a.default.weight
    exact Light.mono (Light.last (w' := Val.weight) (B' := 2) (g := fun vs => Val.cons x vs)
      (Fields.moves m _ _ (rest.runs m hv.2)) (rest.light m _ hv.2 hd.2) fun vs => by simp only [Val.weight]; omega)
      (fun _ => Nat.le_refl _) (by omega) (Nat.le_max_right _ _)
  | .temp a t value rest, env, x, hv, hd, _ => by
    simp only [DFields.valid, DFields.dense, Bool.and_eq_true] at hv hd
    simp only [DFields.toFields, Fields.readStored, DFields.least, DFields.rate]
    exact rest.light m _ hv.2 hd.2

theorem DVariants.light (m : Machine) (id : DId) : ∀ (vs : DVariants) (env : Env) (x : Val) (typed : Bool) (i : Nat),
    vs.valid m.native id = true → vs.dense = true → (typed = true → x.weight ≤ 1) →
    Light Val.weight vs.least vs.rate ((vs.toVariants m).readAt m env x typed i)
  | .nil, _, _, _, _, _, _, _ => by
    simp only [DVariants.toVariants, Variants.readAt]
    exact Light.panic
  | .cons a fs rest, env, x, typed, 0, hv, hd, hx => by
    simp only [DVariants.valid, DVariants.dense, Bool.and_eq_true] at hv hd
    simp only [DVariants.toVariants, Variants.readAt, DVariants.least, DVariants.rate]
    split
    · rename_i h
      rw [Bool.and_eq_true] at h
      exact Light.mono (fs.storedLight m env x hv.1.2 hd.1 (hx h.2)) (fun _ => Nat.le_refl _) (Nat.le_max_left _ _)
        (Nat.le_max_left _ _)
    · exact Light.mono (fs.light m env hv.1.2 hd.1) (fun _ => Nat.le_refl _) (Nat.le_max_left _ _) (Nat.le_max_left _ _)
  | .cons a fs rest, env, x, typed, i + 1, hv, hd, hx => by
    simp only [DVariants.valid, DVariants.dense, Bool.and_eq_true] at hv hd
    simp only [DVariants.toVariants, Variants.readAt, DVariants.least, DVariants.rate]
    exact Light.mono (rest.light m id env x typed i hv.2 hd.2 hx) (fun _ => Nat.le_refl _) (Nat.le_max_right _ _)
      (Nat.le_max_right _ _)

end

end Deku
