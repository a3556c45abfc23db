import Verif.Lemmas.Calls
import Verif.Lemmas.Counts

/-! # The calls of a parser are paid for by the bits of the input -/

namespace Deku

open Reader Coll

variable {α β σ : Type}

/-- What is left, and one. -/
def Reader.todo (r : Reader) : Nat := 8 * r.inner.data.length + 1 - r.bitsRead

/-- What is left after a success. -/
def after : Res α × Reader → Nat
  | (.ok _, r) => r.todo
  | _ => 0

/-- At most `B` calls, and `K` more for every bit of the input that is taken; after an error, for every bit that was
left. -/
def Busy (B K : Nat) (f : M Reader α) : Prop :=
  ∀ r, r.In .any → (f r).2.inner.calls + K * after (f r) ≤ r.inner.calls + B + K * r.todo

theorem Moves.todo_le {f : M Reader α} (hm : Moves f) {r r' : Reader} {a : α} (hr : r.In .any) (h : f r = (.ok a, r')) :
    r'.todo ≤ r.todo := by
  obtain ⟨_, h1, _, h2⟩ := hm r a r' hr h
  simp only [Reader.todo, h1]
  omega

theorem Eats.todo_lt {f : M Reader α} (hm : Moves f) (he : Eats f) {r r' : Reader} {a : α} (hr : r.In .any)
    (h : f r = (.ok a, r')) : r'.todo + 1 ≤ r.todo := by
  obtain ⟨_, h1, _, _⟩ := hm r a r' hr h
  obtain ⟨h2, h3⟩ := he r a r' hr h
  have hs := hr.sync
  simp only [Synced] at hs
  simp only [Reader.todo, h1]
  omega

namespace Busy

theorem mono {B B' K K' : Nat} {f : M Reader α} (hm : Moves f) (h : Busy B K f) (hB : B ≤ B') (hK : K ≤ K') :
    Busy B' K' f := by
  intro r hr
  have h1 := h r hr
  obtain ⟨c, rfl⟩ := Nat.exists_eq_add_of_le hK
  have h2 : after (f r) ≤ r.todo := by
    rcases hx : f r with ⟨(a | e | _), r1⟩
    · exact hm.todo_le hr hx
    · exact Nat.zero_le _
    · exact Nat.zero_le _
  have h3 := Nat.mul_le_mul_left c h2
  rw [Nat.add_mul, Nat.add_mul]
  omega

theorem ofCalls {k K : Nat} {f : M Reader α} (h : Calls k f) (hm : Moves f) : Busy k K f := by
  intro r hr
  have h1 := h r
  have h2 : after (f r) ≤ r.todo := by
    rcases hx : f r with ⟨(a | e | _), r1⟩
    · exact hm.todo_le hr hx
    · exact Nat.zero_le _
    · exact Nat.zero_le _
  have := Nat.mul_le_mul_left K h2
  omega

theorem pure {B K : Nat} (a : α) : Busy B K (Pure.pure a : M Reader α) := ofCalls (Calls.pure a) (Moves.pure a)
theorem throw {B K : Nat} (e : DekuError) : Busy B K (M.throw e : M Reader α) := ofCalls (Calls.throw e) (Moves.throw e)
theorem panic {B K : Nat} : Busy B K (M.panic : M Reader α) := ofCalls Calls.panic Moves.panic

theorem bind {B B' K : Nat} {f : M Reader α} {g : α → M Reader β} (hm : Moves f) (hf : Busy B K f)
    (hg : ∀ a, Busy B' K (g a)) : Busy (B + B') K (f >>= g) := by
  intro r hr
  have h1 := hf r hr
  rw [M.bind_def]
  rcases hx : f r with ⟨(a | e | _), r1⟩ <;> rw [hx] at h1
  · have h2 := hg a r1 (hm r a r1 hr hx).1
    simp only [after] at h1
    dsimp only at h1 h2 ⊢
    omega
  · simp only [after] at h1 ⊢
    omega
  · simp only [after] at h1 ⊢
    omega

theorem bind0 {B K : Nat} {f : M Reader α} {g : α → M Reader β} (hm : Moves f) (hf : Calls 0 f)
    (hg : ∀ a, Busy B K (g a)) : Busy B K (f >>= g) := by
  have := bind hm (ofCalls (K := K) hf hm) hg
  rwa [Nat.zero_add] at this

theorem last {B K : Nat} {f : M Reader α} {g : α → β} (hm : Moves f) (hf : Busy B K f) :
    Busy B K (f >>= fun a => Pure.pure (g a)) := bind (B' := 0) hm hf fun _ => pure _

theorem ite {c : Prop} [Decidable c] {B K : Nat} {f g : M Reader α} (hf : Busy B K f) (hg : Busy B K g) :
    Busy B K (if c then f else g) := by
  split
  · exact hf
  · exact hg

theorem get {B K : Nat} {g : Reader → M Reader α} (h : ∀ r, Busy B K (g r)) : Busy B K (M.get >>= g) := fun r hr =>
  h r r hr

/-- One round of a loop pays for the next. -/
theorem round {B K c : Nat} {f : M Reader α} {g : α → M Reader β} (hm : Moves f) (he : Eats f) (hf : Busy B K f)
    (hg : ∀ a, Busy (B + c) (B + K + c) (g a)) : Busy B (B + K + c) (f >>= g) := by
  intro r hr
  have h1 := hf r hr
  rw [M.bind_def]
  have e1 : (B + K + c) * r.todo = K * r.todo + (B + c) * r.todo := by rw [← Nat.add_mul]; congr 1; omega
  rcases hx : f r with ⟨(a | e | _), r1⟩ <;> rw [hx] at h1
  · have h2 := hg a r1 (hm r a r1 hr hx).1
    have h3 := he.todo_lt hm hr hx
    have e2 : (B + K + c) * r1.todo = K * r1.todo + (B + c) * r1.todo := by rw [← Nat.add_mul]; congr 1; omega
    have h4 := Nat.mul_le_mul_left (B + c) h3
    rw [Nat.mul_add] at h4
    simp only [after] at h1
    dsimp only at h1 h2 ⊢
    omega
  · simp only [after] at h1 ⊢
    omega
  · simp only [after] at h1 ⊢
    omega

end Busy

theorem arrayRead_busy {B K : Nat} {f : M Reader α} (hm : Moves f) (hf : Busy B K f) :
    ∀ n, Busy (n * B) K (arrayRead f n)
  | 0 => Busy.pure _
  | n + 1 => by
    rw [Nat.succ_mul, Nat.add_comm]
    exact Busy.bind hm hf fun v => Busy.last (arrayRead_moves hm n) (arrayRead_busy hm hf n)

theorem vecLoop_busy {B K : Nat} {f : M Reader α} (hm : Moves f) (he : Eats f) (hf : Busy B K f)
    (pred : Nat → α → σ → Bool × σ) (start : Nat) : ∀ mem st, Busy B (B + K + 1) (vecLoop f pred start mem st)
  | 0, _ => Busy.round hm he hf fun _ => Busy.panic
  | mem + 1, st => Busy.round hm he hf fun v => Busy.get fun r => Busy.bind0 (assert_moves _) (Calls.assert _) fun _ =>
      Busy.ite (Busy.pure _) (Busy.mono ((vecLoop_moves hm pred start mem _).bind fun _ => Moves.pure _)
        (Busy.last (vecLoop_moves hm pred start mem _) (vecLoop_busy hm he hf pred start mem _)) (Nat.le_succ _) (Nat.le_refl _))

theorem vecEndLoop_busy {B K : Nat} {f : M Reader α} (hm : Moves f) (he : Eats f) (hf : Busy B K f) :
    ∀ mem, Busy (B + 1) (B + K + 1) (vecEndLoop f mem)
  | 0 => by
    rw [Nat.add_comm B 1]
    exact Busy.bind end_moves (Busy.ofCalls Calls.end end_moves) fun _ =>
      Busy.ite (Busy.pure _) (Busy.round hm he hf fun _ => Busy.panic)
  | mem + 1 => by
    have := Busy.bind (B := 1) (B' := B) (K := B + K + 1) end_moves (Busy.ofCalls Calls.end end_moves)
      (g := fun b => if b then Pure.pure [] else f >>= fun v => vecEndLoop f mem >>= fun vs => Pure.pure (v :: vs)) fun _ =>
      Busy.ite (Busy.pure _) (Busy.round hm he hf fun v => Busy.last (vecEndLoop_moves hm mem) (vecEndLoop_busy hm he hf mem))
    rw [Nat.add_comm B 1]
    exact this

theorem vecWithPredicate_busy {B K : Nat} {f : M Reader α} (hm : Moves f) (mem size : Nat)
    (he : size ≠ 0 → Eats f) (hf : Busy B K f) (cap : Option Nat)
    (pred : Nat → α → σ → Bool × σ) (init : σ) : Busy (B + 1) (B + K + 1) (vecWithPredicate mem size cap f pred init) := by
  unfold vecWithPredicate
  split
  · exact Busy.pure _
  · rename_i hs
    exact Busy.bind0 (withCapacity_moves _ _) (Calls.withCapacity _ _) fun _ => Busy.get fun _ =>
      Busy.mono (vecLoop_moves hm _ _ _ _) (vecLoop_busy hm (he hs) hf _ _ _ _) (Nat.le_succ _) (Nat.le_refl _)

theorem vecRead_busy {B K : Nat} {f : M Reader α} (hm : Moves f) (mem size : Nat)
    (he : size ≠ 0 → Eats f) (hf : Busy B K f) (l : Limit α σ) : Busy (B + 1) (B + K + 1) (vecRead mem size f l) := by
  cases l with
  | count n => exact Busy.ite (Busy.pure _) (vecWithPredicate_busy hm _ _ he hf _ _ _)
  | «until» p st => exact vecWithPredicate_busy hm _ _ he hf _ _ _
  | bytes n =>
    exact Busy.bind0 (usize_moves _) (Calls.usize _) fun _ =>
      Busy.ite (Busy.pure _) (vecWithPredicate_busy hm _ _ he hf _ _ _)
  | bits n => exact Busy.ite (Busy.pure _) (vecWithPredicate_busy hm _ _ he hf _ _ _)
  | «end» =>
    simp only [vecRead, vecToEnd]
    split
    · exact Busy.pure _
    · rename_i hs
      exact vecEndLoop_busy hm (he hs) hf _

theorem Ty.vec_busy (m : Machine) {size B K : Nat} {l : LimitE} {t : Ty} {env : Env} (hr : t.Runs)
    (hh : size ≠ 0 → Eats (t.read m env)) (h : Busy B K (t.read m env)) :
    Busy (B + 1) (B + K + 1) ((Ty.vec size l t).read m env) := by
  have hm := Ty.moves m t env hr
  simp only [Ty.read]
  exact Busy.bind0 (limitEval_moves l env) (Calls.limitEval l env) fun lim =>
    Busy.last (vecRead_moves hm _ _ _) (vecRead_busy hm _ _ hh h lim)

theorem readExact_busy (n : Nat) : Busy 4 1 (readExact n) := by
  intro r hr
  by_cases hb : r.inner.pos ≤ r.inner.data.length
  · have hmov := readExact_moves n
    have hs := hr.sync
    simp only [Synced] at hs
    rcases hx : readExact n r with ⟨x, r'⟩
    have hrun := hx
    rw [readExact_run hr.healthy hb] at hrun
    have hc : (adv 3 0 r).inner.calls = r.inner.calls + 3 := rfl
    have hbits : (adv 3 0 r).bitsRead = r.bitsRead := rfl
    split at hrun
    · have h1 : Calls 0 (usize (n * 8) >>= fun k => (M.throw (.incomplete k) : M Reader (List Byte))) :=
        (Calls.usize _).map fun _ => Calls.throw _
      have h2 := h1 (adv 3 0 r)
      rw [hrun] at h2
      dsimp only at h2 ⊢
      have h3 : after (x, r') ≤ r.todo := by
        rcases x with (a | e | _)
        · exact hmov.todo_le hr hx
        · exact Nat.zero_le _
        · exact Nat.zero_le _
      omega
    · rename_i hn
      have hlen : (avail r).length = r.inner.data.length - r.inner.pos := by simp [avail]
      rw [hlen] at hn
      have h2 := Calls.readBytes n .lsb0 (adv 3 0 r)
      rw [hrun] at h2
      dsimp only at h2 ⊢
      rcases x with (a | e | _)
      · have h3 := Counts.readBytes n .lsb0 _ _ _ hrun
        have h4 := (hmov r a r' hr hx).2.1
        simp only [after, Reader.todo, h4]
        omega
      · simp only [after, Reader.todo]
        omega
      · simp only [after, Reader.todo]
        omega
  · rw [readExact_beyond hr.healthy hb]
    simp only [after]
    simp [adv]
    omega

theorem convert_busy {B K : Nat} {f : Val → Option Val} {rd : M Reader Val} (hm : Moves rd) (h : Busy B K rd) :
    Busy B K (rd >>= convert f) := by
  refine Busy.bind (B' := 0) hm h fun v => ?_
  unfold convert
  split
  · exact Busy.pure _
  · exact Busy.throw _

theorem byte_eats (m : Machine) {env : Env} : Eats ((byteTy m.native).read m env) := by
  simp only [byteTy, Ty.read]
  exact uintValid.eats (byte_valid m.native)

theorem byte_busy (m : Machine) {env : Env} : Busy 2 0 ((byteTy m.native).read m env) := by
  simp only [byteTy, Ty.read]
  exact Busy.ofCalls ((Calls.readUnsigned _ _ _).map fun _ => Calls.pure _) (uintValid.moves (byte_valid m.native))

theorem Leaf.busy (m : Machine) {l : Leaf} (hv : l.valid m.native = true) :
    Busy l.calls l.callRate (l.codec m).read := by
  have hm := l.moves m hv
  cases l with
  | uint W ctx => exact Busy.ofCalls ((Calls.readUnsigned _ _ _).map fun _ => Calls.pure _) hm
  | sint W ctx => exact Busy.ofCalls ((Calls.readSigned _ _ _).map fun _ => Calls.pure _) hm
  | nonzero W ctx =>
    refine Busy.ofCalls (Calls.map (Calls.map (Calls.readUnsigned _ _ _) fun _ => ?_) fun _ => Calls.pure _) hm
    split
    · exact Calls.throw _
    · exact Calls.pure _
  | nonzeroSigned W ctx =>
    refine Busy.ofCalls (Calls.map (Calls.map (Calls.readSigned _ _ _) fun _ => ?_) fun _ => Calls.pure _) hm
    split
    · exact Calls.throw _
    · exact Calls.pure _
  | bool ctx =>
    refine Busy.ofCalls (Calls.map (Calls.map (Calls.readUnsigned _ _ _) fun _ => ?_) fun _ => Calls.pure _) hm
    split
    · exact Calls.pure _
    · split
      · exact Calls.pure _
      · exact Calls.throw _
  | cstring =>
    simp only [Leaf.codec, cstringCodec_eq]
    exact convert_busy (Ty.moves m _ _ (textTy_runs _)) (Ty.vec_busy m (t := byteTy m.native)
      (fun _ => uintValid.moves (byte_valid m.native)) (fun _ => byte_eats m) (byte_busy m))
  | cstringSized n =>
    simp only [Leaf.valid, decide_eq_true_iff] at hv
    simp only [Leaf.codec, cstringSizedCodec_eq _ _ hv]
    have h : Busy 3 3 ((sizedTextTy m.native n).read m {}) := Ty.vec_busy m (size := 1) (l := .count fun _ => n) (B := 2)
      (K := 0) (t := byteTy m.native) (fun _ => uintValid.moves (byte_valid m.native)) (fun _ => byte_eats m) (byte_busy m)
    exact convert_busy (Ty.moves m _ _ (sizedTextTy_runs _ n)) h
  | unit => exact Busy.pure _

theorem DAttrs.read_busy (a : DAttrs) (native : Endian) {rd : Env → M Reader Val} {B K : Nat}
    (hm : ∀ env, Moves (rd env)) (h : ∀ env, Busy B K (rd env)) (env : Env) :
    Busy (a.calls + B) K (a.toAttrs.read native rd env) := by
  unfold Attrs.read
  rw [show a.toAttrs.seek = none from rfl, seekRead_none, M.pure_bind]
  have hval : ∀ env, Busy B K (a.toAttrs.value rd env) := fun env => by
    unfold Attrs.value
    exact Busy.ite (Busy.bind (B' := 0) (hm env) (h env) fun v => Busy.pure _) (Busy.pure _)
  have hpad : ∀ p : Option Nat, ∀ env,
      Busy (if p.isSome then 2 else 0) K (padRead a.toAttrs.padOrder (p.map fun n (_ : Env) => (n : Int)) env) := fun p env => by
    have := Calls.padRead a.toAttrs.padOrder (p.map fun n (_ : Env) => (n : Int)) env
    refine Busy.ofCalls ?_ (padRead_moves _ _ _)
    cases p <;> exact this
  have h1 := Busy.bind (magicRead_moves native a.magic) (Busy.ofCalls (K := K) (Calls.magicRead native a.magic) (magicRead_moves native a.magic))
    fun _ => Busy.bind (padRead_moves _ _ _) (hpad a.padBefore env) fun _ => Busy.get fun r =>
      Busy.bind (Attrs.value_moves a.toAttrs hm _) (hval (env.at (if a.toAttrs.usesOffset then r.bitsRead else 0))) fun v =>
      Busy.bind0 (check_moves a.toAttrs _ v) (Calls.check a.toAttrs (env.at (if a.toAttrs.usesOffset then r.bitsRead else 0)) v) fun _ =>
      Busy.last (g := fun _ => v) (padRead_moves _ _ _) (hpad a.padAfter ((env.at (if a.toAttrs.usesOffset then r.bitsRead else 0)).push v))
  have e : a.calls + B = 2 * a.magic.length + ((if a.padBefore.isSome then 2 else 0) + (B + (if a.padAfter.isSome then 2 else 0))) := by
    unfold DAttrs.calls
    omega
  rw [e]
  exact h1

mutual

theorem Def.busy (m : Machine) : ∀ (d : Def) (env : Env), d.valid m.native = true → d.dense = true →
    Busy d.calls d.callRate ((d.toTy m).read m env)
  | .leaf size l, env, hv, _ => by
    simp only [Def.valid] at hv
    simp only [Def.toTy, Ty.read, Def.calls, Def.callRate]
    exact Leaf.busy m hv
  | .option t, env, hv, hd => by
    simp only [Def.valid, Def.dense] at hv hd
    simp only [Def.toTy, Ty.read, Def.calls, Def.callRate]
    exact Busy.last (Ty.moves m _ env (t.runs m hv)) (t.busy m env hv hd)
  | .array n t, env, hv, hd => by
    simp only [Def.valid, Def.dense] at hv hd
    simp only [Def.toTy, Ty.read, Def.calls, Def.callRate]
    have hm := Ty.moves m _ env (t.runs m hv)
    exact Busy.last (arrayRead_moves hm n) (arrayRead_busy hm (t.busy m env hv hd) n)
  | .pair a b, env, hv, hd => by
    simp only [Def.valid, Def.dense, Bool.and_eq_true] at hv hd
    simp only [Def.toTy, Ty.read, Def.calls, Def.callRate]
    have hma := Ty.moves m _ env (a.runs m hv.1)
    have hmb := Ty.moves m _ env (b.runs m hv.2)
    have ha := Busy.mono hma (a.busy m env hv.1 hd.1) (Nat.le_refl _) (Nat.le_max_left a.callRate b.callRate)
    have hb := Busy.mono hmb (b.busy m env hv.2 hd.2) (Nat.le_refl _) (Nat.le_max_right a.callRate b.callRate)
    exact Busy.bind hma ha fun x => Busy.last hmb hb
  | .vec zst l t, env, hv, hd => by
    simp only [Def.valid, Def.dense, Bool.and_eq_true, Bool.or_eq_true] at hv hd
    simp only [Def.toTy, Def.calls, Def.callRate]
    refine Ty.vec_busy m (t.runs m hv) (fun hs => ?_) (t.busy m env hv hd.1)
    refine Ty.eats m _ env (t.runs m hv) (t.eats m hv ?_)
    rcases hd.2 with h | h
    · rw [h] at hs
      exact absurd rfl hs
    · exact h
  | .bytes n ctx, env, _, _ => by
    simp only [Def.toTy, Ty.read, Def.calls, Def.callRate]
    exact Busy.bind0 (toUsize_moves _) (Calls.toUsize _) fun k => Busy.last (readExact_moves k) (readExact_busy k)
  | .struct args magic fs, env, hv, hd => by
    simp only [Def.valid, Def.dense] at hv hd
    simp only [Def.toTy, Ty.read, Def.calls, Def.callRate]
    rw [seekRead_none, M.pure_bind]
    exact Busy.bind (magicRead_moves _ _) (Busy.ofCalls (Calls.magicRead _ _) (magicRead_moves _ _)) fun _ => fs.busy m _ hv hd
  | .enum args magic id vs, env, hv, hd => by
    simp only [Def.valid, Def.dense, Bool.and_eq_true] at hv hd
    simp only [Def.toTy, Ty.read, Def.calls, Def.callRate]
    have hrun := vs.runs m id hv.2
    have hdis : ∀ (sel : Option Nat) (env : Env) (x : Val) (typed : Bool),
        Busy vs.calls vs.callRate (dispatch sel ((vs.toVariants m).readAt m env x typed)) := by
      intro sel env x typed
      cases sel with
      | none => exact Busy.throw _
      | some i => exact Busy.last (Variants.moves m _ _ _ _ i hrun) (vs.busy m id env x typed i hv.2 hd)
    rw [Nat.add_assoc]
    refine Busy.bind (magicRead_moves _ _) (Busy.ofCalls (Calls.magicRead _ _) (magicRead_moves _ _)) fun _ => ?_
    cases id with
    | arg e =>
      rw [Nat.zero_add]
      exact hdis _ _ _ _
    | typed s W c st =>
      simp only [DId.valid, Bool.and_eq_true] at hv
      have hmc : Moves (uintCodec m.native W c).read := uintValid.moves hv.1.1
      exact Busy.bind hmc (Busy.ofCalls ((Calls.readUnsigned _ _ _).map fun _ => Calls.pure _) hmc) fun x => hdis _ _ _ _

theorem DFields.busy (m : Machine) : ∀ (fs : DFields) (env : Env), fs.valid m.native = true → fs.dense = true →
    Busy fs.calls fs.callRate ((fs.toFields m).read m env)
  | .nil, env, _, _ => by
    simp only [DFields.toFields, Fields.read, DFields.calls]
    exact Busy.pure _
  | .cons a t rest, env, hv, hd => by
    simp only [DFields.valid, DFields.dense, Bool.and_eq_true] at hv hd
    simp only [DFields.toFields, Fields.read, DFields.calls, DFields.callRate]
    have hm := fun env => Ty.moves m _ env (t.runs m hv.1)
    have hma := Attrs.read_moves (a := a.toAttrs) rfl m.native hm env
    have ha := Busy.mono hma (a.read_busy m.native hm (fun env => t.busy m env hv.1 hd.1) env) (Nat.le_refl _)
      (Nat.le_max_left t.callRate rest.callRate)
    have hr := fun env => Fields.moves m _ env (rest.runs m hv.2)
    exact Busy.bind hma ha fun v => Busy.last (hr _) (Busy.mono (hr _) (rest.busy m _ hv.2 hd.2) (Nat.le_refl _)
      (Nat.le_max_right t.callRate rest.callRate))
  | .temp a t value rest, env, hv, hd => by
    simp only [DFields.valid, DFields.dense, Bool.and_eq_true] at hv hd
    simp only [DFields.toFields, Fields.read, DFields.calls, DFields.callRate]
    have hm := fun env => Ty.moves m _ env (t.runs m hv.1)
    have hma := Attrs.read_moves (a := a.toAttrs) rfl m.native hm env
    have ha := Busy.mono hma (a.read_busy m.native hm (fun env => t.busy m env hv.1 hd.1) env) (Nat.le_refl _)
      (Nat.le_max_left t.callRate rest.callRate)
    have hr := fun env => Fields.moves m _ env (rest.runs m hv.2)
    exact Busy.bind hma ha fun v => Busy.mono (hr _) (rest.busy m _ hv.2 hd.2) (Nat.le_refl _)
      (Nat.le_max_right t.callRate rest.callRate)

theorem DFields.storedBusy (m : Machine) : ∀ (fs : DFields) (env : Env) (x : Val), fs.valid m.native = true →
    fs.dense = true → Busy fs.calls fs.callRate ((fs.toFields m).readStored m env x)
  | .nil, env, x, _, _ => by
    simp only [DFields.toFields, Fields.readStored, DFields.calls]
    exact Busy.pure _
  | .cons a t rest, env, x, hv, hd => by
    simp only [DFields.valid, DFields.dense, Bool.and_eq_true] at hv hd
    simp only [DFields.toFields, Fields.readStored, DFields.calls, DFields.callRate]
    have hr := fun env => Fields.moves m _ env (rest.runs m hv.2)
    exact Busy.mono ((hr _).bind fun _ => Moves.pure _) (Busy.last (hr _) (rest.busy m _ hv.2 hd.2)) (Nat.le_add_left _ _)
      (Nat.le_max_right _ _)
  | .temp a t value rest, env, x, hv, hd => by
    simp only [DFields.valid, DFields.dense, Bool.and_eq_true] at hv hd
    simp only [DFields.toFields, Fields.readStored, DFields.calls, DFields.callRate]
    exact Busy.mono (Fields.moves m _ _ (rest.runs m hv.2)) (rest.busy m _ hv.2 hd.2) (Nat.le_add_left _ _)
      (Nat.le_max_right _ _)

theorem DVariants.busy (m : Machine) (id : DId) : ∀ (vs : DVariants) (env : Env) (x : Val) (typed : Bool) (i : Nat),
    vs.valid m.native id = true → vs.dense = true →
    Busy vs.calls vs.callRate ((vs.toVariants m).readAt m env x typed i)
  | .nil, _, _, _, _, _, _ => by
    simp only [DVariants.toVariants, Variants.readAt]
    exact Busy.panic
  | .cons a fs rest, env, x, typed, 0, hv, hd => by
    simp only [DVariants.valid, DVariants.dense, Bool.and_eq_true] at hv hd
    simp only [DVariants.toVariants, Variants.readAt, DVariants.calls, DVariants.callRate]
    split
    · exact Busy.mono (Fields.storedMoves m _ env x (fs.runs m hv.1.2)) (fs.storedBusy m env x hv.1.2 hd.1)
        (Nat.le_max_left _ _) (Nat.le_max_left _ _)
    · exact Busy.mono (Fields.moves m _ env (fs.runs m hv.1.2)) (fs.busy m env hv.1.2 hd.1) (Nat.le_max_left _ _)
        (Nat.le_max_left _ _)
  | .cons a fs rest, env, x, typed, i + 1, hv, hd => by
    simp only [DVariants.valid, DVariants.dense, Bool.and_eq_true] at hv hd
    simp only [DVariants.toVariants, Variants.readAt, DVariants.calls, DVariants.callRate]
    exact Busy.mono (Variants.moves m _ _ _ _ i (rest.runs m id hv.2)) (rest.busy m id env x typed i hv.2 hd.2)
      (Nat.le_max_right _ _) (Nat.le_max_right _ _)

end

end Deku
