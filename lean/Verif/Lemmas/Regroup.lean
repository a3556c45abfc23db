import Verif.Spec.Regroup
import Verif.Lemmas.Text

/-! # Ways to write the same definition -/

namespace Deku

instance {σ : Type} : LawfulMonad (M σ) := LawfulMonad.mk' (M σ)
  (id_map := by
    intro α f
    funext s
    show (f >>= fun a => pure a) s = f s
    rw [M.bind_def]
    rcases f s with ⟨x, s'⟩
    cases x <;> rfl)
  (pure_bind := fun _ _ => rfl)
  (bind_assoc := by
    intro α β γ f g h
    funext s
    exact M.bind_assoc_run f g h s)

/-! ## Values -/

namespace Val

theorem IsListOf.isList {n : Nat} {v : Val} (h : IsListOf n v) : v.isList = true ∧ v.elems.length = n := by
  induction n generalizing v with
  | zero => subst h; exact ⟨rfl, rfl⟩
  | succ n ih =>
    obtain ⟨x, xs, rfl, h⟩ := h
    obtain ⟨h1, h2⟩ := ih h
    exact ⟨h1, by simp [elems, h2]⟩

theorem splitAt_append {n : Nat} {x : Val} (h : IsListOf n x) (xs : Val) : splitAt n (x.append xs) = (x, xs) := by
  induction n generalizing x with
  | zero => subst h; cases xs <;> rfl
  | succ n ih =>
    obtain ⟨y, ys, rfl, h⟩ := h
    rw [Val.append, splitAt, ih h]

theorem nestAt_flatAt {n i : Nat} {v : Val} (h : HasAt n i v) : nestAt n i (flatAt i v) = v := by
  induction i generalizing v with
  | zero =>
    obtain ⟨x, xs, rfl, h⟩ := h
    rw [flatAt, nestAt, splitAt_append h]
  | succ i ih =>
    obtain ⟨x, xs, rfl, h⟩ := h
    rw [flatAt, nestAt, ih h]

theorem ofList_isListOf (vs : List Val) : IsListOf vs.length (ofList vs) := by
  induction vs with
  | nil => rfl
  | cons v vs ih => exact ⟨v, ofList vs, rfl, ih⟩

end Val

/-! ## Scopes -/

theorem insideStruct_scopes (args : Env → List Val) : Scopes (insideStruct args) :=
  ⟨fun _ _ _ => rfl, fun _ _ _ => rfl⟩

theorem behindStruct_scopes : Scopes behindStruct :=
  ⟨fun _ _ _ => rfl, fun _ _ _ => rfl⟩

theorem sameScope_scopes : Scopes sameScope := ⟨fun _ _ _ => rfl, fun _ _ _ => rfl⟩

theorem insideStruct_zero (args : Env → List Val) (env : Env) (h : env.off = 0) :
    insideStruct args 0 env = { ctx := args (env.at 0) } := by
  obtain ⟨c, vs, o⟩ := env
  cases h
  rfl

theorem behindStruct_zero (env : Env) (v : Val) : behindStruct 0 (env.push v) = env.pushAll v := rfl

/-! ## Reading and writing in another scope -/

theorem LimitE.under_eval (φ : Env → Env) (l : LimitE) (env : Env) : (l.under φ).eval env = l.eval (φ env) := by
  cases l <;> rfl

theorem Ty.under_read (m : Machine) (φ : Env → Env) : ∀ (t : Ty) (env : Env), (t.under φ).read m env = t.read m (φ env)
  | .prim _ _, _ => rfl
  | .option t, env => by rw [Ty.under, Ty.read, Ty.read, Ty.under_read m φ t]
  | .array n t, env => by rw [Ty.under, Ty.read, Ty.read, Ty.under_read m φ t]
  | .pair a b, env => by rw [Ty.under, Ty.read, Ty.read, Ty.under_read m φ a, Ty.under_read m φ b]
  | .vec n l t, env => by rw [Ty.under, Ty.read, Ty.read, Ty.under_read m φ t, LimitE.under_eval]
  | .bytes _ _, _ => rfl
  | .struct .., env => by rw [Ty.under, Ty.read, Ty.read]
  | .enum _ _ id _ _, env => by cases id <;> rw [Ty.under, Ty.read, Ty.read]

theorem Ty.under_write (m : Machine) (φ : Env → Env) : ∀ (t : Ty) (env : Env) (v : Val),
    (t.under φ).write m env v = t.write m (φ env) v
  | .prim _ _, _, _ => rfl
  | .option t, env, v => by
    rw [Ty.under]
    cases v <;> simp only [Ty.write]
    exact Ty.under_write m φ t env _
  | .array n t, env, v => by rw [Ty.under, Ty.write, Ty.write, funext (Ty.under_write m φ t env)]
  | .pair a b, env, v => by
    rw [Ty.under, Ty.write.eq_def, Ty.write.eq_def]
    dsimp only
    split
    · rw [Ty.under_write m φ a, Ty.under_write m φ b]
    · rfl
  | .vec n l t, env, v => by rw [Ty.under, Ty.write, Ty.write, funext (Ty.under_write m φ t env)]
  | .bytes _ _, _, _ => by rw [Ty.under, Ty.write, Ty.write]
  | .struct .., env, v => by rw [Ty.under, Ty.write, Ty.write]
  | .enum .., env, v => by
    rw [Ty.under]
    cases v <;> simp only [Ty.write]

theorem padRead_under (o : Option Order) (p : Option (Env → Int)) (φ : Env → Env) (env : Env) :
    padRead o (p.map fun f env => f (φ env)) env = padRead o p (φ env) := by
  cases p <;> rfl

theorem padWrite_under (o : Option Order) (p : Option (Env → Int)) (φ : Env → Env) (env : Env) :
    padWrite o (p.map fun f env => f (φ env)) env = padWrite o p (φ env) := by
  cases p <;> rfl

theorem seekRead_under (s : Option (Env → Option SeekFrom)) (φ : Env → Env) (env : Env) :
    seekRead (s.map fun f env => f (φ env)) env = seekRead s (φ env) := by
  cases s <;> rfl

theorem seekWrite_under (s : Option (Env → Option SeekFrom)) (φ : Env → Env) (env : Env) :
    seekWrite (s.map fun f env => f (φ env)) env = seekWrite s (φ env) := by
  cases s <;> rfl

section
variable (a : Attrs) (φ φ' : Env → Env) (hat : ∀ env off, φ (env.at off) = (φ env).at off)
  (hpush : ∀ env v, φ' (env.push v) = (φ env).push v)

theorem Attrs.under_isRead (env : Env) : (a.under φ φ').isRead env = a.isRead (φ env) := by
  unfold Attrs.isRead Attrs.under
  rcases a.skip with _ | ⟨⟨⟩⟩ <;> rcases a.cond with _ | c <;> rfl

theorem Attrs.under_isWritten (env : Env) : (a.under φ φ').isWritten env = a.isWritten (φ env) := by
  unfold Attrs.isWritten Attrs.under
  rcases a.skip with _ | ⟨⟨⟩⟩ <;> rcases a.cond with _ | c <;> rfl

include hat hpush

theorem Attrs.under_read (native : Endian) (rd : Env → M Reader Val) (env : Env) :
    (a.under φ φ').read native (fun env => rd (φ env)) env = a.read native rd (φ env) := by
  have e1 : ∀ env, (a.under φ φ').value (fun env => rd (φ env)) env = a.value rd (φ env) := by
    intro env
    unfold Attrs.value
    rw [Attrs.under_isRead]
    rfl
  have e2 : ∀ env v, (a.under φ φ').check (σ := Reader) env v = a.check (φ env) v := fun _ _ => rfl
  have e3 : ∀ env, seekRead (a.under φ φ').seek env = seekRead a.seek (φ env) := seekRead_under _ _
  have e4 : ∀ env, padRead (a.under φ φ').padOrder (a.under φ φ').padBefore env = padRead a.padOrder a.padBefore (φ env) :=
    padRead_under _ _ _
  have e5 : ∀ env v, padRead (a.under φ φ').padOrder (a.under φ φ').padAfter (env.push v) =
      padRead a.padOrder a.padAfter ((φ env).push v) := fun env v => by
    rw [← hpush]
    exact padRead_under _ _ _ _
  unfold Attrs.read
  simp only [e1, e2, e3, e4, e5, hat]
  rfl

theorem Attrs.under_write (native : Endian) (wr : Env → Val → M Writer Unit) (env : Env) (v : Val) :
    (a.under φ φ').write native (fun env => wr (φ env)) env v = a.write native wr (φ env) v := by
  have e1 : ∀ env, (a.under φ φ').put (fun env => wr (φ env)) env v = a.put wr (φ env) v := by
    intro env
    unfold Attrs.put
    rw [Attrs.under_isWritten]
    rfl
  have e2 : ∀ env v, (a.under φ φ').check (σ := Writer) env v = a.check (φ env) v := fun _ _ => rfl
  have e3 : ∀ env, seekWrite (a.under φ φ').seek env = seekWrite a.seek (φ env) := seekWrite_under _ _
  have e4 : ∀ env, padWrite (a.under φ φ').padOrder (a.under φ φ').padBefore env = padWrite a.padOrder a.padBefore (φ env) :=
    padWrite_under _ _ _
  have e5 : ∀ env v, padWrite (a.under φ φ').padOrder (a.under φ φ').padAfter (env.push v) =
      padWrite a.padOrder a.padAfter ((φ env).push v) := fun env v => by
    rw [← hpush]
    exact padWrite_under _ _ _ _
  unfold Attrs.write
  simp only [e1, e2, e3, e4, e5, hat]
  rfl

end

section
variable {φ : Nat → Env → Env} (h : Scopes φ) (g : Val → Val)
include h

theorem Fields.under_read (m : Machine) : ∀ (fs : Fields) (k : Nat) (env : Env),
    (fs.under φ g k).read m env = fs.read m (φ k env)
  | .nil, _, _ => rfl
  | .cons a t rest, k, env => by
    rw [Fields.under, Fields.read, Fields.read, funext (Ty.under_read m (φ k) t),
      Attrs.under_read a _ _ (h.at k) (h.push k)]
    refine bind_congr fun v => ?_
    rw [Fields.under_read m rest, h.push]
  | .temp a t f rest, k, env => by
    rw [Fields.under, Fields.read, Fields.read, funext (Ty.under_read m (φ k) t),
      Attrs.under_read a _ _ (h.at k) (h.push k)]
    refine bind_congr fun v => ?_
    rw [Fields.under_read m rest, h.push]

theorem Fields.under_write (m : Machine) : ∀ (fs : Fields) (k : Nat) (env : Env) (all v : Val),
    (fs.under φ g k).write m env all v = fs.write m (φ k env) (g all) v
  | .nil, _, _, _, _ => by rw [Fields.under, Fields.write, Fields.write]
  | .cons a t rest, k, env, all, v => by
    rw [Fields.under]
    cases v with
    | cons x xs =>
      rw [Fields.write, Fields.write, funext fun env => funext (Ty.under_write m (φ k) t env),
        Attrs.under_write a _ _ (h.at k) (h.push k)]
      refine bind_congr fun _ => ?_
      rw [Fields.under_write m rest, h.push]
    | _ => simp only [Fields.write]
  | .temp a t f rest, k, env, all, v => by
    rw [Fields.under]
    cases f with
    | some f =>
      rw [Option.map_some, Fields.write, Fields.write, funext fun env => funext (Ty.under_write m (φ k) t env),
        Attrs.under_write a _ _ (h.at k) (h.push k)]
      refine bind_congr fun _ => ?_
      rw [Fields.under_write m rest, h.push]
    | none =>
      rw [Option.map_none, Fields.write, Fields.write,
        Attrs.under_write a _ _ (h.at k) (h.push k) _ (fun _ _ => pure ())]
      refine bind_congr fun _ => ?_
      rw [Fields.under_write m rest, h.push]

/-! ## Fields one after the other -/

/-- Fields moved into the scope of others, and fields after them. -/
theorem Fields.under_append_read (m : Machine) (post : Fields) : ∀ (fs : Fields) (k : Nat) (env : Env),
    fs.noTemp = true → ((fs.under φ g k).append post).read m env =
      (do let v ← fs.read m (φ k env); let vs ← post.read m (env.pushAll v); pure (v.append vs))
  | .nil, k, env, _ => by
    rw [Fields.under, Fields.append, Fields.read]
    simp only [pure_bind, Env.pushAll, Val.elems, List.reverse_nil, List.nil_append, Val.append, bind_pure]
  | .cons a t rest, k, env, hn => by
    rw [Fields.under, Fields.append, Fields.read, Fields.read, funext (Ty.under_read m (φ k) t),
      Attrs.under_read a _ _ (h.at k) (h.push k)]
    simp only [bind_assoc, pure_bind]
    refine bind_congr fun v => ?_
    rw [Fields.under_append_read m post rest (k + 1) (env.push v) hn, h.push]
    simp only [bind_assoc, pure_bind]
    refine bind_congr fun vs => ?_
    simp only [Env.pushAll, Val.elems, List.reverse_cons, List.append_assoc, List.singleton_append, Env.push, Val.append]

theorem Fields.under_append_write (m : Machine) (post : Fields) : ∀ (fs : Fields) (k : Nat) (env : Env)
    (all all' x xs : Val), fs.noTemp = true → Val.IsListOf fs.arity x →
    ((fs.under φ g k).append post).write m env all (x.append xs) =
      (do fs.write m (φ k env) all' x; post.write m (env.pushAll x) all xs)
  | .nil, k, env, all, all', x, xs, _, hx => by
    cases hx
    rw [Fields.under, Fields.append, Fields.write]
    simp only [if_true, pure_bind, Env.pushAll, Val.elems, List.reverse_nil, List.nil_append, Val.append]
  | .cons a t rest, k, env, all, all', x, xs, hn, hx => by
    obtain ⟨y, ys, rfl, hx⟩ := hx
    rw [Fields.under, Fields.append, Val.append, Fields.write, Fields.write,
      funext fun env => funext (Ty.under_write m (φ k) t env), Attrs.under_write a _ _ (h.at k) (h.push k)]
    simp only [bind_assoc]
    refine bind_congr fun _ => ?_
    rw [Fields.under_append_write m post rest (k + 1) (env.push y) all all' ys xs hn hx, h.push]
    refine bind_congr fun _ => ?_
    simp only [Env.pushAll, Val.elems, List.reverse_cons, List.append_assoc, List.singleton_append, Env.push]

end

/-- A struct has as many fields as it is read with. -/
theorem Fields.read_isListOf (m : Machine) : ∀ (fs : Fields) (env : Env) (r r' : Reader) (v : Val),
    fs.read m env r = (.ok v, r') → Val.IsListOf fs.arity v
  | .nil, _, _, _, v, h => by cases h; rfl
  | .cons a t rest, env, r, r', v, h => by
    rw [Fields.read] at h
    obtain ⟨x, r1, _, h⟩ := M.bind_eq_ok h
    obtain ⟨xs, r2, h1, h⟩ := M.bind_eq_ok h
    cases h
    exact ⟨x, xs, rfl, Fields.read_isListOf m rest _ _ _ _ h1⟩
  | .temp a t f rest, env, r, r', v, h => by
    rw [Fields.read] at h
    obtain ⟨x, r1, _, h⟩ := M.bind_eq_ok h
    exact Fields.read_isListOf m rest _ _ _ _ h

/-! ## A field without attributes -/

theorem M.get_bind_const {σ α : Type} (f : M σ α) : (M.get >>= fun _ => f) = f := rfl

theorem Attrs.read_plain (native : Endian) (rd : Env → M Reader Val) (env : Env) :
    ({} : Attrs).read native rd env = rd (env.at 0) := by
  simp only [Attrs.read, seekRead, magicRead, padRead, Attrs.value, Attrs.isRead, Attrs.applyMap, Attrs.check, pure_bind,
    if_true, Bool.true_eq_false, if_false, bind_pure, Bool.false_eq_true]
  rw [M.get_bind_const]

theorem Attrs.write_plain (native : Endian) (wr : Env → Val → M Writer Unit) (env : Env) (v : Val) :
    ({} : Attrs).write native wr env v = wr (env.at 0) v := by
  simp only [Attrs.write, seekWrite, magicWrite, Coll.writeAll, padWrite, Attrs.put, Attrs.isWritten, Attrs.check,
    pure_bind, if_true, Bool.true_eq_false, if_false, Bool.false_eq_true]
  rw [M.get_bind_const]
  exact bind_pure _

/-! ## Moving fields into a struct -/

section
variable (m : Machine) (inner post : Fields) (args : Env → List Val) (g : Val → Val) (hn : inner.noTemp = true)
include hn

theorem together_read : ∀ (pre : Fields) (k : Nat) (env : Env), env.off = 0 →
    (pre.append ((inner.under (insideStruct args) id 0).append post)).read m env =
      (do
        let v ← ((pre.under sameScope g k).append
          (.cons {} (.struct args none [] inner) (post.under behindStruct g 0))).read m env
        pure (v.flatAt pre.arity))
  | .nil, k, env, h0 => by
    rw [Fields.under, Fields.append, Fields.append,
      Fields.under_append_read (insideStruct_scopes args) id m post inner 0 env hn, insideStruct_zero args env h0, Fields.read]
    simp only [Attrs.read_plain, Ty.read, seekRead, magicRead, pure_bind, bind_assoc, Fields.under_read behindStruct_scopes,
      behindStruct_zero]
    rfl
  | .cons a t rest, k, env, h0 => by
    rw [Fields.under, Fields.append, Fields.append, Fields.read, Fields.read, funext (Ty.under_read m (sameScope k) t),
      Attrs.under_read a _ _ (sameScope_scopes.at k) (sameScope_scopes.push k)]
    simp only [bind_assoc, pure_bind]
    refine bind_congr fun v => ?_
    rw [together_read rest (k + 1) (env.push v) h0]
    simp only [bind_assoc, pure_bind]
    rfl
  | .temp a t f rest, k, env, h0 => by
    rw [Fields.under, Fields.append, Fields.append, Fields.read, Fields.read, funext (Ty.under_read m (sameScope k) t),
      Attrs.under_read a _ _ (sameScope_scopes.at k) (sameScope_scopes.push k)]
    simp only [bind_assoc]
    refine bind_congr fun v => ?_
    rw [together_read rest (k + 1) (env.push v) h0]
    rfl

theorem together_write : ∀ (pre : Fields) (k : Nat) (env : Env) (all v : Val), env.off = 0 →
    Val.HasAt inner.arity pre.arity v →
    (pre.append ((inner.under (insideStruct args) id 0).append post)).write m env (g all) (v.flatAt pre.arity) =
      ((pre.under sameScope g k).append
        (.cons {} (.struct args none [] inner) (post.under behindStruct g 0))).write m env all v
  | .nil, k, env, all, v, h0, hv => by
    obtain ⟨x, xs, rfl, hx⟩ := hv
    rw [Fields.under, Fields.append, Fields.append, Fields.arity, Val.flatAt,
      Fields.under_append_write (insideStruct_scopes args) id m post inner 0 env (g all) x x xs hn hx,
      insideStruct_zero args env h0, Fields.write, Attrs.write_plain, Ty.write]
    simp only [seekWrite, magicWrite, Coll.writeAll, pure_bind, Fields.under_write behindStruct_scopes, behindStruct_zero]
  | .cons a t rest, k, env, all, v, h0, hv => by
    obtain ⟨x, xs, rfl, hv⟩ := hv
    rw [Fields.under, Fields.append, Fields.append, Fields.arity, Val.flatAt, Fields.write, Fields.write,
      funext fun env => funext (Ty.under_write m (sameScope k) t env),
      Attrs.under_write a _ _ (sameScope_scopes.at k) (sameScope_scopes.push k)]
    refine bind_congr fun _ => ?_
    exact together_write rest (k + 1) (env.push x) all xs h0 hv
  | .temp a t f rest, k, env, all, v, h0, hv => by
    rw [Fields.under, Fields.append, Fields.append, Fields.arity]
    cases f with
    | some f =>
      rw [Option.map_some, Fields.write, Fields.write, funext fun env => funext (Ty.under_write m (sameScope k) t env),
        Attrs.under_write a _ _ (sameScope_scopes.at k) (sameScope_scopes.push k)]
      refine bind_congr fun _ => ?_
      exact together_write rest (k + 1) (env.push (f (g all))) all v h0 hv
    | none =>
      rw [Option.map_none, Fields.write, Fields.write,
        Attrs.under_write a _ _ (sameScope_scopes.at k) (sameScope_scopes.push k) _ (fun _ _ => pure ())]
      refine bind_congr fun _ => ?_
      exact together_write rest (k + 1) (env.push .none) all v h0 hv

omit hn in
theorem together_values : ∀ (pre : Fields) (k : Nat) (env : Env) (r r' : Reader) (v : Val),
    ((pre.under sameScope g k).append
      (.cons {} (.struct args none [] inner) (post.under behindStruct g 0))).read m env r = (.ok v, r') →
    Val.HasAt inner.arity pre.arity v
  | .nil, k, env, r, r', v, h => by
    rw [Fields.under, Fields.append, Fields.read] at h
    obtain ⟨x, r1, h1, h⟩ := M.bind_eq_ok h
    obtain ⟨xs, r2, h2, h⟩ := M.bind_eq_ok h
    cases h
    rw [Attrs.read_plain, Ty.read] at h1
    exact ⟨x, xs, rfl, Fields.read_isListOf m inner _ _ _ _ h1⟩
  | .cons a t rest, k, env, r, r', v, h => by
    rw [Fields.under, Fields.append, Fields.read] at h
    obtain ⟨x, r1, _, h⟩ := M.bind_eq_ok h
    obtain ⟨xs, r2, h2, h⟩ := M.bind_eq_ok h
    cases h
    exact ⟨x, xs, rfl, together_values rest (k + 1) _ _ _ _ h2⟩
  | .temp a t f rest, k, env, r, r', v, h => by
    rw [Fields.under, Fields.append, Fields.read] at h
    obtain ⟨x, r1, _, h⟩ := M.bind_eq_ok h
    exact together_values rest (k + 1) _ _ _ _ h

end

theorem together_same (m : Machine) (pre inner post : Fields) (args : Env → List Val) (hn : inner.noTemp = true) :
    Fields.Same m (together pre inner post args) (apart pre inner post args) (Val.HasAt inner.arity pre.arity)
      (Val.flatAt pre.arity) where
  read env h0 := together_read m inner post args _ hn pre 0 env h0
  write env v h0 hv := together_write m inner post args _ hn pre 0 env v v h0 hv
  values env r v r' h := together_values m inner post args _ pre 0 env r r' v h

/-! ## The same in a definition around it -/

variable {m : Machine} {t u : Ty} {P : Val → Prop} {f : Val → Val}

theorem Fields.Same.struct {fs gs : Fields} (h : fs.Same m gs P f) (args : Env → List Val)
    (seek : Option (Env → Option SeekFrom)) (magic : List Byte) :
    Ty.Same m (.struct args seek magic fs) (.struct args seek magic gs) P f where
  read env := by
    rw [Ty.read, Ty.read]
    simp only [bind_assoc]
    refine bind_congr fun _ => bind_congr fun _ => ?_
    exact h.read _ rfl
  write env v hv := by
    rw [Ty.write, Ty.write]
    refine bind_congr fun _ => bind_congr fun _ => ?_
    exact h.write _ v rfl hv
  values env r v r' hr := by
    rw [Ty.read] at hr
    obtain ⟨_, r1, _, hr⟩ := M.bind_eq_ok hr
    obtain ⟨_, r2, _, hr⟩ := M.bind_eq_ok hr
    exact h.values _ _ _ _ hr

theorem Ty.Same.option (h : t.Same m u P f) : Ty.Same m (.option t) (.option u) (Val.AllSome P) (Val.mapSome f) where
  read env := by
    rw [Ty.read, Ty.read, h.read]
    simp only [bind_assoc, pure_bind]
    rfl
  write env v hv := by
    rcases hv with rfl | ⟨x, rfl, hx⟩
    · rw [Val.mapSome, Ty.write.eq_def, Ty.write.eq_def]
      intro x hx
      cases hx
    · rw [Val.mapSome, Ty.write, Ty.write, h.write env x hx]
  values env r v r' hr := by
    rw [Ty.read] at hr
    obtain ⟨x, r1, h1, hr⟩ := M.bind_eq_ok hr
    cases hr
    exact .inr ⟨x, rfl, h.values _ _ _ _ h1⟩

theorem Ty.Same.pairLeft (h : t.Same m u P f) (b : Ty) :
    Ty.Same m (.pair t b) (.pair u b) (Val.At P 0) (Val.mapAt f 0) where
  read env := by
    rw [Ty.read, Ty.read, h.read]
    simp only [bind_assoc, pure_bind]
    rfl
  write env v hv := by
    obtain ⟨x, xs, rfl, hx⟩ := hv
    rw [Val.mapAt, Ty.write.eq_def, Ty.write.eq_def]
    dsimp only
    split
    · rename_i a b' h1
      cases h1
      rw [h.write env x hx]
    · rename_i h1
      split
      · rename_i a b' h2
        cases h2
        exact (h1 _ _ rfl).elim
      · rfl
  values env r v r' hr := by
    rw [Ty.read] at hr
    obtain ⟨x, r1, h1, hr⟩ := M.bind_eq_ok hr
    obtain ⟨y, r2, h2, hr⟩ := M.bind_eq_ok hr
    cases hr
    exact ⟨x, _, rfl, h.values _ _ _ _ h1⟩

theorem Ty.Same.pairRight (h : t.Same m u P f) (a : Ty) :
    Ty.Same m (.pair a t) (.pair a u) (Val.At P 1) (Val.mapAt f 1) where
  read env := by
    rw [Ty.read, Ty.read, h.read]
    simp only [bind_assoc, pure_bind]
    rfl
  write env v hv := by
    obtain ⟨x, xs, rfl, y, ys, rfl, hy⟩ := hv
    rw [Val.mapAt, Val.mapAt, Ty.write.eq_def, Ty.write.eq_def]
    dsimp only
    split
    · rename_i a' b' h1
      cases h1
      simp only [h.write env y hy]
    · rename_i h1
      split
      · rename_i a' b' h2
        cases h2
        exact (h1 _ _ rfl).elim
      · rfl
  values env r v r' hr := by
    rw [Ty.read] at hr
    obtain ⟨x, r1, h1, hr⟩ := M.bind_eq_ok hr
    obtain ⟨y, r2, h2, hr⟩ := M.bind_eq_ok hr
    cases hr
    exact ⟨x, _, rfl, y, _, rfl, h.values _ _ _ _ h2⟩

theorem writeAll_map {m : Machine} {t u : Ty} {P : Val → Prop} {f : Val → Val} (h : t.Same m u P f) (env : Env)
    (vs : List Val) (hv : ∀ x ∈ vs, P x) :
    Coll.writeAll (u.write m env) (vs.map f) = Coll.writeAll (t.write m env) vs := by
  induction vs with
  | nil => rfl
  | cons v vs ih =>
    rw [List.map_cons, Coll.writeAll, Coll.writeAll, h.write env v (hv v List.mem_cons_self),
      ih fun x hx => hv x (List.mem_cons_of_mem _ hx)]

theorem arrayRead_map (rd : M Reader Val) (f : Val → Val) (n : Nat) :
    Coll.arrayRead (do let v ← rd; pure (f v)) n = (do let vs ← Coll.arrayRead rd n; pure (vs.map f)) := by
  induction n with
  | zero => rfl
  | succ n ih =>
    rw [Coll.arrayRead, Coll.arrayRead, ih]
    simp only [bind_assoc, pure_bind, List.map_cons]

theorem arrayRead_all {rd : M Reader Val} {P : Val → Prop} (hp : ∀ r v r', rd r = (.ok v, r') → P v) :
    ∀ (n : Nat) (r r' : Reader) (vs : List Val), Coll.arrayRead rd n r = (.ok vs, r') → ∀ x ∈ vs, P x
  | 0, r, r', vs, h => by cases h; simp
  | n + 1, r, r', vs, h => by
    rw [Coll.arrayRead] at h
    obtain ⟨x, r1, h1, h⟩ := M.bind_eq_ok h
    obtain ⟨xs, r2, h2, h⟩ := M.bind_eq_ok h
    cases h
    intro y hy
    rcases List.mem_cons.mp hy with rfl | hy
    · exact hp _ _ _ h1
    · exact arrayRead_all hp n _ _ _ h2 y hy

theorem Ty.Same.array (h : t.Same m u P f) (n : Nat) :
    Ty.Same m (.array n t) (.array n u) (Val.All P) (Val.mapAll f) where
  read env := by
    rw [Ty.read, Ty.read, h.read, arrayRead_map]
    simp only [bind_assoc, pure_bind, Val.mapAll, elems_ofList]
  write env v hv := by
    rw [Val.mapAll, Ty.write, Ty.write, isList_ofList, elems_ofList, List.length_map, hv.1,
      writeAll_map h env _ hv.2]
  values env r v r' hr := by
    rw [Ty.read] at hr
    obtain ⟨vs, r1, h1, hr⟩ := M.bind_eq_ok hr
    cases hr
    exact ⟨isList_ofList _, by rw [elems_ofList]; exact arrayRead_all (h.values env) n _ _ _ h1⟩

theorem M.bind_congr_of_ok {σ α β : Type} {x : M σ α} {k k' : α → M σ β} {s : σ}
    (h : ∀ v s', x s = (.ok v, s') → k v s' = k' v s') : (x >>= k) s = (x >>= k') s := by
  rcases e : x s with ⟨v | _ | _, s'⟩
  · rw [M.bind_ok e, M.bind_ok e, h v s' e]
  · rw [M.bind_err e, M.bind_err e]
  · rw [M.bind_panic e, M.bind_panic e]

theorem vecEndLoop_map {α β : Type} (h : α → β) (read : M Reader α) : ∀ mem,
    Coll.vecEndLoop (do let v ← read; pure (h v)) mem = (do let l ← Coll.vecEndLoop read mem; pure (l.map h))
  | 0 => by
    rw [Coll.vecEndLoop, Coll.vecEndLoop]
    simp only [bind_assoc, pure_bind]
    refine bind_congr fun b => ?_
    cases b
    · simp only [Bool.false_eq_true, if_false, bind_assoc]
      rfl
    · rfl
  | mem + 1 => by
    rw [Coll.vecEndLoop, Coll.vecEndLoop, vecEndLoop_map h read mem]
    simp only [bind_assoc, pure_bind]
    refine bind_congr fun b => ?_
    cases b
    · simp only [Bool.false_eq_true, if_false, bind_assoc, pure_bind, List.map_cons]
    · rfl

theorem vecWithPredicate_map {α β σ τ : Type} (h : α → β) (read : M Reader α) {pred : Nat → α → σ → Bool × σ}
    {pred' : Nat → β → τ → Bool × τ} {rel : σ → τ → Prop}
    (hp : ∀ n v s t, rel s t → (pred' n (h v) t).1 = (pred n v s).1 ∧ rel (pred n v s).2 (pred' n (h v) t).2)
    (mem size : Nat) (cap : Option Nat) (s : σ) (t : τ) (hst : rel s t) :
    Coll.vecWithPredicate mem size cap (do let v ← read; pure (h v)) pred' t =
      (do let l ← Coll.vecWithPredicate mem size cap read pred s; pure (l.map h)) := by
  unfold Coll.vecWithPredicate
  split
  · rfl
  · simp only [bind_assoc]
    refine bind_congr fun _ => bind_congr fun r => ?_
    exact vecLoop_map h read r.bitsRead hp mem s t hst

theorem LimitE.through_read (f : Val → Val) (l : LimitE) (env : Env) (mem size : Nat) (rd : M Reader Val) :
    (do let lim ← l.eval env; Coll.vecRead mem size (do let v ← rd; pure (f v)) lim) =
      (do let lim ← (l.through f).eval env; let vs ← Coll.vecRead mem size rd lim; pure (vs.map f)) := by
  cases l with
  | count n =>
    simp only [LimitE.through, LimitE.eval, bind_assoc, pure_bind, Coll.vecRead]
    refine bind_congr fun k => ?_
    split
    · rfl
    · exact vecWithPredicate_map f rd (rel := Eq) (fun _ _ _ _ e => by cases e; exact ⟨rfl, rfl⟩) _ _ _ _ _ rfl
  | «until» p =>
    simp only [LimitE.through, LimitE.eval, pure_bind, Coll.vecRead]
    refine vecWithPredicate_map f rd (rel := fun s t => t = s.map f) (fun _ v s t e => ?_) _ _ _ _ _ rfl
    cases e
    exact ⟨rfl, rfl⟩
  | bytes n =>
    simp only [LimitE.through, LimitE.eval, bind_assoc, pure_bind, Coll.vecRead]
    refine bind_congr fun k => bind_congr fun k' => ?_
    split
    · rfl
    · exact vecWithPredicate_map f rd (rel := Eq) (fun _ _ _ _ e => by cases e; exact ⟨rfl, rfl⟩) _ _ _ _ _ rfl
  | bits n =>
    simp only [LimitE.through, LimitE.eval, bind_assoc, pure_bind, Coll.vecRead]
    refine bind_congr fun k => ?_
    split
    · rfl
    · exact vecWithPredicate_map f rd (rel := Eq) (fun _ _ _ _ e => by cases e; exact ⟨rfl, rfl⟩) _ _ _ _ _ rfl
  | «end» =>
    simp only [LimitE.through, LimitE.eval, pure_bind, Coll.vecRead, Coll.vecToEnd]
    split
    · rfl
    · exact vecEndLoop_map f rd mem

section
variable {α τ : Type} {rd : M Reader α} {Q : α → Prop} (hp : ∀ r v r', rd r = (.ok v, r') → Q v)
include hp

theorem vecLoop_all (pred : Nat → α → τ → Bool × τ) (start : Nat) : ∀ (mem : Nat) (st : τ) (r r' : Reader) (vs : List α),
    Coll.vecLoop rd pred start mem st r = (.ok vs, r') → ∀ x ∈ vs, Q x
  | 0, st, r, r', vs, h => by
    rw [Coll.vecLoop] at h
    obtain ⟨_, _, _, h⟩ := M.bind_eq_ok h
    cases h
  | mem + 1, st, r, r', vs, h => by
    rw [Coll.vecLoop] at h
    obtain ⟨v, r1, h1, h⟩ := M.bind_eq_ok h
    obtain ⟨_, r2, _, h⟩ := M.bind_eq_ok h
    obtain ⟨_, r3, _, h⟩ := M.bind_eq_ok h
    split at h
    · cases h
      intro x hx
      rw [List.mem_singleton] at hx
      rw [hx]
      exact hp _ _ _ h1
    · obtain ⟨xs, r4, h4, h⟩ := M.bind_eq_ok h
      cases h
      intro x hx
      rcases List.mem_cons.mp hx with rfl | hx
      · exact hp _ _ _ h1
      · exact vecLoop_all pred start mem _ _ _ _ h4 x hx

theorem vecEndLoop_all : ∀ (mem : Nat) (r r' : Reader) (vs : List α),
    Coll.vecEndLoop rd mem r = (.ok vs, r') → ∀ x ∈ vs, Q x
  | 0, r, r', vs, h => by
    rw [Coll.vecEndLoop] at h
    obtain ⟨b, r1, _, h⟩ := M.bind_eq_ok h
    cases b
    · obtain ⟨_, _, _, h⟩ := M.bind_eq_ok h
      cases h
    · cases h
      simp
  | mem + 1, r, r', vs, h => by
    rw [Coll.vecEndLoop] at h
    obtain ⟨b, r1, _, h⟩ := M.bind_eq_ok h
    cases b
    · obtain ⟨v, r2, h2, h⟩ := M.bind_eq_ok h
      obtain ⟨xs, r3, h3, h⟩ := M.bind_eq_ok h
      cases h
      intro x hx
      rcases List.mem_cons.mp hx with rfl | hx
      · exact hp _ _ _ h2
      · exact vecEndLoop_all mem _ _ _ h3 x hx
    · cases h
      simp

theorem vecWithPredicate_all (pred : Nat → α → τ → Bool × τ) (mem size : Nat) (cap : Option Nat) (st : τ) (r r' : Reader)
    (vs : List α) (h : Coll.vecWithPredicate mem size cap rd pred st r = (.ok vs, r')) : ∀ x ∈ vs, Q x := by
  unfold Coll.vecWithPredicate at h
  split at h
  · cases h
    simp
  · obtain ⟨_, r1, _, h⟩ := M.bind_eq_ok h
    obtain ⟨_, r2, _, h⟩ := M.bind_eq_ok h
    exact vecLoop_all hp pred _ _ _ _ _ _ h

theorem vecRead_all (mem size : Nat) (l : Limit α τ) (r r' : Reader) (vs : List α)
    (h : Coll.vecRead mem size rd l r = (.ok vs, r')) : ∀ x ∈ vs, Q x := by
  cases l <;> simp only [Coll.vecRead] at h
  · split at h
    · cases h
      simp
    · exact vecWithPredicate_all hp _ _ _ _ _ _ _ _ h
  · exact vecWithPredicate_all hp _ _ _ _ _ _ _ _ h
  · obtain ⟨_, r1, _, h⟩ := M.bind_eq_ok h
    split at h
    · cases h
      simp
    · exact vecWithPredicate_all hp _ _ _ _ _ _ _ _ h
  · split at h
    · cases h
      simp
    · exact vecWithPredicate_all hp _ _ _ _ _ _ _ _ h
  · unfold Coll.vecToEnd at h
    split at h
    · cases h
      simp
    · exact vecEndLoop_all hp _ _ _ _ h

end

theorem Ty.Same.vec (h : t.Same m u P f) (n : Nat) (l : LimitE) :
    Ty.Same m (.vec n (l.through f) t) (.vec n l u) (Val.All P) (Val.mapAll f) where
  read env := by
    rw [Ty.read, Ty.read, h.read, ← bind_assoc, LimitE.through_read]
    simp only [bind_assoc, pure_bind, Val.mapAll, elems_ofList]
  write env v hv := by
    rw [Val.mapAll, Ty.write, Ty.write, isList_ofList, elems_ofList, hv.1, writeAll_map h env _ hv.2]
  values env r v r' hr := by
    rw [Ty.read] at hr
    obtain ⟨_, r1, _, hr⟩ := M.bind_eq_ok hr
    obtain ⟨vs, r2, h1, hr⟩ := M.bind_eq_ok hr
    cases hr
    exact ⟨isList_ofList _, by rw [elems_ofList]; exact vecRead_all (h.values env) _ _ _ _ _ _ h1⟩

theorem Ty.Same.refl (m : Machine) (t : Ty) : t.Same m t (fun _ => True) id where
  read env := by simp only [id, bind_pure]
  write env v _ := rfl
  values _ _ _ _ _ := trivial

theorem Ty.Same.trans {w : Ty} {Q : Val → Prop} {g : Val → Val} (h : t.Same m u P f) (h' : u.Same m w Q g) :
    t.Same m w (fun v => P v ∧ Q (f v)) (fun v => g (f v)) where
  read env := by rw [h'.read, h.read]; simp only [bind_assoc, pure_bind]
  write env v hv := by rw [h'.write env _ hv.2, h.write env v hv.1]
  values env r v r' hr := by
    refine ⟨h.values _ _ _ _ hr, h'.values env r (f v) r' ?_⟩
    rw [h.read, M.bind_ok hr]
    rfl

/-! ## A field -/

section
variable {a b : Attrs} (h : Attrs.Through P f a b) (native : Endian)
include h

theorem Attrs.Through.isRead (env : Env) : a.isRead env = b.isRead env := by
  unfold Attrs.isRead
  rw [h.skip, h.cond]

theorem Attrs.Through.isWritten (env : Env) : a.isWritten env = b.isWritten env := by
  unfold Attrs.isWritten
  rw [h.skip, h.cond]

theorem Attrs.Through.check {σ : Type} (env : Env) (v : Val) (hv : P v) :
    b.check (σ := σ) env (f v) = a.check env v := by
  unfold Attrs.check
  rw [h.assert env v hv]
  have := h.assertEq env v hv
  split
  · rfl
  · rcases ha : a.assertEq env with _ | x <;> rcases hb : b.assertEq env with _ | y <;> rw [ha, hb] at this <;>
      dsimp only
    · by_cases e : f v = y
      · rw [if_neg (by simpa using e)]
      · exact absurd (this.1 (.inl rfl)) (by simpa using fun e' => e e'.symm)
    · by_cases e : v = x
      · rw [if_neg (by simpa using e)]
      · exact absurd (this.2 (.inl rfl)) (by simpa using fun e' => e e'.symm)
    · by_cases e : v = x
      · have : y = f v := by simpa [e] using this
        rw [if_neg (by simpa using this.symm), if_neg (by simpa using e)]
      · have : ¬ y = f v := by
          intro e'
          have := this.2 (.inr (by rw [e']))
          exact e (by simpa [eq_comm] using this)
        rw [if_pos (by simpa using fun e => this e.symm), if_pos (by simpa using e)]

theorem Attrs.Through.padRead_after (env : Env) (v : Val) :
    padRead b.padOrder b.padAfter (env.push (f v)) = padRead a.padOrder a.padAfter (env.push v) := by
  rw [h.padAfter, h.padOrder]
  cases b.padAfter <;> rfl

theorem Attrs.Through.padWrite_after (env : Env) (v : Val) :
    padWrite b.padOrder b.padAfter (env.push (f v)) = padWrite a.padOrder a.padAfter (env.push v) := by
  rw [h.padAfter, h.padOrder]
  cases b.padAfter <;> rfl

section
variable {rd rd' : Env → M Reader Val} (hr : ∀ env, rd' env = (do let v ← rd env; pure (f v)))
  (hv : ∀ env r v r', rd env r = (.ok v, r') → P v)

include hr in
theorem Attrs.Through.value (env : Env) : b.value rd' env = (do let v ← a.value rd env; pure (f v)) := by
  unfold Attrs.value
  rw [← h.isRead, hr]
  split
  · simp only [bind_assoc, pure_bind]
    refine bind_congr fun v => ?_
    simp only [Attrs.applyMap, h.map.1, h.map.2, pure_bind]
  · rename_i hn
    rw [(h.default env (by simpa using hn)).1]
    rfl

include hv in
theorem Attrs.Through.value_holds (env : Env) (r r' : Reader) (v : Val) (e : a.value rd env r = (.ok v, r')) : P v := by
  unfold Attrs.value at e
  split at e
  · obtain ⟨x, r1, e1, e⟩ := M.bind_eq_ok e
    simp only [Attrs.applyMap, h.map.1] at e
    cases e
    exact hv _ _ _ _ e1
  · rename_i hn
    cases e
    exact (h.default env (by simpa using hn)).2

include hr hv in
theorem Attrs.Through.read (env : Env) : b.read native rd' env = (do let v ← a.read native rd env; pure (f v)) := by
  unfold Attrs.read
  rw [← h.seek, ← h.magic, ← h.padBefore, ← h.padOrder, ← h.usesOffset]
  simp only [bind_assoc]
  refine bind_congr fun _ => bind_congr fun _ => bind_congr fun _ => bind_congr fun r => ?_
  rw [h.value hr]
  simp only [bind_assoc, pure_bind]
  funext s
  refine M.bind_congr_of_ok fun v s' e => ?_
  have hp := h.value_holds hv _ _ _ _ e
  have := h.padRead_after (env.at (if a.usesOffset then r.bitsRead else 0)) v
  rw [← h.padOrder] at this
  rw [h.check _ v hp, this]

include hv in
theorem Attrs.Through.read_holds (env : Env) (r r' : Reader) (v : Val) (e : a.read native rd env r = (.ok v, r')) : P v := by
  unfold Attrs.read at e
  obtain ⟨_, r1, _, e⟩ := M.bind_eq_ok e
  obtain ⟨_, r2, _, e⟩ := M.bind_eq_ok e
  obtain ⟨_, r3, _, e⟩ := M.bind_eq_ok e
  obtain ⟨_, r4, _, e⟩ := M.bind_eq_ok e
  obtain ⟨x, r5, e5, e⟩ := M.bind_eq_ok e
  obtain ⟨_, r6, _, e⟩ := M.bind_eq_ok e
  obtain ⟨_, r7, _, e⟩ := M.bind_eq_ok e
  cases e
  exact h.value_holds hv _ _ _ _ e5

end

theorem Attrs.Through.write {wr wr' : Env → Val → M Writer Unit} (hw : ∀ env v, P v → wr' env (f v) = wr env v)
    (env : Env) (v : Val) (hv : P v) : b.write native wr' env (f v) = a.write native wr env v := by
  unfold Attrs.write
  rw [← h.seek, ← h.magic, ← h.padBefore, ← h.padOrder, ← h.usesOffset]
  refine bind_congr fun _ => bind_congr fun _ => bind_congr fun _ => bind_congr fun r => ?_
  have := h.padWrite_after (env.at (if a.usesOffset then r.bitsWritten else 0)) v
  rw [← h.padOrder] at this
  have e : ∀ env, b.put wr' env (f v) = a.put wr env v := by
    intro env
    unfold Attrs.put
    rw [h.isWritten, h.unmap.1, h.unmap.2, hw env v hv]
  dsimp only
  rw [h.check _ v hv, e, this]

end

theorem seenThrough_scopes (f : Val → Val) : Scopes (seenThrough f) := ⟨fun _ _ _ => rfl, fun _ _ _ => rfl⟩

theorem seenThrough_zero (f : Val → Val) (env : Env) (v : Val) : seenThrough f 0 (env.push v) = env.push (f v) := rfl

section
variable {a b : Attrs} (ha : Attrs.Through P f a b) (h : t.Same m u P f) (post : Fields) (g : Val → Val)
include ha h

theorem around_read : ∀ (pre : Fields) (k : Nat) (env : Env),
    (pre.append (.cons b u post)).read m env =
      (do let v ← ((pre.under sameScope g k).append (.cons a t (post.under (seenThrough f) g 0))).read m env
          pure (v.mapAt f pre.arity))
  | .nil, k, env => by
    rw [Fields.under, Fields.append, Fields.append, Fields.read, Fields.read, Fields.arity,
      ha.read m.native h.read h.values]
    simp only [bind_assoc, pure_bind, Fields.under_read (seenThrough_scopes f), seenThrough_zero, Val.mapAt]
  | .cons a' t' rest, k, env => by
    rw [Fields.under, Fields.append, Fields.append, Fields.read, Fields.read, Fields.arity,
      funext (Ty.under_read m (sameScope k) t'), Attrs.under_read a' _ _ (sameScope_scopes.at k) (sameScope_scopes.push k)]
    simp only [bind_assoc, pure_bind]
    refine bind_congr fun v => ?_
    rw [around_read rest (k + 1) (env.push v)]
    simp only [bind_assoc, pure_bind, Val.mapAt]
  | .temp a' t' _ rest, k, env => by
    rw [Fields.under, Fields.append, Fields.append, Fields.read, Fields.read, Fields.arity,
      funext (Ty.under_read m (sameScope k) t'), Attrs.under_read a' _ _ (sameScope_scopes.at k) (sameScope_scopes.push k)]
    simp only [bind_assoc]
    refine bind_congr fun v => ?_
    rw [around_read rest (k + 1) (env.push v)]

theorem around_write : ∀ (pre : Fields) (k : Nat) (env : Env) (all v : Val), Val.At P pre.arity v →
    (pre.append (.cons b u post)).write m env (g all) (v.mapAt f pre.arity) =
      ((pre.under sameScope g k).append (.cons a t (post.under (seenThrough f) g 0))).write m env all v
  | .nil, k, env, all, v, hv => by
    obtain ⟨x, xs, rfl, hx⟩ := hv
    rw [Fields.under, Fields.append, Fields.append, Fields.arity, Val.mapAt, Fields.write, Fields.write,
      ha.write m.native h.write env x hx, Fields.under_write (seenThrough_scopes f), seenThrough_zero]
  | .cons a' t' rest, k, env, all, v, hv => by
    obtain ⟨x, xs, rfl, hv⟩ := hv
    rw [Fields.under, Fields.append, Fields.append, Fields.arity, Val.mapAt, Fields.write, Fields.write,
      funext fun env => funext (Ty.under_write m (sameScope k) t' env),
      Attrs.under_write a' _ _ (sameScope_scopes.at k) (sameScope_scopes.push k)]
    refine bind_congr fun _ => ?_
    exact around_write rest (k + 1) (env.push x) all xs hv
  | .temp a' t' f' rest, k, env, all, v, hv => by
    rw [Fields.under, Fields.append, Fields.append, Fields.arity]
    cases f' with
    | some f' =>
      rw [Option.map_some, Fields.write, Fields.write, funext fun env => funext (Ty.under_write m (sameScope k) t' env),
        Attrs.under_write a' _ _ (sameScope_scopes.at k) (sameScope_scopes.push k)]
      refine bind_congr fun _ => ?_
      exact around_write rest (k + 1) (env.push (f' (g all))) all v hv
    | none =>
      rw [Option.map_none, Fields.write, Fields.write,
        Attrs.under_write a' _ _ (sameScope_scopes.at k) (sameScope_scopes.push k) _ (fun _ _ => pure ())]
      refine bind_congr fun _ => ?_
      exact around_write rest (k + 1) (env.push .none) all v hv

theorem around_values : ∀ (pre : Fields) (k : Nat) (env : Env) (r r' : Reader) (v : Val),
    ((pre.under sameScope g k).append (.cons a t (post.under (seenThrough f) g 0))).read m env r = (.ok v, r') →
    Val.At P pre.arity v
  | .nil, k, env, r, r', v, e => by
    rw [Fields.under, Fields.append, Fields.read] at e
    obtain ⟨x, r1, e1, e⟩ := M.bind_eq_ok e
    obtain ⟨xs, r2, e2, e⟩ := M.bind_eq_ok e
    cases e
    exact ⟨x, xs, rfl, ha.read_holds m.native h.values _ _ _ _ e1⟩
  | .cons a' t' rest, k, env, r, r', v, e => by
    rw [Fields.under, Fields.append, Fields.read] at e
    obtain ⟨x, r1, _, e⟩ := M.bind_eq_ok e
    obtain ⟨xs, r2, e2, e⟩ := M.bind_eq_ok e
    cases e
    exact ⟨x, xs, rfl, around_values rest (k + 1) _ _ _ _ e2⟩
  | .temp a' t' f' rest, k, env, r, r', v, e => by
    rw [Fields.under, Fields.append, Fields.read] at e
    obtain ⟨x, r1, _, e⟩ := M.bind_eq_ok e
    exact around_values rest (k + 1) _ _ _ _ e

theorem around_same (pre : Fields) :
    Fields.Same m (around pre a t post f) (pre.append (.cons b u post)) (Val.At P pre.arity) (Val.mapAt f pre.arity) where
  read env _ := around_read ha h post _ pre 0 env
  write env v _ hv := around_write ha h post _ pre 0 env v v hv
  values env r v r' e := around_values ha h post _ pre 0 env r r' v e

end

/-! ## A variant -/

theorem Variants.withFields_firstMatch (gs : Fields) (env : Env) (x : Val) : ∀ (vs : Variants) (i k : Nat),
    (vs.withFields gs i).firstMatch env x k = vs.firstMatch env x k
  | .nil, _, _ => by rw [Variants.withFields]
  | .cons a fs rest, 0, k => by rw [Variants.withFields, Variants.firstMatch, Variants.firstMatch]
  | .cons a fs rest, i + 1, k => by
    rw [Variants.withFields, Variants.firstMatch, Variants.firstMatch, Variants.withFields_firstMatch gs env x rest]

theorem Variants.withFields_defaultAt (gs : Fields) : ∀ (vs : Variants) (i k : Nat),
    (vs.withFields gs i).defaultAt k = vs.defaultAt k
  | .nil, _, _ => by rw [Variants.withFields]
  | .cons a fs rest, 0, k => by rw [Variants.withFields, Variants.defaultAt, Variants.defaultAt]
  | .cons a fs rest, i + 1, k => by
    rw [Variants.withFields, Variants.defaultAt, Variants.defaultAt, Variants.withFields_defaultAt gs rest]

theorem Variants.withFields_select (gs : Fields) (env : Env) (x : Val) (vs : Variants) (i : Nat) :
    (vs.withFields gs i).select env x = vs.select env x := by
  rw [Variants.select, Variants.select, Variants.withFields_firstMatch, Variants.withFields_defaultAt]

section
variable {fs gs : Fields} (h : fs.Same m gs P f)
include h

theorem Variants.withFields_readAt (env : Env) (h0 : env.off = 0) (x : Val) (typed : Bool) : ∀ (vs : Variants) (i j : Nat),
    vs.HasFields fs i → (vs.withFields gs i).readAt m env x typed j =
      (do let v ← vs.readAt m env x typed j; pure (if j = i then f v else v))
  | .nil, _, _, hf => by simp only [Variants.HasFields] at hf
  | .cons a _ rest, 0, 0, hf => by
    obtain ⟨rfl, hp⟩ := hf
    rw [Variants.withFields, Variants.readAt, Variants.readAt, hp]
    simp only [Bool.false_and, Bool.false_eq_true, if_false, if_true]
    exact h.read env h0
  | .cons a _ rest, 0, j + 1, hf => by
    rw [Variants.withFields, Variants.readAt, Variants.readAt]
    simp only [Nat.add_one_ne_zero, if_false, bind_pure]
  | .cons a _ rest, i + 1, 0, hf => by
    rw [Variants.withFields, Variants.readAt, Variants.readAt]
    simp only [(Nat.add_one_ne_zero i).symm, if_false, bind_pure]
  | .cons a _ rest, i + 1, j + 1, hf => by
    rw [Variants.withFields, Variants.readAt, Variants.readAt, Variants.withFields_readAt env h0 x typed rest i j hf]
    simp only [Nat.add_right_cancel_iff]

theorem Variants.withFields_writeAt (env : Env) (h0 : env.off = 0) (id : IdSrc) (store : Env → Val → M Writer Unit)
    (v : Val) : ∀ (vs : Variants) (i j : Nat), vs.HasFields fs i → (j = i → P v) →
    (vs.withFields gs i).writeAt m env id store j (if j = i then f v else v) = vs.writeAt m env id store j v
  | .nil, _, _, hf, _ => by simp only [Variants.HasFields] at hf
  | .cons a _ rest, 0, 0, hf, hv => by
    obtain ⟨rfl, hp⟩ := hf
    rw [Variants.withFields, Variants.writeAt.eq_def, Variants.writeAt.eq_def]
    dsimp only
    rw [hp]
    simp only [Bool.false_eq_true, if_false, if_true, h.write env v h0 (hv rfl)]
  | .cons a _ rest, 0, j + 1, hf, hv => by
    rw [Variants.withFields, if_neg (by omega), Variants.writeAt, Variants.writeAt]
  | .cons a _ rest, i + 1, 0, hf, hv => by
    rw [Variants.withFields, if_neg (by omega), Variants.writeAt.eq_def, Variants.writeAt.eq_def]
  | .cons a _ rest, i + 1, j + 1, hf, hv => by
    rw [Variants.withFields, Variants.writeAt, Variants.writeAt]
    simp only [Nat.add_right_cancel_iff]
    exact Variants.withFields_writeAt env h0 id store v rest i j hf fun e => hv (by omega)

theorem Variants.readAt_holds (env : Env) (x : Val) (typed : Bool) : ∀ (vs : Variants) (i : Nat) (r r' : Reader) (v : Val),
    vs.HasFields fs i → vs.readAt m env x typed i r = (.ok v, r') → P v
  | .nil, _, _, _, _, hf, _ => by simp only [Variants.HasFields] at hf
  | .cons a _ rest, 0, r, r', v, hf, e => by
    obtain ⟨rfl, hp⟩ := hf
    rw [Variants.readAt, hp] at e
    exact h.values _ _ _ _ e
  | .cons a _ rest, i + 1, r, r', v, hf, e => by
    rw [Variants.readAt] at e
    exact Variants.readAt_holds env x typed rest i r r' v hf e

theorem dispatch_withFields (env : Env) (h0 : env.off = 0) (x : Val) (typed : Bool) (vs : Variants) (i : Nat)
    (hf : vs.HasFields fs i) :
    dispatch ((vs.withFields gs i).select env x) ((vs.withFields gs i).readAt m env x typed) =
      (do let v ← dispatch (vs.select env x) (vs.readAt m env x typed); pure (v.mapVariant f i)) := by
  rw [Variants.withFields_select]
  unfold dispatch
  rcases vs.select env x with _ | j
  · rfl
  · dsimp only
    rw [Variants.withFields_readAt h env h0 x typed vs i j hf]
    simp only [bind_assoc, pure_bind, Val.mapVariant]

theorem dispatch_holds (env : Env) (x : Val) (typed : Bool) (vs : Variants) (i : Nat) (hf : vs.HasFields fs i)
    (r r' : Reader) (v : Val) (e : dispatch (vs.select env x) (vs.readAt m env x typed) r = (.ok v, r')) :
    Val.AtVariant P i v := by
  unfold dispatch at e
  generalize vs.select env x = sel at e
  rcases sel with _ | j
  · cases e
  · dsimp only at e
    obtain ⟨y, r1, e1, e⟩ := M.bind_eq_ok e
    cases e
    refine ⟨j, y, rfl, ?_⟩
    rintro rfl
    exact Variants.readAt_holds h env x typed vs j _ _ _ hf e1

theorem Fields.Same.variant (args : Env → List Val) (magic : List Byte) (id : IdSrc)
    (store : Nat → Env → Val → M Writer Unit) (vs : Variants) (i : Nat) (hf : vs.HasFields fs i) :
    Ty.Same m (.enum args magic id store vs) (.enum args magic id store (vs.withFields gs i)) (Val.AtVariant P i)
      (Val.mapVariant f i) where
  read env := by
    cases id with
    | ctx e =>
      rw [Ty.read, Ty.read]
      rw [dispatch_withFields h _ (by rfl) _ _ _ _ hf]
      simp only [bind_assoc]
    | typed s c =>
      rw [Ty.read, Ty.read]
      simp only [bind_assoc]
      refine bind_congr fun _ => bind_congr fun x => ?_
      rw [dispatch_withFields h _ (by rfl) _ _ _ _ hf]
  write env v hv := by
    obtain ⟨j, y, rfl, hy⟩ := hv
    rw [Val.mapVariant, Ty.write, Ty.write]
    rw [Variants.withFields_writeAt h _ (by rfl) id (store j) y vs i j hf hy]
  values env r v r' e := by
    cases id with
    | ctx e' =>
      rw [Ty.read] at e
      obtain ⟨_, r1, _, e⟩ := M.bind_eq_ok e
      exact dispatch_holds h _ _ _ _ _ hf _ _ _ e
    | typed s c =>
      rw [Ty.read] at e
      obtain ⟨_, r1, _, e⟩ := M.bind_eq_ok e
      obtain ⟨_, r2, _, e⟩ := M.bind_eq_ok e
      exact dispatch_holds h _ _ _ _ _ hf _ _ _ e

end

end Deku
