import Verif.Spec.Append
import Verif.Lemmas.Monad

/-! # Lemmas about fields added at the end -/

namespace Deku

variable {Q : Fields → Prop} {m : Machine} {α β σ : Type}

/-- `g` does what `f` does and then reads some fields of `Q`, with a result that is cut to that of `f`. -/
def Leads (Q : Fields → Prop) (m : Machine) (c : Val → Val) (f g : M Reader Val) : Prop := ∀ r,
  (∀ v r', f r = (.ok v, r') → ∃ (fs : Fields) (env : Env) (h : Val → Val), Q fs ∧ (∀ w, c (h w) = v) ∧
    g r = (do let w ← fs.read m env; pure (h w) : M Reader Val) r') ∧
  (∀ e r', f r = (.err e, r') → g r = (.err e, r')) ∧ (∀ r', f r = (.panic, r') → g r = (.panic, r'))

namespace Leads

theorem refl (hQ : Q .nil) {c : Val → Val} (hc : ∀ v, c v = v) (f : M Reader Val) : Leads Q m c f f := fun _ =>
  ⟨fun v _ h => ⟨.nil, {}, fun _ => v, hQ, fun _ => hc v, h⟩, fun _ _ h => h, fun _ h => h⟩

theorem after (f : M Reader α) {c : Val → Val} {h k : α → M Reader Val} (hk : ∀ a, Leads Q m c (h a) (k a)) :
    Leads Q m c (f >>= h) (f >>= k) := by
  intro r
  rcases hr : f r with ⟨x, r'⟩
  cases x with
  | ok a => rw [M.bind_ok hr, M.bind_ok hr]; exact hk a r'
  | err e =>
    rw [M.bind_err hr, M.bind_err hr]
    exact ⟨(fun _ _ h => nomatch h), fun _ _ h => h, (fun _ h => nomatch h)⟩
  | panic =>
    rw [M.bind_panic hr, M.bind_panic hr]
    exact ⟨(fun _ _ h => nomatch h), (fun _ _ h => nomatch h), fun _ h => h⟩

theorem map {f g : M Reader Val} {c c' : Val → Val} (h : Leads Q m c f g) (w : Val → Val) (hc : ∀ v, c' (w v) = w (c v)) :
    Leads Q m c' (f >>= fun v => pure (w v)) (g >>= fun v => pure (w v)) := by
  intro r
  obtain ⟨h1, h2, h3⟩ := h r
  rcases hr : f r with ⟨x, r'⟩
  cases x with
  | ok v =>
    rw [M.bind_ok hr]
    obtain ⟨fs, env, k, hq, hk, he⟩ := h1 v r' hr
    refine ⟨fun _ _ e => ?_, (fun _ _ e => nomatch e), (fun _ e => nomatch e)⟩
    cases e
    refine ⟨fs, env, fun x => w (k x), hq, fun x => by rw [hc, hk], ?_⟩
    rcases hf : fs.read m env r' with ⟨y, r2⟩
    cases y with
    | ok y => rw [M.bind_ok hf] at he ⊢; exact M.bind_ok he _
    | err e => rw [M.bind_err hf] at he ⊢; rw [M.bind_err he]
    | panic => rw [M.bind_panic hf] at he ⊢; rw [M.bind_panic he]
  | err e =>
    rw [M.bind_err hr, M.bind_err (h2 e r' hr)]
    exact ⟨(fun _ _ h => nomatch h), fun _ _ h => h, (fun _ h => nomatch h)⟩
  | panic =>
    rw [M.bind_panic hr, M.bind_panic (h3 r' hr)]
    exact ⟨(fun _ _ h => nomatch h), (fun _ _ h => nomatch h), fun _ h => h⟩

end Leads

theorem Attrs.read_bare {a : Attrs} (h : a.Bare) (nat : Endian) (rd : Env → M Reader Val) (env : Env) :
    a.read nat rd env = (do
      seekRead a.seek env
      magicRead nat a.magic
      padRead a.padOrder a.padBefore env
      let r ← M.get
      rd (env.at (if a.usesOffset then r.bitsRead else 0)) : M Reader Val) := by
  unfold Attrs.read
  refine congrArg _ (funext fun _ => congrArg _ (funext fun _ => congrArg _ (funext fun _ => congrArg _ (funext fun r => ?_))))
  funext s
  simp only [Attrs.value, h.isRead, if_true, h.padAfter]
  rcases hr : rd (env.at (if a.usesOffset then r.bitsRead else 0)) s with ⟨x, s'⟩
  have hmap : ∀ v, a.applyMap (env.at (if a.usesOffset then r.bitsRead else 0)) v = pure v := by
    intro v; simp only [Attrs.applyMap, h.map]
  have hchk : ∀ v, a.check (σ := Reader) (env.at (if a.usesOffset then r.bitsRead else 0)) v = pure () := by
    intro v; simp only [Attrs.check, h.assert, h.assertEq, Bool.true_eq_false, if_false]
  cases x with
  | ok v => rw [M.bind_ok (by rw [M.bind_ok hr, hmap]; rfl), hchk]; rfl
  | err e => rw [M.bind_err (by rw [M.bind_err hr])]
  | panic => rw [M.bind_panic (by rw [M.bind_panic hr])]

theorem Fields.read_more (hfs : Q fs) {c : Val → Val} (hc : ∀ v, c v = .nil) (env : Env) :
    Leads Q m c (pure .nil) (fs.read m env) := fun r =>
  ⟨fun v r' h => by
    cases h
    refine ⟨fs, env, id, hfs, hc, ?_⟩
    rcases hf : fs.read m env r with ⟨x, r'⟩
    cases x with
    | ok _ => rw [M.bind_ok hf]; rfl
    | err _ => rw [M.bind_err hf]
    | panic => rw [M.bind_panic hf],
    (fun _ _ h => nomatch h), (fun _ h => nomatch h)⟩

theorem VEdit.firstMatch (env : Env) (x : Val) : ∀ (e : VEdit) (vs vs' : Variants), e.Makes Q vs vs' → ∀ i,
    vs'.firstMatch env x i = vs.firstMatch env x i
  | .nil, vs, vs', h, i => by
    rw [VEdit.Makes] at h
    obtain ⟨rfl, rfl⟩ := h
    rfl
  | .cons e rest, vs, vs', h, i => by
    rw [VEdit.Makes] at h
    obtain ⟨a, fs, fs', ws, ws', rfl, rfl, _, _, h⟩ := h
    simp only [Variants.firstMatch, rest.firstMatch env x ws ws' h]

theorem VEdit.defaultAt : ∀ (e : VEdit) (vs vs' : Variants), e.Makes Q vs vs' → ∀ i, vs'.defaultAt i = vs.defaultAt i
  | .nil, vs, vs', h, i => by
    rw [VEdit.Makes] at h
    obtain ⟨rfl, rfl⟩ := h
    rfl
  | .cons e rest, vs, vs', h, i => by
    rw [VEdit.Makes] at h
    obtain ⟨a, fs, fs', ws, ws', rfl, rfl, _, _, h⟩ := h
    simp only [Variants.defaultAt, rest.defaultAt ws ws' h]

theorem VEdit.select {e : VEdit} {vs vs' : Variants} (h : e.Makes Q vs vs') (env : Env) (x : Val) :
    vs'.select env x = vs.select env x := by
  rw [Variants.select, Variants.select, e.firstMatch env x vs vs' h, e.defaultAt vs vs' h]

mutual

theorem Edit.read_leads (hQ : Q .nil) (m : Machine) : ∀ (e : Edit) (old new : Ty), e.Makes Q old new → ∀ env,
    Leads Q m e.cut (old.read m env) (new.read m env)
  | .same, old, new, h, env => by
    rw [Edit.Makes] at h
    subst h
    exact .refl hQ (fun v => by rw [Edit.cut]) _
  | .option e, old, new, h, env => by
    rw [Edit.Makes] at h
    obtain ⟨t, t', rfl, rfl, h⟩ := h
    rw [Ty.read, Ty.read]
    exact (e.read_leads hQ m t t' h env).map .some fun v => by rw [Edit.cut]
  | .pair e, old, new, h, env => by
    rw [Edit.Makes] at h
    obtain ⟨a, b, b', rfl, rfl, h⟩ := h
    rw [Ty.read, Ty.read]
    exact .after _ fun x => (e.read_leads hQ m b b' h env).map (fun y => .cons x (.cons y .nil)) fun v => by rw [Edit.cut]
  | .struct e, old, new, h, env => by
    rw [Edit.Makes] at h
    obtain ⟨args, seek, magic, fs, fs', rfl, rfl, h⟩ := h
    rw [Ty.read, Ty.read]
    have hc : (Edit.struct e).cut = e.cut := funext fun v => by rw [Edit.cut]
    rw [hc]
    exact .after _ fun _ => .after _ fun _ => e.read_leads hQ m fs fs' h _
  | .enum e, old, new, h, env => by
    rw [Edit.Makes] at h
    obtain ⟨args, magic, id, store, vs, vs', rfl, rfl, h⟩ := h
    have hd : ∀ sel env' x typed, Leads Q m (Edit.enum e).cut (dispatch sel (vs.readAt m env' x typed))
        (dispatch sel (vs'.readAt m env' x typed)) := by
      intro sel env' x typed
      cases sel with
      | none => exact fun r => ⟨(fun _ _ h => nomatch h), fun _ _ h => h, (fun _ h => nomatch h)⟩
      | some i => exact (e.read_leads hQ m vs vs' h env' x typed i).map (.variant i) fun v => by rw [Edit.cut]
    have hs : ∀ env' x, vs'.select env' x = vs.select env' x := fun _ _ => VEdit.select h _ _
    cases id with
    | ctx f =>
      rw [Ty.read, Ty.read, hs]
      exact .after _ fun _ => hd _ _ _ _
    | typed size c =>
      rw [Ty.read, Ty.read]
      refine .after _ fun _ => .after _ fun x => ?_
      rw [hs]
      exact hd _ _ _ _

theorem FEdit.read_leads (hQ : Q .nil) (m : Machine) : ∀ (e : FEdit) (old new : Fields), e.Makes Q old new → ∀ env,
    Leads Q m e.cut (old.read m env) (new.read m env)
  | .same, old, new, h, env => by
    rw [FEdit.Makes] at h
    subst h
    exact .refl hQ (fun v => by rw [FEdit.cut]) _
  | .more, old, new, h, env => by
    rw [FEdit.Makes] at h
    obtain ⟨rfl, h⟩ := h
    rw [Fields.read]
    exact Fields.read_more h (fun v => by rw [FEdit.cut]) env
  | .field e, old, new, h, env => by
    rw [FEdit.Makes] at h
    obtain ⟨a, t, rest, rest', rfl, rfl, h⟩ := h
    rw [Fields.read, Fields.read]
    exact .after _ fun x => (e.read_leads hQ m rest rest' h _).map (.cons x) fun v => by rw [FEdit.cut]
  | .temp e, old, new, h, env => by
    rw [FEdit.Makes] at h
    obtain ⟨a, t, value, rest, rest', rfl, rfl, h⟩ := h
    rw [Fields.read, Fields.read]
    have hc : (FEdit.temp e).cut = e.cut := funext fun v => by rw [FEdit.cut]
    rw [hc]
    exact .after _ fun x => e.read_leads hQ m rest rest' h _
  | .last e, old, new, h, env => by
    rw [FEdit.Makes] at h
    obtain ⟨a, t, t', rfl, rfl, ha, h⟩ := h
    rw [Fields.read, Fields.read]
    have : ∀ env, Fields.nil.read m env = pure .nil := fun _ => by rw [Fields.read]
    simp only [this]
    have hp : ∀ v : Val, (do let vs ← (pure .nil : M Reader Val); pure (.cons v vs) : M Reader Val) =
        pure (.cons v .nil) := fun _ => rfl
    simp only [hp]
    refine Leads.map (c := e.cut) ?_ (fun v => .cons v .nil) fun v => by rw [FEdit.cut]
    rw [Attrs.read_bare ha, Attrs.read_bare ha]
    exact .after _ fun _ => .after _ fun _ => .after _ fun _ => .after _ fun _ => e.read_leads hQ m t t' h _

theorem VEdit.read_leads (hQ : Q .nil) (m : Machine) : ∀ (e : VEdit) (old new : Variants), e.Makes Q old new →
    ∀ env x typed i, Leads Q m (e.cut i) (old.readAt m env x typed i) (new.readAt m env x typed i)
  | .nil, old, new, h, env, x, typed, i => by
    rw [VEdit.Makes] at h
    obtain ⟨rfl, rfl⟩ := h
    exact .refl hQ (fun v => by rw [VEdit.cut]) _
  | .cons e rest, old, new, h, env, x, typed, 0 => by
    rw [VEdit.Makes] at h
    obtain ⟨a, fs, fs', vs, vs', rfl, rfl, h, hp, hr⟩ := h
    have hc : (VEdit.cons e rest).cut 0 = e.cut := funext fun v => by rw [VEdit.cut]
    rw [Variants.readAt, Variants.readAt, hc]
    by_cases ht : (a.idPat && typed) = true
    · rw [if_pos ht, if_pos ht]
      have hl := hp (by simp only [Bool.and_eq_true] at ht; exact ht.1)
      cases e with
      | same =>
        rw [FEdit.Makes] at h
        subst h
        exact .refl hQ (fun v => by rw [FEdit.cut]) _
      | more => exact absurd hl (by simp [FEdit.keepsFirst])
      | field e =>
        rw [FEdit.Makes] at h
        obtain ⟨a, t, rest, rest', rfl, rfl, h⟩ := h
        rw [Fields.readStored, Fields.readStored]
        exact (e.read_leads hQ m rest rest' h _).map (.cons x) fun v => by rw [FEdit.cut]
      | temp e =>
        rw [FEdit.Makes] at h
        obtain ⟨a, t, value, rest, rest', rfl, rfl, h⟩ := h
        rw [Fields.readStored, Fields.readStored]
        have hc : (FEdit.temp e).cut = e.cut := funext fun v => by rw [FEdit.cut]
        rw [hc]
        exact e.read_leads hQ m rest rest' h _
      | last e => exact absurd hl (by simp [FEdit.keepsFirst])
    · rw [if_neg ht, if_neg ht]
      exact e.read_leads hQ m fs fs' h env
  | .cons e rest, old, new, h, env, x, typed, i + 1 => by
    rw [VEdit.Makes] at h
    obtain ⟨a, fs, fs', vs, vs', rfl, rfl, _, _, hr⟩ := h
    have hc : (VEdit.cons e rest).cut (i + 1) = rest.cut i := funext fun v => by rw [VEdit.cut]
    rw [Variants.readAt, Variants.readAt, hc]
    exact rest.read_leads hQ m vs vs' hr env x typed i

end

/-! ### writing -/

/-- `g` does what `f` does and then writes some fields of `Q`. -/
def LeadsW (Q : Fields → Prop) (m : Machine) (f g : M Writer Unit) : Prop := ∀ w,
  (∀ w', f w = (.ok (), w') → ∃ (fs : Fields) (env : Env) (all v : Val), Q fs ∧ g w = fs.write m env all v w') ∧
  (∀ e w', f w = (.err e, w') → g w = (.err e, w')) ∧ (∀ w', f w = (.panic, w') → g w = (.panic, w'))

namespace LeadsW

theorem refl (hQ : Q .nil) (f : M Writer Unit) : LeadsW Q m f f := fun _ =>
  ⟨fun w' h => ⟨.nil, {}, .nil, .nil, hQ, by rw [h, Fields.write]; rfl⟩, fun _ _ h => h, fun _ h => h⟩

theorem after (f : M Writer α) {h k : α → M Writer Unit} (hk : ∀ a, LeadsW Q m (h a) (k a)) :
    LeadsW Q m (f >>= h) (f >>= k) := by
  intro r
  rcases hr : f r with ⟨x, r'⟩
  cases x with
  | ok a => rw [M.bind_ok hr, M.bind_ok hr]; exact hk a r'
  | err e =>
    rw [M.bind_err hr, M.bind_err hr]
    exact ⟨(fun _ h => nomatch h), fun _ _ h => h, (fun _ h => nomatch h)⟩
  | panic =>
    rw [M.bind_panic hr, M.bind_panic hr]
    exact ⟨(fun _ h => nomatch h), (fun _ _ h => nomatch h), fun _ h => h⟩

end LeadsW

theorem Attrs.write_bare {a : Attrs} (h : a.Bare) (nat : Endian) (wr : Env → Val → M Writer Unit) (env : Env) (v : Val) :
    a.write nat wr env v = (do
      seekWrite a.seek env
      magicWrite nat a.magic
      padWrite a.padOrder a.padBefore env
      let w ← M.get
      wr (env.at (if a.usesOffset then w.bitsWritten else 0)) v : M Writer Unit) := by
  unfold Attrs.write
  refine congrArg _ (funext fun _ => congrArg _ (funext fun _ => congrArg _ (funext fun _ => congrArg _ (funext fun w => ?_))))
  have hchk : a.check (σ := Writer) (env.at (if a.usesOffset then w.bitsWritten else 0)) v = pure () := by
    simp only [Attrs.check, h.assert, h.assertEq, Bool.true_eq_false, if_false]
  simp only [hchk, Attrs.put, h.isWritten, if_true, h.unmap, h.padAfter]
  funext s
  rcases hr : wr (env.at (if a.usesOffset then w.bitsWritten else 0)) v s with ⟨x, s'⟩
  rw [M.bind_ok (rfl : (pure () : M Writer Unit) s = (.ok (), s))]
  cases x with
  | ok u => rw [M.bind_ok hr]; rfl
  | err e => rw [M.bind_err hr]
  | panic => rw [M.bind_panic hr]

theorem Fields.write_nil (m : Machine) (env : Env) (all : Val) : Fields.nil.write m env all .nil = pure () := by
  rw [Fields.write]; rfl

/-- What is written depends on all fields by the temporary fields only. -/
theorem Fields.write_temps (m : Machine) : ∀ (fs : Fields) (env : Env) (all' all : Val),
    (∀ f ∈ fs.temps, f all' = f all) → ∀ v, fs.write m env all' v = fs.write m env all v
  | .nil, _, _, _, _, v => by rw [Fields.write, Fields.write]
  | .cons a t rest, env, all', all, h, v => by
    rw [Fields.temps] at h
    cases v with
    | cons x xs =>
      simp only [Fields.write, rest.write_temps m _ all' all h]
    | _ => simp only [Fields.write]
  | .temp a t value rest, env, all', all, h, v => by
    rw [Fields.temps] at h
    have hr : ∀ f ∈ rest.temps, f all' = f all := fun f hf => h f (List.mem_append_right _ hf)
    cases value with
    | none =>
      simp only [Fields.write, rest.write_temps m _ all' all hr]
    | some f =>
      have hf := h f (by simp)
      simp only [Fields.write, rest.write_temps m _ all' all hr, hf]

mutual

theorem Edit.write_leads (hQ : Q .nil) (m : Machine) : ∀ (e : Edit) (old new : Ty), e.Makes Q old new → e.Temps old →
    ∀ env u, e.Shaped u → LeadsW Q m (old.write m env (e.cut u)) (new.write m env u)
  | .same, old, new, h, ht, env, u, hu => by
    rw [Edit.Makes] at h
    subst h
    rw [Edit.cut]
    exact .refl hQ _
  | .option e, old, new, h, ht, env, u, hu => by
    rw [Edit.Makes] at h
    obtain ⟨t, t', rfl, rfl, h⟩ := h
    rw [Edit.Temps] at ht
    cases u with
    | some x =>
      rw [Edit.Shaped] at hu
      rw [Edit.cut, Ty.write, Ty.write]
      exact e.write_leads hQ m t t' h ht env x hu
    | _ => simp only [Edit.cut, Ty.write]; exact .refl hQ _
  | .pair e, old, new, h, ht, env, u, hu => by
    rw [Edit.Makes] at h
    obtain ⟨a, b, b', rfl, rfl, h⟩ := h
    rw [Edit.Temps] at ht
    cases u with
    | cons x xs =>
      cases xs with
      | cons y z =>
        rw [Edit.Shaped] at hu
        obtain ⟨rfl, hu⟩ := hu
        rw [Edit.cut, Ty.write, Ty.write]
        exact .after _ fun _ => e.write_leads hQ m b b' h ht env y hu
      | _ => simp only [Edit.cut, Ty.write]; exact .refl hQ _
    | _ => simp only [Edit.cut, Ty.write]; exact .refl hQ _
  | .struct e, old, new, h, ht, env, u, hu => by
    rw [Edit.Makes] at h
    obtain ⟨args, seek, magic, fs, fs', rfl, rfl, h⟩ := h
    rw [Edit.Temps] at ht
    rw [Edit.Shaped] at hu
    rw [Edit.cut, Ty.write, Ty.write]
    exact .after _ fun _ => .after _ fun _ => e.write_leads hQ m fs fs' h ht.2 _ _ _ (fun f hf => ht.1 f hf u) u hu
  | .enum e, old, new, h, ht, env, u, hu => by
    rw [Edit.Makes] at h
    obtain ⟨args, magic, id, store, vs, vs', rfl, rfl, h⟩ := h
    rw [Edit.Temps] at ht
    cases u with
    | variant i fs =>
      rw [Edit.Shaped] at hu
      rw [Edit.cut, Ty.write, Ty.write]
      exact .after _ fun _ => e.write_leads hQ m vs vs' h ht _ id (store i) i fs hu
    | _ => simp only [Edit.cut, Ty.write]; exact .refl hQ _

theorem FEdit.write_leads (hQ : Q .nil) (m : Machine) : ∀ (e : FEdit) (old new : Fields), e.Makes Q old new →
    e.Temps old → ∀ env all' all, (∀ f ∈ old.temps, f all' = f all) → ∀ u, e.Shaped u →
    LeadsW Q m (old.write m env all' (e.cut u)) (new.write m env all u)
  | .same, old, new, h, ht, env, all', all, ha, u, hu => by
    rw [FEdit.Makes] at h
    subst h
    rw [FEdit.cut, Fields.write_temps m _ env all' all ha]
    exact .refl hQ _
  | .more, old, new, h, ht, env, all', all, ha, u, hu => by
    rw [FEdit.Makes] at h
    obtain ⟨rfl, h⟩ := h
    rw [FEdit.cut, Fields.write_nil]
    exact fun w => ⟨fun w' e => by cases e; exact ⟨_, _, _, _, h, rfl⟩, (fun _ _ h => nomatch h), (fun _ h => nomatch h)⟩
  | .field e, old, new, h, ht, env, all', all, ha, u, hu => by
    rw [FEdit.Makes] at h
    obtain ⟨a, t, rest, rest', rfl, rfl, h⟩ := h
    rw [FEdit.Temps] at ht
    cases u with
    | cons x xs =>
      rw [FEdit.Shaped] at hu
      rw [FEdit.cut, Fields.write, Fields.write]
      exact .after _ fun _ => e.write_leads hQ m rest rest' h ht _ _ _ (fun f hf => ha f (by rwa [Fields.temps])) xs hu
    | _ => simp only [FEdit.cut, Fields.write]; exact .refl hQ _
  | .temp e, old, new, h, ht, env, all', all, ha, u, hu => by
    rw [FEdit.Makes] at h
    obtain ⟨a, t, value, rest, rest', rfl, rfl, h⟩ := h
    rw [FEdit.Temps] at ht
    rw [FEdit.Shaped] at hu
    rw [Fields.temps] at ha
    have hr : ∀ f ∈ rest.temps, f all' = f all := fun f hf => ha f (List.mem_append_right _ hf)
    cases value with
    | none =>
      rw [FEdit.cut, Fields.write, Fields.write]
      exact .after _ fun _ => e.write_leads hQ m rest rest' h ht _ _ _ hr u hu
    | some f =>
      have hf := ha f (by simp)
      rw [FEdit.cut, Fields.write, Fields.write, hf]
      exact .after _ fun _ => e.write_leads hQ m rest rest' h ht _ _ _ hr u hu
  | .last e, old, new, h, ht, env, all', all, ha, u, hu => by
    rw [FEdit.Makes] at h
    obtain ⟨a, t, t', rfl, rfl, hb, h⟩ := h
    rw [FEdit.Temps] at ht
    cases u with
    | cons x xs =>
      rw [FEdit.Shaped] at hu
      obtain ⟨rfl, hu⟩ := hu
      simp only [FEdit.cut, Fields.write, if_true]
      have hp : ∀ f : M Writer Unit, (do f; pure ()) = f := by
        intro f
        funext s
        rcases hf : f s with ⟨y, s'⟩
        cases y with
        | ok _ => rw [M.bind_ok hf]; rfl
        | err _ => rw [M.bind_err hf]
        | panic => rw [M.bind_panic hf]
      rw [hp, hp, Attrs.write_bare hb, Attrs.write_bare hb]
      exact .after _ fun _ => .after _ fun _ => .after _ fun _ => .after _ fun _ => e.write_leads hQ m t t' h ht _ x hu
    | _ => simp only [FEdit.cut, Fields.write]; exact .refl hQ _

theorem VEdit.write_leads (hQ : Q .nil) (m : Machine) : ∀ (e : VEdit) (old new : Variants), e.Makes Q old new →
    e.Temps old → ∀ env id store i u, e.Shaped i u →
    LeadsW Q m (old.writeAt m env id store i (e.cut i u)) (new.writeAt m env id store i u)
  | .nil, old, new, h, ht, env, id, store, i, u, hu => by
    rw [VEdit.Makes] at h
    obtain ⟨rfl, rfl⟩ := h
    rw [VEdit.cut]
    exact .refl hQ _
  | .cons e rest, old, new, h, ht, env, id, store, 0, u, hu => by
    rw [VEdit.Makes] at h
    obtain ⟨a, fs, fs', vs, vs', rfl, rfl, h, hp, hr⟩ := h
    rw [VEdit.Temps] at ht
    rw [VEdit.Shaped] at hu
    rw [VEdit.cut]
    have hb : LeadsW Q m
        (if a.idPat = true then fs.writeStored m store env (e.cut u) else fs.write m env (e.cut u) (e.cut u))
        (if a.idPat = true then fs'.writeStored m store env u else fs'.write m env u u) := by
      by_cases hi : a.idPat = true
      · rw [if_pos hi, if_pos hi]
        have hl := hp hi
        cases e with
        | same =>
          rw [FEdit.Makes] at h
          subst h
          rw [FEdit.cut]
          exact .refl hQ _
        | more => exact absurd hl (by simp [FEdit.keepsFirst])
        | field e =>
          rw [FEdit.Makes] at h
          obtain ⟨a, t, rest, rest', rfl, rfl, h⟩ := h
          rw [FEdit.Temps] at ht
          cases u with
          | cons x xs =>
            rw [FEdit.Shaped] at hu
            have hc := ht.1
            rw [FEdit.cut, Fields.writeStored, Fields.writeStored]
            refine .after _ fun _ => e.write_leads hQ m rest rest' h ht.2.1 _ _ _ (fun f hf => ?_) xs hu
            have := hc f (by rwa [Fields.temps]) (.cons x xs)
            rwa [FEdit.cut] at this
          | _ => simp only [FEdit.cut, Fields.writeStored]; exact .refl hQ _
        | temp e =>
          rw [FEdit.Makes] at h
          obtain ⟨a, t, value, rest, rest', rfl, rfl, h⟩ := h
          rw [Fields.writeStored, Fields.writeStored]
          exact .refl hQ _
        | last e => exact absurd hl (by simp [FEdit.keepsFirst])
      · rw [if_neg hi, if_neg hi]
        exact e.write_leads hQ m fs fs' h ht.2.1 _ _ _ (fun f hf => ht.1 f hf u) u hu
    unfold Variants.writeAt
    dsimp only
    split
    · exact .after _ fun _ => hb
    · exact hb
  | .cons e rest, old, new, h, ht, env, id, store, i + 1, u, hu => by
    rw [VEdit.Makes] at h
    obtain ⟨a, fs, fs', vs, vs', rfl, rfl, _, _, hr⟩ := h
    rw [VEdit.Temps] at ht
    rw [VEdit.Shaped] at hu
    rw [VEdit.cut]
    unfold Variants.writeAt
    exact rest.write_leads hQ m vs vs' hr ht.2.2 env id store i u hu

end

end Deku
