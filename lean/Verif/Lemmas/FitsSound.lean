import Verif.Lemmas.Pieces

/-! # A value that fits a definition is read back -/

namespace Deku

open Reader Writer Coll

variable {α β σ : Type} {o : Order} {p : Nat}

theorem M.pure_bind (a : α) (f : α → M σ β) : (Pure.pure a >>= f : M σ β) = f a := rfl

theorem SoundOn.then {P Q : Nat → Prop} {f : M Reader α} {g : M Writer Unit} {v : α}
    (h : SoundOn o P f g v Q) {k : α → M Reader β} {b : β} (hk : k v = Pure.pure b) :
    SoundOn o P (f >>= k) g b Q := by
  intro p w w' hp hw he
  obtain ⟨x, hW, hR, hq⟩ := h p w w' hp hw he
  refine ⟨x, hW, ?_, hq⟩
  have := hR.bind (g := k) (y := []) (b := b) (by rw [hk]; exact Reads.pure o _ b)
  rwa [List.append_nil] at this

/-- The value, the check and what comes after it. -/
theorem SoundOn.field {P R Q : Nat → Prop} {f : M Reader α} {g : M Writer Unit} {v : α}
    {k cr : α → M Reader Unit} {g' cw : M Writer Unit} (hV : SoundOn o P f g v R)
    (hK : SoundOn o R (k v) g' () Q)
    (hc : ∀ w w', cw w = (.ok (), w') → (∀ w, cw w = (.ok (), w)) ∧ ∀ r, cr v r = (.ok (), r)) :
    SoundOn o P (f >>= fun a => cr a >>= fun _ => k a >>= fun _ => Pure.pure a)
      (cw >>= fun _ => g >>= fun _ => g') v Q := by
  intro p w w' hp hw he
  obtain ⟨u, w1, e1, _⟩ := M.bind_eq_ok he
  obtain ⟨hcw, hcr⟩ := hc _ _ e1
  have h1 : cw = Pure.pure () := funext hcw
  have h2 : cr v = Pure.pure () := funext hcr
  subst h1
  rw [M.pure_bind] at he ⊢
  refine SoundOn.bind (f' := fun a => cr a >>= fun _ => k a >>= fun _ => Pure.pure a) (v' := v) hV ?_
    p w w' hp hw he
  simp only [h2, M.pure_bind]
  exact hK.mapRead fun _ => v

theorem Attrs.value_sound {a : Attrs} {T : (Nat → Prop) → (Nat → Prop) → Env → Val → Prop}
    {rd : Env → M Reader Val} {wr : Env → Val → M Writer Unit} {P Q : Nat → Prop} {env : Env} {x : Val}
    (hT : ∀ P Q env x, T P Q env x → SoundOn o P (rd env) (wr env x) x Q)
    (h : a.ValueFits o T wr P Q env x) : SoundOn o P (a.value rd env) (a.put wr env x) x Q := by
  rcases h with ⟨hr, hw, hm, ht⟩ | ⟨hr, hd, hPQ, hw⟩
  · simp only [Attrs.value, Attrs.put, hr, hw, if_true]
    exact (hT _ _ _ _ ht).then (by simp [Attrs.applyMap, hm])
  · simp only [Attrs.value, Attrs.put, hr, hd]
    intro p w w' hp _ _
    refine ⟨[], ?_, Reads.pure o p x, hPQ _ hp⟩
    by_cases hx : a.isWritten env = true
    · simp only [hx, if_true]; exact hw hx p hp
    · simp only [hx]; exact Writes.pure o p

theorem byteSafe_at {P : Nat → Prop} {magic : List Byte} (h : magic = [] ∨ ByteSafe o P) {p : Nat}
    (hp : P p) : magic = [] ∨ (o = .lsb0 → p % 8 = 0) := by
  rcases h with h | h | h
  · exact .inl h
  · exact .inr fun h' => by rw [h] at h'; simp at h'
  · exact .inr fun _ => h p hp

theorem magic_sound (native : Endian) {magic : List Byte} {P : Nat → Prop}
    (h : magic = [] ∨ ByteSafe o P) :
    SoundOn o P (magicRead native magic) (magicWrite native magic) () (shift P (8 * magic.length)) := by
  intro p w w' hp hw he
  rcases byteSafe_at h hp with h | h
  · subst h
    exact ⟨[], Writes.pure o p, Reads.pure o p (), p, hp, rfl⟩
  · exact ⟨_, magicWrite_writes native magic h, magicRead_reads native magic h, p, hp,
      by rw [length_orderBits]⟩

theorem shift_shift {P : Nat → Prop} {a b : Nat} {p : Nat} (h : shift (shift P a) b p) :
    shift P (a + b) p := by
  obtain ⟨q, ⟨q', hq, rfl⟩, rfl⟩ := h
  exact ⟨q', hq, by omega⟩

theorem shift_zero {P : Nat → Prop} {p : Nat} (h : shift P 0 p) : P p := by
  obtain ⟨q, hq, rfl⟩ := h
  exact hq

theorem Attrs.read_eq {a : Attrs} (hs : a.seek = none) (ho : a.usesOffset = false) (native : Endian)
    (rd : Env → M Reader Val) (env : Env) :
    a.read native rd env = (magicRead native a.magic >>= fun _ => padRead a.padOrder a.padBefore env >>=
      fun _ => a.value rd (env.at 0) >>= fun v => a.check (env.at 0) v >>= fun _ =>
        padRead a.padOrder a.padAfter ((env.at 0).push v) >>= fun _ => Pure.pure v) := by
  simp only [Attrs.read, hs, ho, seekRead]
  rfl

theorem Attrs.write_eq {a : Attrs} (hs : a.seek = none) (ho : a.usesOffset = false) (native : Endian)
    (wr : Env → Val → M Writer Unit) (env : Env) (v : Val) :
    a.write native wr env v = (magicWrite native a.magic >>= fun _ =>
      padWrite a.padOrder a.padBefore env >>= fun _ => a.check (env.at 0) v >>= fun _ =>
        a.put wr (env.at 0) v >>= fun _ => padWrite a.padOrder a.padAfter ((env.at 0).push v)) := by
  simp only [Attrs.write, hs, ho, seekWrite]
  rfl

theorem Attrs.sound {a : Attrs} {T : (Nat → Prop) → (Nat → Prop) → Env → Val → Prop}
    {rd : Env → M Reader Val} {wr : Env → Val → M Writer Unit} {P Q : Nat → Prop} {env : Env} {x : Val}
    (native : Endian) (hT : ∀ P Q env x, T P Q env x → SoundOn o P (rd env) (wr env x) x Q)
    (h : a.Fits o T wr P Q env x) :
    SoundOn o P (a.read native rd env) (a.write native wr env x) x Q := by
  obtain ⟨hs, ho, hm, hb, ha, R, hV, hQ⟩ := h
  rw [Attrs.read_eq hs ho, Attrs.write_eq hs ho]
  refine (magic_sound native hm).bind ?_
  refine (pad_sound hb _).bind ?_
  have h1 := (Attrs.value_sound hT hV).field
    (k := fun v => padRead a.padOrder a.padAfter ((env.at 0).push v))
    (cr := fun v => a.check (env.at 0) v) (cw := a.check (env.at 0) x) (pad_sound ha R)
    (fun w w' hc => ⟨fun w => check_ok hc w, fun r => check_ok hc r⟩)
  exact h1.mono (fun _ => shift_shift) hQ

theorem ofList_elems {v : Val} (h : v.isList = true) : Val.ofList v.elems = v := by
  induction v with
  | nil => rfl
  | cons x xs _ ih => simp only [Val.elems, Val.ofList]; rw [ih h]
  | _ => simp [Val.isList] at h

theorem toUsize_nat {n : Nat} (h : n < 2 ^ 64) (s : σ) : toUsize (n : Int) s = (.ok n, s) := by
  have h' : (0 : Int) ≤ n ∧ (n : Int) < 2 ^ 64 := ⟨by omega, by exact_mod_cast h⟩
  unfold toUsize
  rw [if_pos h']
  simp

/-- Lists under each limit are read from their pieces. -/
theorem vec_reads {P : Nat → Prop} {f : M Reader Val} {g : Val → M Writer Unit} {vs : List Val}
    {l : LimitE} {env : Env} {mem size : Nat} {xs : List (List Bool)} (hL : Pieces o f P g p xs vs)
    (hz : size ≠ 0) (hm : vs.length ≤ mem) (hl : l.Fits (· = p) (fun _ n => xs.flatten.length = n) env vs)
    (hne : l.isSize = true → ∀ x ∈ xs, x ≠ []) :
    Reads o p (do let lim ← l.eval env; Coll.vecRead mem size f lim) xs.flatten vs := by
  intro r rest hr hu
  obtain ⟨t, r', ht, hmap, hs, hb, hsz⟩ := hL.trace hr hu
  refine ⟨r', ?_, hs⟩
  have htl : t.length = vs.length := by rw [← hmap]; simp
  have hbits : ∀ k : Nat, xs.flatten.length = k → (∀ x ∈ xs, x ≠ []) →
      vecRead (σ := List Val) mem size f (.bits k) r = (.ok vs, r') := by
    intro k hk hne
    by_cases h0 : k = 0
    · subst h0
      have hv : vs = [] := by
        cases vs with
        | nil => rfl
        | cons v vs =>
          cases xs with
          | nil => exact hL.elim
          | cons x xs =>
            have := List.length_pos_iff.2 (hne x List.mem_cons_self)
            rw [List.flatten_cons, List.length_append] at hk
            omega
      subst hv
      have : t = [] := List.eq_nil_of_length_eq_zero (by simpa using htl)
      subst this
      cases ht
      simp [vecRead]
    · rw [vecRead_bits_eq hz h0, vecLoop_ok_iff]
      refine ⟨t, ht, hmap, hsz hne r.bitsRead k (Nat.le_refl _) ?_ (by omega), by omega⟩
      rintro rfl
      cases xs with
      | nil => simp at hk; omega
      | cons _ _ => exact hL.elim
  cases l with
  | count n =>
    obtain ⟨hn, h64⟩ := hl
    simp only [LimitE.eval, hn]
    rw [hn] at h64
    have h64' : vs.length < 2 ^ 64 := by exact_mod_cast h64
    rw [M.bind_ok (by rw [M.bind_ok (toUsize_nat h64' r)]; rfl)]
    simp only [vecRead]
    by_cases h0 : vs.length = 0
    · rw [if_pos h0]
      have : vs = [] := List.eq_nil_of_length_eq_zero h0
      subst this
      have : t = [] := List.eq_nil_of_length_eq_zero (by simpa using htl)
      subst this
      cases ht
      rfl
    · rw [if_neg h0]
      simp only [vecWithPredicate, if_neg hz, withCapacity, hm, decide_true]
      rw [M.assert_true_bind_run, M.get_bind_run, vecLoop_ok_iff]
      exact ⟨t, ht, hmap, stopsAt_count hb htl h0, by omega⟩
  | «until» pr =>
    simp only [LimitE.eval]
    rw [M.pure_bind_run]
    simp only [vecRead, vecWithPredicate_none hz]
    rw [vecLoop_ok_iff]
    refine ⟨t, ht, hmap, (stopsAt_until hb).2 ?_, by omega⟩
    rw [hmap]
    exact hl
  | bits n =>
    obtain ⟨k, hn, h64, hk⟩ := hl
    simp only [LimitE.eval, hn]
    rw [M.bind_ok (by rw [M.bind_ok (toUsize_nat h64 r)]; rfl)]
    exact hbits k (hk p _ rfl rfl) (hne rfl)
  | bytes n =>
    obtain ⟨k, hn, h64, hk⟩ := hl
    simp only [LimitE.eval, hn]
    rw [M.bind_ok (by rw [M.bind_ok (toUsize_nat (show k < 2 ^ 64 by omega) r)]; rfl)]
    rw [vecRead_bytes_eq h64]
    exact hbits (8 * k) (hk p _ rfl rfl) (hne rfl)
  | «end» => exact hl.elim

/-- Lists under each limit. -/
theorem vec_sound {P : Nat → Prop} {f : M Reader Val} {g : Val → M Writer Unit} {vs : List Val}
    {l : LimitE} {env : Env} {mem size : Nat} (h : ∀ v ∈ vs, SoundOn o P f (g v) v P)
    (hz : size ≠ 0) (hm : vs.length ≤ mem)
    (hl : l.Fits P (fun p n => ∃ bits, Writes o p (Coll.writeAll g vs) bits ∧ bits.length = n) env vs)
    (hne : l.isSize = true → ∀ x ∈ vs, ∀ p bits, P p → Writes o p (g x) bits → bits ≠ []) :
    SoundOn o P (do let lim ← l.eval env; Coll.vecRead mem size f lim) (Coll.writeAll g vs) vs P := by
  intro p w w' hp hw he
  obtain ⟨xs, hL, hp2⟩ := writeAll_pieces h hp hw he
  refine ⟨xs.flatten, hL.writes, vec_reads hL hz hm ?_ fun h => hL.nonempty (hne h), hp2⟩
  have hlen : ∀ q n, q = p → xs.flatten.length = n → P q ∧ ∃ bits, Writes o q (Coll.writeAll g vs) bits ∧ bits.length = n := by
    rintro _ n rfl e
    exact ⟨hp, _, hL.writes, e⟩
  cases l with
  | bits n =>
    obtain ⟨k, h1, h2, h3⟩ := hl
    exact ⟨k, h1, h2, fun q n hq hn => h3 q n (hlen q n hq hn).1 (hlen q n hq hn).2⟩
  | bytes n =>
    obtain ⟨k, h1, h2, h3⟩ := hl
    exact ⟨k, h1, h2, fun q n hq hn => h3 q n (hlen q n hq hn).1 (hlen q n hq hn).2⟩
  | _ => exact hl

theorem isBytes_elems {v : Val} (h : v.isBytes = true) :
    v.isList = true ∧ (v.elems.map Val.toByte).map Val.ofByte = v.elems := by
  simp only [Val.isBytes, Bool.and_eq_true, List.all_eq_true, decide_eq_true_eq] at h
  refine ⟨h.1, ?_⟩
  rw [List.map_map]
  conv => rhs; rw [← List.map_id v.elems]
  exact List.map_congr_left fun x hx => (h.2 x hx).symm

/-- How the id of an enum is obtained. -/
def IdSrc.get (id : IdSrc) (env : Env) : M Reader Val :=
  match id with
  | .ctx e => Pure.pure (e env)
  | .typed _ c => (c env).read

def IdSrc.isTyped : IdSrc → Bool
  | .ctx _ => false
  | .typed _ _ => true

theorem Ty.read_enum (m : Machine) (args : Env → List Val) (magic : List Byte) (id : IdSrc)
    (store : Nat → Env → Val → M Writer Unit) (vs : Variants) (env : Env) :
    (Ty.enum args magic id store vs).read m env = (magicRead m.native magic >>= fun _ =>
      id.get { ctx := args env } >>= fun x =>
        dispatch (vs.select { ctx := args env } x) (vs.readAt m { ctx := args env } x id.isTyped)) := by
  cases id <;> simp only [Ty.read] <;> rfl

/-- Without fields it makes no difference whether the first one stores the id. -/
theorem storedNil_write (m : Machine) (store : Env → Val → M Writer Unit) (env : Env) (v : Val) {a : VAttrs}
    {fs : Fields} (h : a.idPat = false ∨ fs = .nil) :
    (if a.idPat = true then fs.writeStored m store env v else fs.write m env v v) = fs.write m env v v := by
  rcases h with h | rfl
  · rw [h]; rfl
  · simp only [Fields.writeStored, Fields.write, ite_self]

theorem storedNil_read (m : Machine) (env : Env) (x : Val) (typed : Bool) {a : VAttrs} {fs : Fields}
    (h : a.idPat = false ∨ fs = .nil) :
    (if (a.idPat && typed) = true then fs.readStored m env x else fs.read m env) = fs.read m env := by
  rcases h with h | rfl
  · rw [h]; rfl
  · simp only [Fields.readStored, Fields.read, ite_self]

mutual

theorem Ty.sound (m : Machine) (o : Order) : ∀ (t : Ty) (P Q : Nat → Prop) (env : Env) (v : Val),
    t.Fits m o P Q env v → SoundOn o P (t.read m env) (t.write m env v) v Q
  | .prim _ c, P, Q, env, v, h => by
    simp only [Ty.Fits] at h
    simp only [Ty.read, Ty.write]
    exact h
  | .option t, P, Q, env, v, h => by
    simp only [Ty.Fits] at h
    obtain ⟨x, rfl, h⟩ := h
    simp only [Ty.read, Ty.write]
    exact (Ty.sound m o t P Q env x h).mapRead Val.some
  | .array n t, P, Q, env, v, h => by
    simp only [Ty.Fits] at h
    obtain ⟨R, hPR, h, hPQ⟩ := h
    simp only [Ty.read, Ty.write]
    intro p w w' hp hw he
    replace hp := hPR p hp
    by_cases hv : v.isList = true ∧ v.elems.length = n
    · rw [if_pos hv] at he ⊢
      obtain ⟨xs, hL, hp2⟩ := writeAll_pieces (g := t.write m env)
        (fun x hx => Ty.sound m o t R R env x (h x hx)) hp hw he
      refine ⟨xs.flatten, hL.writes, ?_, hPQ _ hp2⟩
      have : Reads o p (arrayRead (t.read m env) n) xs.flatten v.elems := by
        intro r tl hr hu
        obtain ⟨tr, r', ht, hmap, hs, _⟩ := hL.trace hr hu
        refine ⟨r', ?_, hs⟩
        rw [arrayRead_eq, ← hv.2]
        exact readN_trace.2 ⟨tr, ht, hmap⟩
      have h2 := this.map Val.ofList
      rwa [ofList_elems hv.1] at h2
    · rw [if_neg hv] at he; simp at he
  | .pair a b, P, Q, env, v, h => by
    simp only [Ty.Fits] at h
    obtain ⟨x, y, R, rfl, ha, hb⟩ := h
    simp only [Ty.read, Ty.write]
    exact (Ty.sound m o a P R env x ha).bind
      ((Ty.sound m o b R Q env y hb).mapRead fun y => Val.cons x (.cons y .nil))
  | .vec size l t, P, Q, env, v, h => by
    simp only [Ty.Fits] at h
    obtain ⟨R, hPR, h, hPQ, hz, hm, hl, hne⟩ := h
    simp only [Ty.read, Ty.write]
    intro p w w' hp hw he
    replace hp := hPR p hp
    by_cases hv : v.isList = true
    · rw [if_pos hv] at he ⊢
      obtain ⟨x, hW, hR, hq⟩ := (vec_sound (f := t.read m env) (g := t.write m env)
        (fun x hx => Ty.sound m o t R R env x (h x hx)) hz hm hl hne) p w w' hp hw he
      refine ⟨x, hW, ?_, hPQ _ hq⟩
      intro r tl hr hu
      obtain ⟨r', e, s⟩ := hR r tl hr hu
      refine ⟨r', ?_, s⟩
      obtain ⟨lim, r1, e1, e2⟩ := M.bind_eq_ok e
      rw [M.bind_ok e1, M.bind_ok e2]
      simp [ofList_elems hv]
    · rw [if_neg hv] at he; simp at he
  | .bytes n ctx, P, Q, env, v, h => by
    simp only [Ty.Fits] at h
    obtain ⟨hn, h64, hP, hQ, hb⟩ := h
    simp only [Ty.read, Ty.write]
    intro p w w' hp hw he
    by_cases hv : v.isBytes = true
    · rw [if_pos hv] at he ⊢
      obtain ⟨hl, hmap⟩ := isBytes_elems hv
      refine ⟨_, byteList_writes m.native hb _ (fun _ => hP p hp), ?_, ?_⟩
      · intro r tl hr hu
        have hk : v.elems.length < 2 ^ 64 := by omega
        have hR := readExact_reads (o := o) (hP p hp) (v.elems.map Val.toByte)
        rw [List.length_map] at hR
        obtain ⟨r', e, s⟩ := hR r tl hr hu
        refine ⟨r', ?_, s⟩
        rw [hn, M.bind_ok (toUsize_nat hk r), M.bind_ok e, hmap, ofList_elems hl]
        rfl
      · rw [length_orderBits, List.length_map]; exact hQ p hp
    · rw [if_neg hv] at he; simp at he
  | .struct args sk magic fs, P, Q, env, v, h => by
    simp only [Ty.Fits] at h
    obtain ⟨rfl, hm, hf⟩ := h
    simp only [Ty.read, Ty.write, seekRead, seekWrite, M.pure_bind]
    exact (magic_sound m.native hm).bind (Fields.sound m o fs _ Q _ v v hf)
  | .enum args magic id store vs, P, Q, env, v, h => by
    simp only [Ty.Fits] at h
    obtain ⟨hm, i, fs, rfl, hv⟩ := h
    rw [Ty.read_enum]
    simp only [Ty.write]
    refine (magic_sound m.native hm).bind ?_
    refine Variants.sound m o _ id (store i) vs i i _ Q _ fs hv _ ?_
    intro x hx
    simp only [hx, dispatch]

theorem Fields.sound (m : Machine) (o : Order) : ∀ (fs : Fields) (P Q : Nat → Prop) (env : Env)
    (all v : Val), fs.Fits m o P Q env all v →
    SoundOn o P (fs.read m env) (fs.write m env all v) v Q
  | .nil, P, Q, env, all, v, h => by
    simp only [Fields.Fits] at h
    simp only [Fields.read, Fields.write]
    intro p w w' hp hw he
    by_cases hv : v = .nil
    · subst hv
      exact ⟨[], Writes.pure o p, Reads.pure o p _, h p hp⟩
    · rw [if_neg hv] at he; simp at he
  | .cons a t tl, P, Q, env, all, v, h => by
    simp only [Fields.Fits] at h
    obtain ⟨x, xs, R, rfl, ha, hr⟩ := h
    simp only [Fields.read, Fields.write]
    exact (Attrs.sound m.native (fun P Q env x hx => Ty.sound m o t P Q env x hx) ha).bind
      ((Fields.sound m o tl R Q (env.push x) all xs hr).mapRead fun vs => Val.cons x vs)
  | .temp a t value tl, P, Q, env, all, v, h => by
    simp only [Fields.Fits] at h
    obtain ⟨f, R, rfl, ha, hr⟩ := h
    simp only [Fields.read, Fields.write]
    exact (Attrs.sound m.native (fun P Q env x hx => Ty.sound m o t P Q env x hx) ha).bind
      (Fields.sound m o tl R Q (env.push (f all)) all v hr)

theorem Fields.soundStored (m : Machine) (o : Order)
    (Id : Val → (Nat → Prop) → (Nat → Prop) → Prop) (store : Env → Val → M Writer Unit) (idr : M Reader Val)
    (whole : Val → M Reader Val) (j : Nat) : ∀ (fs : Fields) (P Q : Nat → Prop) (env : Env) (v : Val),
    fs.FitsStored m o Id P Q env v →
    (∀ x P R, Id x P R → SoundOn o P idr (store env x) x R ∧
      whole x = fs.readStored m env x >>= fun fs' => Pure.pure (.variant j fs')) →
    SoundOn o P (idr >>= whole) (fs.writeStored m store env v) (.variant j v) Q
  | .nil, P, Q, env, v, h, _ => by simp only [Fields.FitsStored] at h
  | .temp _ _ _ _, P, Q, env, v, h, _ => by simp only [Fields.FitsStored] at h
  | .cons a t tl, P, Q, env, v, h, hid => by
    simp only [Fields.FitsStored] at h
    obtain ⟨x, xs, R, rfl, hx, hr⟩ := h
    obtain ⟨h1, h2⟩ := hid x P R hx
    simp only [Fields.writeStored]
    refine h1.bind ?_
    rw [h2]
    simp only [Fields.readStored]
    exact ((Fields.sound m o tl R Q (env.push x) _ xs hr).mapRead fun vs => Val.cons x vs).mapRead _

theorem Fields.soundFirst (m : Machine) (o : Order) (store : Env → Val → M Writer Unit) :
    ∀ (fs : Fields) (P Q : Nat → Prop) (env : Env) (v : Val), fs.FitsFirst m o store P Q env v →
    SoundOn o P (fs.read m env) (fs.writeStored m store env v) v Q
  | .nil, P, Q, env, v, h => by simp only [Fields.FitsFirst] at h
  | .temp _ _ _ _, P, Q, env, v, h => by simp only [Fields.FitsFirst] at h
  | .cons a t tl, P, Q, env, v, h => by
    simp only [Fields.FitsFirst] at h
    obtain ⟨x, xs, R, rfl, hx, hr⟩ := h
    simp only [Fields.writeStored, Fields.read]
    exact hx.bind ((Fields.sound m o tl R Q (env.push x) _ xs hr).mapRead fun vs => Val.cons x vs)

theorem Variants.sound (m : Machine) (o : Order) (sel : Val → Prop) (id : IdSrc)
    (store : Env → Val → M Writer Unit) : ∀ (vs : Variants) (i j : Nat) (P Q : Nat → Prop) (env : Env)
    (v : Val), vs.FitsAt m o sel id store i P Q env v →
    ∀ whole : Val → M Reader Val, (∀ x, sel x →
      whole x = vs.readAt m env x id.isTyped i >>= fun fs' => Pure.pure (.variant j fs')) →
    SoundOn o P (id.get env >>= whole) (vs.writeAt m env id store i v) (.variant j v) Q
  | .nil, i, j, P, Q, env, v, h, whole, hw => by simp only [Variants.FitsAt] at h
  | .cons a fs tl, 0, j, P, Q, env, v, h, whole, hw => by
    simp only [Variants.readAt] at hw
    cases id with
    | ctx e =>
      simp only [Variants.FitsAt] at h
      obtain ⟨hs, h⟩ := h
      simp only [Variants.writeAt, IdSrc.get, M.pure_bind]
      rw [hw _ hs]
      simp only [IdSrc.isTyped, Bool.and_false]
      rcases h with ⟨hp, hf⟩ | ⟨hp, hf⟩
      · rw [storedNil_write m store env v hp]
        exact (Fields.sound m o fs P Q env v v hf).mapRead _
      · simp only [hp]
        exact (Fields.soundFirst m o store fs P Q env v hf).mapRead _
    | typed sz c =>
      simp only [Variants.FitsAt] at h
      rcases h with ⟨hp, x, R, hx, hs, hc, hf⟩ | ⟨hp, hx, hf⟩
      · simp only [Variants.writeAt, hx, IdSrc.get]
        refine hc.bind ?_
        rw [hw _ hs, storedNil_write m store env v hp, storedNil_read m env x _ hp]
        exact (Fields.sound m o fs R Q env v v hf).mapRead _
      · simp only [Variants.writeAt, hp, hx, IdSrc.get, if_true]
        refine Fields.soundStored m o _ store _ whole j fs P Q env v hf ?_
        intro x P' R' ⟨hs, hc⟩
        refine ⟨hc, ?_⟩
        rw [hw x hs]
        simp only [hp, IdSrc.isTyped, Bool.and_self, if_true]
  | .cons a fs tl, i + 1, j, P, Q, env, v, h, whole, hw => by
    simp only [Variants.FitsAt] at h
    simp only [Variants.readAt] at hw
    simp only [Variants.writeAt]
    exact Variants.sound m o sel id store tl i j P Q env v h whole hw

end

/-! ### `to_bytes` and `from_bytes` -/

theorem toBytes_accepted {g : M Writer Unit} {out : List Byte} (h : toBytes g = .ok out) :
    ∃ w, g (Writer.new {}) = (.ok (), w) := by
  unfold toBytes at h
  rw [M.bind_def] at h
  cases hg : g (Writer.new {}) with
  | mk x w =>
    rw [hg] at h
    cases x with
    | ok u => exact ⟨w, rfl⟩
    | err e => simp at h
    | panic => simp at h

/-- `from_bytes` of `to_bytes` with anything after it. -/
theorem SoundOn.round_trip {f : M Reader α} {g : M Writer Unit} {v : α} {Q : Nat → Prop}
    (h : SoundOn o (· = 0) f g v Q) {out : List Byte} (hout : toBytes g = .ok out) :
    ∃ n, n ≤ 8 * out.length ∧ 8 * out.length < n + 8 ∧ Q n ∧
      ∀ extra, fromBytes f (out ++ extra) 0 = .ok (((out ++ extra).drop (n / 8), n % 8), v) := by
  obtain ⟨w, hw⟩ := toBytes_accepted hout
  obtain ⟨bits, hW, hR, hq⟩ := h 0 _ _ rfl (Writer.new_at o) hw
  obtain ⟨out', ho', hbits⟩ := hW.toBytes
  rw [hout] at ho'
  simp at ho'
  subst ho'
  have hlen := congrArg List.length hbits
  rw [length_orderBits, List.length_append, List.length_replicate] at hlen
  refine ⟨bits.length, by omega, by omega, by simpa using hq, fun extra => ?_⟩
  obtain ⟨r', e, hb, _⟩ := hR.fromBytes (out := out ++ extra)
    (rest := List.replicate ((8 - bits.length % 8) % 8) false ++ orderBits o extra)
    (by rw [orderBits_append, hbits, List.append_assoc])
  have e' : readFrom f 0 (Reader.new { data := out ++ extra }) = (.ok v, r') := by
    simp only [readFrom]; exact e
  unfold Deku.fromBytes
  rw [e']
  simp only [hb]
  rw [if_pos (by simp; omega)]

end Deku
