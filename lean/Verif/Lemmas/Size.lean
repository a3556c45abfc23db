import Verif.Spec.Size
import Verif.Lemmas.Chain
import Verif.Lemmas.Leaves

/-! # How many bits are taken -/

namespace Deku

open Reader Writer Coll

variable {α β : Type}

/-! ### sets of sizes -/

theorem plus_mono {S S' T T' : Nat → Prop} (h : ∀ n, S n → S' n) (h' : ∀ n, T n → T' n) {n : Nat} :
    plus S T n → plus S' T' n
  | ⟨i, j, hi, hj, e⟩ => ⟨i, j, h i hi, h' j hj, e⟩

theorem plus_zero {S : Nat → Prop} {n : Nat} (h : S n) : plus S (· = 0) n := ⟨n, 0, h, rfl, rfl⟩

theorem zero_plus {S : Nat → Prop} {n : Nat} (h : S n) : plus (· = 0) S n := ⟨0, n, rfl, h, by omega⟩

/-! ### reading -/

theorem Reader.Good.used_eq {r : Reader} (h : r.Good) : r.used = r.bitsRead := by
  have := h.sync
  simp only [Synced] at this
  simp only [Reader.used]
  omega

theorem Uses.mono {S T : α → Nat → Prop} {f : M Reader α} (h : Uses S f) (hST : ∀ a n, S a n → T a n) :
    Uses T f := by
  intro r a r' hr he
  obtain ⟨h1, n, h2, h3⟩ := h r a r' hr he
  exact ⟨h1, n, hST a n h2, h3⟩

theorem Uses.pure {S : α → Nat → Prop} {a : α} (h : S a 0) : Uses S (Pure.pure a : M Reader α) := by
  intro r b r' hr he
  simp at he
  obtain ⟨rfl, rfl⟩ := he
  exact ⟨hr, 0, h, rfl⟩

theorem Uses.throw {S : α → Nat → Prop} (e : DekuError) : Uses S (M.throw e : M Reader α) :=
  fun r a r' _ he => by simp [M.throw] at he

theorem Uses.panic {S : α → Nat → Prop} : Uses S (M.panic : M Reader α) :=
  fun r a r' _ he => by simp [M.panic] at he

theorem Uses.bind {S : α → Nat → Prop} {T : α → β → Nat → Prop} {f : M Reader α} {g : α → M Reader β}
    (hf : Uses S f) (hg : ∀ a, Uses (T a) (g a)) :
    Uses (fun b n => ∃ a, plus (S a) (T a b) n) (f >>= g) := by
  intro r b r' hr he
  obtain ⟨a, r1, e1, e2⟩ := M.bind_eq_ok he
  obtain ⟨h1, n, hn, u1⟩ := hf r a r1 hr e1
  obtain ⟨h2, k, hk, u2⟩ := hg a r1 b r' h1 e2
  exact ⟨h2, n + k, ⟨a, n, k, hn, hk, rfl⟩, by omega⟩

/-- One after the other, if the sizes do not depend on the results. -/
theorem Uses.seq {S : Nat → Prop} {T : β → Nat → Prop} {f : M Reader α} {g : α → M Reader β}
    (hf : Uses (fun _ => S) f) (hg : ∀ a, Uses T (g a)) : Uses (fun b => plus S (T b)) (f >>= g) :=
  (hf.bind hg).mono fun _ _ ⟨_, h⟩ => h

theorem Uses.map {S : Nat → Prop} {f : M Reader α} (hf : Uses (fun _ => S) f) (k : α → β) :
    Uses (fun _ => S) (f >>= fun a => Pure.pure (k a)) :=
  (hf.bind (T := fun _ _ => (· = 0)) fun _ => Uses.pure rfl).mono fun _ _ ⟨_, i, j, hi, hj, e⟩ => by
    subst hj; rw [e]; exact hi

theorem Uses.ite {S : α → Nat → Prop} {c : Prop} [Decidable c] {f g : M Reader α} (hf : c → Uses S f)
    (hg : ¬ c → Uses S g) : Uses S (if c then f else g) := by
  split
  · exact hf ‹_›
  · exact hg ‹_›

theorem Prim.Delivers.uses {o : Order} {n : Nat} {f : M Reader α} {val : List Bool → α}
    (h : Prim.Delivers o n f val) : Uses (fun _ => (· = n)) f := by
  intro r a r' hr he
  by_cases hn : n ≤ (r.unread o).length
  · obtain ⟨r1, e1, s1⟩ := (h r hr.healthy hr.wf).1 hn
    rw [he] at e1
    simp at e1
    obtain ⟨rfl, rfl⟩ := e1
    exact ⟨hr.step s1, n, rfl, by rw [hr.used_eq, (hr.step s1).used_eq, s1.bitsRead]⟩
  · obtain ⟨k, r1, e1, _⟩ := (h r hr.healthy hr.wf).2 hn
    rw [he] at e1
    simp at e1

theorem skipSeek_uses (k : Nat) : Uses (fun _ => (· = 8 * k)) (skipSeek k) := by
  intro r a r' hr he
  have hu := hr.used_eq
  rw [skipSeek_run k hr.healthy] at he
  split at he
  · rename_i h8
    simp at he
    subst he
    refine ⟨skipSeek_good k hr, _, rfl, ?_⟩
    rw [(skipSeek_good k hr).used_eq, hu]
    have := hr.sync
    have := hr.rest_lt
    simp only [Synced] at *
    omega
  · simp at he

theorem skipTail_uses (n : Nat) (o : Order) : Uses (fun _ => (· = n)) (skipTail n o) := by
  rw [skipTail_eq]
  have h : Uses (fun _ => (· = 8 * (n / 8))) (if n / 8 ≠ 0 then skipSeek (n / 8) else Pure.pure ()) :=
    Uses.ite (fun _ => skipSeek_uses _) fun h => Uses.pure (by omega)
  exact (h.seq fun _ => (Prim.readBitsInto_delivers (n % 8) o).uses.map _).mono
    fun _ k ⟨i, j, hi, hj, e⟩ => by omega

theorem skipBits_uses (n : Nat) (o : Order) : Uses (fun _ => (· = n)) (skipBits n o) := by
  intro r a r' hr he
  by_cases hl : ∃ l, r.leftover = some (.bits l)
  · obtain ⟨l, hl⟩ := hl
    rw [skipBits_bits hl] at he
    have := ((Prim.readBitsInto_delivers (min n l.length) o).uses.seq
      fun _ => skipTail_uses (n - min n l.length) o) r a r' hr he
    obtain ⟨h1, k, ⟨i, j, hi, hj, e⟩, h2⟩ := this
    exact ⟨h1, k, by omega, h2⟩
  · rw [skipBits_other fun l h => hl ⟨l, h⟩] at he
    exact skipTail_uses n o r a r' hr he

theorem magicRead_uses (native : Endian) (magic : List Byte) :
    Uses (fun _ => (· = 8 * magic.length)) (magicRead native magic) := by
  induction magic with
  | nil => exact Uses.pure rfl
  | cons b bs ih =>
    refine ((u8Read_delivers native).uses.seq fun v =>
      Uses.ite (fun _ => Uses.throw _) fun _ => ih).mono fun _ n ⟨i, j, hi, hj, e⟩ => ?_
    simp only [List.length_cons]
    omega

theorem padRead_uses {order : Option Order} {pad : Option (Env → Int)} {env : Env} {k : Nat}
    (h : PadSize pad k) : Uses (fun _ => PadSize pad) (padRead order pad env) := by
  cases pad with
  | none => exact Uses.pure rfl
  | some f =>
    simp only [PadSize] at h
    simp only [padRead, padSize, h]
    by_cases hk : (k : Int) < 2 ^ 64
    · rw [if_pos ⟨by omega, hk⟩, M.pure_bind]
      refine (skipBits_uses _ _).mono fun _ n hn => ?_
      subst hn
      simpa [PadSize] using h
    · rw [if_neg fun h => hk h.2]
      intro r a r' _ he
      simp [M.bind_def, M.throw] at he

theorem check_uses (a : Attrs) (env : Env) (v : Val) :
    Uses (fun _ => (· = 0)) (a.check env v : M Reader Unit) := by
  unfold Attrs.check
  refine Uses.ite (fun _ => Uses.throw _) fun _ => ?_
  split
  · exact Uses.pure rfl
  · exact Uses.ite (fun _ => Uses.throw _) fun _ => Uses.pure rfl

theorem Attrs.value_uses {a : Attrs} {S : Nat → Prop} {rd : Env → M Reader Val} {t : Ty}
    (ha : a.Regular t) (h : ∀ env, Uses (fun _ => S) (rd env)) (env : Env) :
    Uses (fun _ => S) (a.value rd env) := by
  obtain ⟨_, h1, h2, _⟩ := ha
  have : a.isRead env = true := by simp [Attrs.isRead, h1, h2]
  unfold Attrs.value
  rw [if_pos this]
  refine ((h env).seq (T := fun _ => (· = 0)) fun raw => ?_).mono fun _ n ⟨i, j, hi, hj, e⟩ => by
    subst hj; rw [e]; exact hi
  unfold Attrs.applyMap
  split
  · exact Uses.pure rfl
  · exact Uses.throw _

theorem Attrs.read_uses {a : Attrs} {S : Nat → Prop} {rd : Env → M Reader Val} {t : Ty}
    (ha : a.Regular t) (native : Endian) (h : ∀ env, Uses (fun _ => S) (rd env)) (env : Env) :
    Uses (fun _ => a.Sizes S) (a.read native rd env) := by
  have hv := Attrs.value_uses ha h
  obtain ⟨hs, _, _, ⟨k, hk⟩, ⟨l, hl⟩, _⟩ := ha
  simp only [Attrs.read, hs, seekRead, M.pure_bind]
  refine (magicRead_uses native _).seq fun _ => (padRead_uses hk).seq fun _ => ?_
  intro r v r' hr he
  rw [M.get_bind_run] at he
  exact ((hv _).seq fun v => ((check_uses _ _ _).seq fun _ => (padRead_uses hl).map fun _ => v).mono
    fun _ n ⟨i, j, hi, hj, e⟩ => by subst hi; rw [e, Nat.zero_add]; exact hj) r v r' hr he

theorem arrayRead_uses {S : Nat → Prop} {f : M Reader α} (hf : Uses (fun _ => S) f) (n : Nat) :
    Uses (fun _ => times S n) (arrayRead f n) := by
  induction n with
  | zero => exact Uses.pure rfl
  | succ n ih => exact hf.seq fun v => ih.map _

/-! ### writing -/

theorem Writer.Grew.appending {n : Nat} {w w' : Writer} (h : w.Appending) (hg : Grew n w w') :
    w'.Appending := by
  refine ⟨hg.wf, hg.healthy h.healthy, ?_⟩
  have h1 := congrArg List.length hg.tail
  rw [List.length_drop, List.length_drop] at h1
  have := hg.pos
  have := h.atEnd
  have := hg.wf.1.1
  omega

theorem Puts.mono {S T : Nat → Prop} {g : M Writer Unit} (h : Puts S g) (hST : ∀ n, S n → T n) : Puts T g := by
  intro w u w' hw he
  obtain ⟨h1, n, h2, h3⟩ := h w u w' hw he
  exact ⟨h1, n, hST n h2, h3⟩

theorem Puts.pure {S : Nat → Prop} (h : S 0) : Puts S (Pure.pure () : M Writer Unit) := by
  intro w u w' hw he
  simp at he
  subst he
  exact ⟨hw, 0, h, rfl⟩

theorem Puts.throw {S : Nat → Prop} (e : DekuError) : Puts S (M.throw e) :=
  fun w u w' _ he => by simp [M.throw] at he

theorem Puts.panic {S : Nat → Prop} : Puts S M.panic :=
  fun w u w' _ he => by simp [M.panic] at he

theorem Puts.bind {S T : Nat → Prop} {g g' : M Writer Unit} (h : Puts S g) (h' : Puts T g') :
    Puts (plus S T) (g >>= fun _ => g') := by
  intro w u w' hw he
  obtain ⟨a, w1, e1, e2⟩ := M.bind_eq_ok he
  obtain ⟨h1, n, hn, u1⟩ := h w a w1 hw e1
  obtain ⟨h2, k, hk, u2⟩ := h' w1 u w' h1 e2
  exact ⟨h2, n + k, ⟨n, k, hn, hk, rfl⟩, by omega⟩

theorem Puts.of_took {n : Nat} {g : M Writer Unit} (h : ∀ w : Writer, w.WF → w.Healthy → Took n w (g w)) :
    Puts (· = n) g := by
  intro w u w' hw he
  obtain ⟨w1, e1, hg⟩ := (h w hw.wf hw.healthy).ok hw.healthy
  rw [he] at e1
  simp at e1
  subst e1
  exact ⟨hg.appending hw, n, rfl, hg.len⟩

theorem writeAll_puts {S : Nat → Prop} {g : α → M Writer Unit} (hg : ∀ x, Puts S (g x)) (vs : List α) :
    Puts (times S vs.length) (Coll.writeAll g vs) := by
  induction vs with
  | nil => exact Puts.pure rfl
  | cons v vs ih => exact (hg v).bind ih

theorem times_eq (k n : Nat) {m : Nat} (h : times (· = k) n m) : m = n * k := by
  induction n generalizing m with
  | zero => rw [show m = 0 from h]; omega
  | succ n ih =>
    obtain ⟨i, j, hi, hj, e⟩ := h
    have := ih hj
    rw [Nat.add_mul]
    omega

theorem u8Write_puts (native : Endian) (b : Byte) : Puts (· = 8) (u8Write native .unit b) :=
  Puts.of_took fun w hw hh => by
    have := Prim.writeUnsigned_takes native (W := 1) .unit (v := b.toNat) hw hh
    simp only [IntCtx.shape] at this
    exact this (by omega) (by omega) (fun h => by simp [IntCtx.isBits] at h)

theorem magicWrite_puts (native : Endian) (magic : List Byte) :
    Puts (· = 8 * magic.length) (magicWrite native magic) :=
  (writeAll_puts (u8Write_puts native) magic).mono fun n hn => by
    have := times_eq _ _ hn; omega

theorem padLoop_puts (order : Order) (fuel n : Nat) (h : n ≤ fuel) : Puts (· = n) (padLoop order fuel n) := by
  induction fuel generalizing n with
  | zero =>
    have : n = 0 := by omega
    subst this
    exact Puts.pure rfl
  | succ fuel ih =>
    simp only [padLoop]
    split
    · rename_i hn; subst hn; exact Puts.pure rfl
    · have hpc : 0 < padChunk := by simp [padChunk]
      refine ((Puts.of_took (n := min padChunk n) fun w hw _ => ?_).bind
        (ih (n - min padChunk n) (by omega))).mono fun k ⟨i, j, hi, hj, e⟩ => by omega
      have := writeBitsOrder_took hw order (List.replicate (min padChunk n) false)
      rwa [List.length_replicate] at this

theorem padWrite_puts {order : Option Order} {pad : Option (Env → Int)} {env : Env} {k : Nat}
    (h : PadSize pad k) : Puts (PadSize pad) (padWrite order pad env) := by
  cases pad with
  | none => exact Puts.pure rfl
  | some f =>
    simp only [PadSize] at h
    simp only [padWrite, padSize, h]
    by_cases hk : (k : Int) < 2 ^ 64
    · rw [if_pos ⟨by omega, hk⟩, M.pure_bind]
      refine (padLoop_puts _ _ _ (Nat.le_refl _)).mono fun n hn => ?_
      subst hn
      simpa [PadSize] using h
    · rw [if_neg fun h => hk h.2]
      intro r a r' _ he
      simp [M.bind_def, M.throw] at he

theorem check_puts (a : Attrs) (env : Env) (v : Val) : Puts (· = 0) (a.check env v) := by
  unfold Attrs.check
  split
  · exact Puts.throw _
  · split
    · exact Puts.pure rfl
    · split
      · exact Puts.throw _
      · exact Puts.pure rfl

theorem Attrs.write_puts {a : Attrs} {S : Nat → Prop} {wr : Env → Val → M Writer Unit} {t : Ty}
    (ha : a.Regular t) (native : Endian) (h : ∀ env v, Puts S (wr env v)) (env : Env) (v : Val) :
    Puts (a.Sizes S) (a.write native wr env v) := by
  obtain ⟨hs, h1, h2, ⟨k, hk⟩, ⟨l, hl⟩, _⟩ := ha
  simp only [Attrs.write, hs, seekWrite, M.pure_bind]
  refine (magicWrite_puts native _).bind ((padWrite_puts hk).bind ?_)
  intro w u w' hw he
  rw [M.get_bind_run] at he
  refine (((check_puts _ _ _).bind ((?_ : Puts S _).bind (padWrite_puts hl))).mono
    fun n ⟨i, j, hi, hj, e⟩ => by subst hi; rw [e, Nat.zero_add]; exact hj) w u w' hw he
  have : ∀ env, a.isWritten env = true := fun env => by simp [Attrs.isWritten, h1]
  simp only [Attrs.put, this, if_true]
  exact h _ _

/-! ### definitions -/

theorem dispatch_uses {sel : Option Nat} {arm : Nat → M Reader Val} {S : Nat → Nat → Prop}
    (h : ∀ i, Uses (fun _ => S i) (arm i)) :
    Uses (fun v n => ∃ i fs, v = .variant i fs ∧ S i n) (dispatch sel arm) := by
  cases sel with
  | none => exact Uses.throw _
  | some i =>
    exact ((h i).bind (T := fun fs v n => v = .variant i fs ∧ n = 0) fun fs => Uses.pure ⟨rfl, rfl⟩).mono
      fun v n ⟨fs, k, j, hk, hj, e⟩ => ⟨i, fs, hj.1, by rw [e, hj.2]; exact hk⟩

/-- The sizes of the enum with variant number `i`. -/
def enumSizes (magic : List Byte) (id : IdSrc) (vs : Variants) (i : Nat) : Nat → Prop :=
  plus (· = 8 * magic.length) (plus id.Sizes (vs.SizesAt id.inMessage i))

theorem Ty.sizes_enum {args : Env → List Val} {magic : List Byte} {id : IdSrc}
    {store : Nat → Env → Val → M Writer Unit} {vs : Variants} {n : Nat} :
    (Ty.enum args magic id store vs).Sizes n ↔ ∃ i, enumSizes magic id vs i n := by
  simp only [Ty.Sizes]
  rfl

theorem enum_uses {m : Machine} {args : Env → List Val} {magic : List Byte} {id : IdSrc}
    {store : Nat → Env → Val → M Writer Unit} {vs : Variants}
    (hvs : ∀ typed env x i, vs.Regular typed → Uses (fun _ => vs.SizesAt typed i) (vs.readAt m env x typed i))
    (h : (Ty.enum args magic id store vs).Regular) (env : Env) :
    Uses (fun v n => ∃ i fs, v = .variant i fs ∧ enumSizes magic id vs i n)
      ((Ty.enum args magic id store vs).read m env) := by
  rw [Ty.read_enum]
  simp only [Ty.Regular] at h
  cases id with
  | ctx e =>
    refine ((magicRead_uses _ _).seq fun _ => Uses.seq (S := (· = 0)) (Uses.pure rfl) fun x =>
      dispatch_uses fun i => hvs false _ _ i h.2).mono
      fun v n ⟨k, j, hk, ⟨a, b, ha, ⟨i, fs, hv, hb⟩, hj⟩, e⟩ => ⟨i, fs, hv, k, j, hk, ⟨a, b, ha, hb, hj⟩, e⟩
  | typed size c =>
    obtain ⟨⟨d, hd, hc, _⟩, hv⟩ := h
    exact ((magicRead_uses _ _).seq fun _ => (hc _).1.seq fun x => dispatch_uses fun i => hvs true _ _ i hv).mono
      fun v n ⟨k, j, hk, ⟨a, b, ha, ⟨i, fs, hv, hb⟩, hj⟩, e⟩ =>
        ⟨i, fs, hv, k, j, hk, ⟨a, b, by simp only [IdSrc.Sizes]; rw [hd, ha], hb, hj⟩, e⟩

mutual

theorem Ty.uses (m : Machine) : ∀ (t : Ty) (env : Env), t.Regular → Uses (fun _ => t.Sizes) (t.read m env)
  | .prim _ c, env, h => by
    simp only [Ty.Regular] at h
    obtain ⟨k, hk, hc⟩ := h
    simp only [Ty.read]
    exact (hc env).1.mono fun _ n hn => by simp only [Ty.Sizes]; rw [hk, hn]
  | .option _, _, h => by simp [Ty.Regular] at h
  | .array n t, env, h => by
    simp only [Ty.Regular] at h
    simp only [Ty.read, Ty.Sizes]
    exact (arrayRead_uses (Ty.uses m t env h) n).map _
  | .pair a b, env, h => by
    simp only [Ty.Regular] at h
    simp only [Ty.read, Ty.Sizes]
    exact (Ty.uses m a env h.1).seq fun x => (Ty.uses m b env h.2).map _
  | .vec _ _ _, _, h => by simp [Ty.Regular] at h
  | .bytes _ _, _, h => by simp [Ty.Regular] at h
  | .struct args sk magic fs, env, h => by
    simp only [Ty.Regular] at h
    obtain ⟨rfl, hf⟩ := h
    simp only [Ty.read, seekRead, M.pure_bind, Ty.Sizes]
    exact (magicRead_uses _ _).seq fun _ => Fields.uses m fs _ hf
  | .enum args magic id store vs, env, h =>
    (enum_uses (fun typed env x i hv => Variants.uses m vs env x typed i hv) h env).mono
      fun _ _ ⟨i, _, _, hi⟩ => Ty.sizes_enum.2 ⟨i, hi⟩

theorem Fields.uses (m : Machine) : ∀ (fs : Fields) (env : Env), fs.Regular →
    Uses (fun _ => fs.Sizes) (fs.read m env)
  | .nil, env, h => by
    simp only [Fields.read, Fields.Sizes]
    exact Uses.pure rfl
  | .cons a t tl, env, h => by
    simp only [Fields.Regular] at h
    simp only [Fields.read, Fields.Sizes]
    exact (Attrs.read_uses h.1 _ (fun env => Ty.uses m t env h.2.1) env).seq fun v =>
      (Fields.uses m tl _ h.2.2).map _
  | .temp _ _ _ _, _, h => by simp [Fields.Regular] at h

theorem Fields.restUses (m : Machine) : ∀ (fs : Fields) (env : Env) (id : Val), fs.RestRegular →
    Uses (fun _ => fs.RestSizes) (fs.readStored m env id)
  | .nil, env, id, h => by simp [Fields.RestRegular] at h
  | .cons a t tl, env, id, h => by
    simp only [Fields.RestRegular] at h
    simp only [Fields.readStored, Fields.RestSizes]
    exact (Fields.uses m tl _ h).map _
  | .temp _ _ _ _, _, _, h => by simp [Fields.RestRegular] at h

theorem Variants.uses (m : Machine) : ∀ (vs : Variants) (env : Env) (x : Val) (typed : Bool) (i : Nat),
    vs.Regular typed → Uses (fun _ => vs.SizesAt typed i) (vs.readAt m env x typed i)
  | .nil, env, x, typed, i, h => by
    simp only [Variants.readAt]
    exact Uses.panic
  | .cons a fs tl, env, x, typed, 0, h => by
    simp only [Variants.Regular] at h
    simp only [Variants.readAt, Variants.SizesAt]
    cases hp : a.idPat
    · rw [hp] at h
      simp only [Bool.false_and, Bool.false_eq_true, if_false] at h ⊢
      exact Fields.uses m fs env h.1.2
    · rw [hp] at h
      simp only [if_true] at h
      rw [h.1.1]
      simp only [Bool.true_and, if_true]
      exact Fields.restUses m fs env x h.1.2.2
  | .cons a fs tl, env, x, typed, i + 1, h => by
    simp only [Variants.Regular] at h
    simp only [Variants.readAt, Variants.SizesAt]
    exact Variants.uses m tl env x typed i h.2

end

/-- The id of an enum, in either of the two ways it is written, takes `d` bits. -/
def IdPuts (id : IdSrc) (store : Env → Val → M Writer Unit) : Prop :=
  match id with
  | .ctx _ => True
  | .typed size c => ∃ d, size = some d ∧ (∀ env v, Puts (· = d) ((c env).write v)) ∧
      ∀ env v, Puts (· = d) (store env v)

theorem enum_puts {m : Machine} {args : Env → List Val} {magic : List Byte} {id : IdSrc}
    {store : Nat → Env → Val → M Writer Unit} {vs : Variants}
    (hvs : ∀ env i v, IdPuts id (store i) → vs.Regular id.inMessage →
      Puts (plus id.Sizes (vs.SizesAt id.inMessage i)) (vs.writeAt m env id (store i) i v))
    (h : (Ty.enum args magic id store vs).Regular) (env : Env) (i : Nat) (fs : Val) :
    Puts (enumSizes magic id vs i) ((Ty.enum args magic id store vs).write m env (.variant i fs)) := by
  simp only [Ty.write]
  refine (magicWrite_puts _ _).bind ?_
  simp only [Ty.Regular] at h
  refine hvs _ i fs ?_ h.2
  cases id with
  | ctx e => trivial
  | typed size c =>
    obtain ⟨⟨d, hd, hc, hs⟩, hv⟩ := h
    exact ⟨d, hd, fun env v => (hc env).2 v, hs i⟩

mutual

theorem Ty.puts (m : Machine) : ∀ (t : Ty) (env : Env) (v : Val), t.Regular → Puts t.Sizes (t.write m env v)
  | .prim _ c, env, v, h => by
    simp only [Ty.Regular] at h
    obtain ⟨k, hk, hc⟩ := h
    simp only [Ty.write]
    exact ((hc env).2 v).mono fun n hn => by simp only [Ty.Sizes]; rw [hk, hn]
  | .option _, _, _, h => by simp [Ty.Regular] at h
  | .array n t, env, v, h => by
    simp only [Ty.Regular] at h
    simp only [Ty.write, Ty.Sizes]
    split
    · rename_i hc
      have := writeAll_puts (fun x => Ty.puts m t env x h) v.elems
      rwa [hc.2] at this
    · exact Puts.panic
  | .pair a b, env, v, h => by
    simp only [Ty.Regular] at h
    simp only [Ty.write, Ty.Sizes]
    split
    · exact (Ty.puts m a env _ h.1).bind (Ty.puts m b env _ h.2)
    · exact Puts.panic
  | .vec _ _ _, _, _, h => by simp [Ty.Regular] at h
  | .bytes _ _, _, _, h => by simp [Ty.Regular] at h
  | .struct args sk magic fs, env, v, h => by
    simp only [Ty.Regular] at h
    obtain ⟨rfl, hf⟩ := h
    simp only [Ty.write, seekWrite, M.pure_bind, Ty.Sizes]
    exact (magicWrite_puts _ _).bind (Fields.puts m fs _ _ _ hf)
  | .enum args magic id store vs, env, v, h => by
    have hv : ∀ i fs, Puts (Ty.enum args magic id store vs).Sizes
        ((Ty.enum args magic id store vs).write m env (.variant i fs)) := fun i fs =>
      (enum_puts (fun env i v h1 h2 => Variants.puts m vs env id (store i) i v h1 h2) h env i fs).mono fun _ hi => Ty.sizes_enum.2 ⟨i, hi⟩
    cases v with
    | variant i fs => exact hv i fs
    | _ => simp only [Ty.write]; exact Puts.panic

theorem Fields.puts (m : Machine) : ∀ (fs : Fields) (env : Env) (all v : Val), fs.Regular →
    Puts fs.Sizes (fs.write m env all v)
  | .nil, env, all, v, h => by
    simp only [Fields.write, Fields.Sizes]
    split
    · exact Puts.pure rfl
    · exact Puts.panic
  | .cons a t tl, env, all, v, h => by
    simp only [Fields.Regular] at h
    simp only [Fields.write, Fields.Sizes]
    split
    · exact (Attrs.write_puts h.1 _ (fun env v => Ty.puts m t env v h.2.1) env _).bind
        (Fields.puts m tl _ _ _ h.2.2)
    · exact Puts.panic
  | .temp _ _ _ _, _, _, _, h => by simp [Fields.Regular] at h

theorem Fields.restPuts (m : Machine) : ∀ (fs : Fields) (env : Env) (store : Env → Val → M Writer Unit)
    (d : Nat) (v : Val), fs.RestRegular → (∀ env v, Puts (· = d) (store env v)) →
    Puts (plus (· = d) fs.RestSizes) (fs.writeStored m store env v)
  | .nil, _, _, _, _, h, _ => by simp [Fields.RestRegular] at h
  | .cons a t tl, env, store, d, v, h, hs => by
    simp only [Fields.RestRegular] at h
    simp only [Fields.writeStored, Fields.RestSizes]
    split
    · exact (hs _ _).bind (Fields.puts m tl _ _ _ h)
    · exact Puts.panic
  | .temp _ _ _ _, _, _, _, _, h, _ => by simp [Fields.RestRegular] at h

theorem Variants.puts (m : Machine) : ∀ (vs : Variants) (env : Env) (id : IdSrc)
    (store : Env → Val → M Writer Unit) (i : Nat) (v : Val), IdPuts id store → vs.Regular id.inMessage →
    Puts (plus id.Sizes (vs.SizesAt id.inMessage i)) (vs.writeAt m env id store i v)
  | .nil, env, id, store, i, v, hs, h => by
    simp only [Variants.writeAt]
    exact Puts.panic
  | .cons a fs tl, env, id, store, 0, v, hs, h => by
    simp only [Variants.Regular] at h
    simp only [Variants.writeAt, Variants.SizesAt]
    cases hp : a.idPat
    · rw [hp] at h
      simp only [Bool.false_and, Bool.false_eq_true, if_false] at h ⊢
      have hf := Fields.puts m fs env v v h.1.2
      cases id with
      | ctx e => exact hf.mono fun _ => zero_plus
      | typed s c =>
        obtain ⟨d, hd, hc, _⟩ := hs
        rcases hid : a.id with _ | x
        · exact absurd hid (h.1.1 rfl)
        · exact ((hc env x).mono fun n hn => by simp only [IdSrc.Sizes]; rw [hd, hn]).bind hf
    · rw [hp] at h
      simp only [if_true] at h
      obtain ⟨⟨ht, hid, hr⟩, _⟩ := h
      cases id with
      | ctx e => simp [IdSrc.inMessage] at ht
      | typed s c =>
        obtain ⟨d, hd, _, hs⟩ := hs
        simp only [hid, IdSrc.inMessage, Bool.true_and, if_true]
        exact (Fields.restPuts m fs env store d v hr hs).mono fun n =>
          plus_mono (fun n hn => by simp only [IdSrc.Sizes]; rw [hd, hn]) fun _ h => h
  | .cons a fs tl, env, id, store, i + 1, v, hs, h => by
    simp only [Variants.Regular] at h
    simp only [Variants.writeAt, Variants.SizesAt]
    exact Variants.puts m tl env id store i v hs h.2

end

/-! ### `SIZE_BITS` -/

/-- `k` is the largest element of the set; it is there if `i` holds, and the only one if `f` holds. -/
structure Largest (S : Nat → Prop) (k : Nat) (i f : Prop) : Prop where
  bound : ∀ n, S n → n ≤ k
  attained : i → S k
  only : f → ∀ n, S n → n = k

theorem Largest.single (k : Nat) {i f : Prop} : Largest (· = k) k i f :=
  ⟨fun _ h => Nat.le_of_eq h, fun _ => rfl, fun _ _ h => h⟩

theorem Largest.plus {S T : Nat → Prop} {a b : Nat} {i f i' f' : Prop} (h : Largest S a i f)
    (h' : Largest T b i' f') : Largest (plus S T) (a + b) (i ∧ i') (f ∧ f') where
  bound := fun n ⟨x, y, hx, hy, e⟩ => by have := h.bound x hx; have := h'.bound y hy; omega
  attained := fun hi => ⟨a, b, h.attained hi.1, h'.attained hi.2, rfl⟩
  only := fun hf n ⟨x, y, hx, hy, e⟩ => by rw [e, h.only hf.1 x hx, h'.only hf.2 y hy]

theorem Largest.imp {S : Nat → Prop} {a b : Nat} {i f i' f' : Prop} (h : Largest S a i f) (hi : i' → i)
    (hf : f' → f) (e : a = b) : Largest S b i' f' := by
  subst e
  exact ⟨h.bound, fun h' => h.attained (hi h'), fun h' => h.only (hf h')⟩

theorem Largest.times {S : Nat → Prop} {a : Nat} {i f : Prop} (h : Largest S a i f) (n : Nat) :
    Largest (times S n) (n * a) i f := by
  induction n with
  | zero => rw [Nat.zero_mul]; exact Largest.single 0
  | succ n ih => exact (h.plus ih).imp (fun h => ⟨h, h⟩) (fun h => ⟨h, h⟩) (by rw [Nat.add_mul]; omega)

theorem PadSize.largest {pad : Option (Env → Int)} (h : ∃ n, PadSize pad n) {i f : Prop} :
    Largest (PadSize pad) (padConst pad) i f := by
  obtain ⟨k, hk⟩ := h
  cases pad with
  | none => exact Largest.single 0
  | some g =>
    simp only [PadSize] at hk
    have e : padConst (some g) = k := by simp [padConst, hk]
    rw [e]
    have hn : ∀ n, PadSize (some g) n → n = k := fun n hn => by
      simp only [PadSize] at hn
      have := hn {}
      rw [hk] at this
      omega
    exact ⟨fun n h => Nat.le_of_eq (hn n h), fun _ => by simpa [PadSize] using hk, fun _ => hn⟩

theorem Attrs.Regular.largest {a : Attrs} {t : Ty} {S : Nat → Prop} {k : Nat} {i f : Prop} (ha : a.Regular t)
    (h : Largest S k i f) :
    Largest (a.Sizes S) (8 * a.magic.length + (padConst a.padBefore + (k + padConst a.padAfter))) i f :=
  ((Largest.single _).plus ((PadSize.largest ha.2.2.2.1).plus (h.plus (PadSize.largest ha.2.2.2.2.1)))).imp
    (fun h => ⟨trivial, trivial, h, trivial⟩) (fun h => ⟨trivial, trivial, h, trivial⟩) rfl

theorem Ty.size_enum {args : Env → List Val} {magic : List Byte} {id : IdSrc}
    {store : Nat → Env → Val → M Writer Unit} {vs : Variants} :
    (Ty.enum args magic id store vs).size =
      (do let d ← id.size; let k ← vs.size id.inMessage; Pure.pure (8 * magic.length + d + k)) := by
  simp only [Ty.size]
  cases id <;> rfl

theorem IdSrc.largest {id : IdSrc} {vs : Variants} {args : Env → List Val} {magic : List Byte}
    {store : Nat → Env → Val → M Writer Unit} (h : (Ty.enum args magic id store vs).Regular) :
    ∃ d, id.size = some d ∧ ∀ n, id.Sizes n ↔ n = d := by
  simp only [Ty.Regular] at h
  cases id with
  | ctx e => exact ⟨0, rfl, fun n => Iff.rfl⟩
  | typed size c =>
    obtain ⟨⟨d, rfl, _⟩, _⟩ := h
    exact ⟨d, rfl, fun n => by simp [IdSrc.Sizes]; omega⟩

mutual

theorem Ty.largest : ∀ (t : Ty), t.Regular → ∃ k, t.size = some k ∧ Largest t.Sizes k t.Inhabited t.EnumFree
  | .prim size c, h => by
    simp only [Ty.Regular] at h
    obtain ⟨k, rfl, _⟩ := h
    refine ⟨k, by simp only [Ty.size], ?_⟩
    simp only [Ty.Sizes]
    exact ⟨fun n h => by simp at h; omega, fun _ => rfl, fun _ n h => by simp at h; omega⟩
  | .option _, h => by simp [Ty.Regular] at h
  | .array n t, h => by
    simp only [Ty.Regular] at h
    obtain ⟨k, hk, hl⟩ := Ty.largest t h
    refine ⟨n * k, by simp [Ty.size, hk], ?_⟩
    simp only [Ty.Sizes, Ty.Inhabited, Ty.EnumFree]
    exact hl.times n
  | .pair a b, h => by
    simp only [Ty.Regular] at h
    obtain ⟨k, hk, hl⟩ := Ty.largest a h.1
    obtain ⟨k', hk', hl'⟩ := Ty.largest b h.2
    refine ⟨k + k', by simp [Ty.size, hk, hk'], ?_⟩
    simp only [Ty.Sizes, Ty.Inhabited, Ty.EnumFree]
    exact hl.plus hl'
  | .vec _ _ _, h => by simp [Ty.Regular] at h
  | .bytes _ _, h => by simp [Ty.Regular] at h
  | .struct args sk magic fs, h => by
    simp only [Ty.Regular] at h
    obtain ⟨rfl, hf⟩ := h
    obtain ⟨k, hk, hl⟩ := Fields.largest fs hf
    refine ⟨8 * magic.length + k, by simp [Ty.size, hk], ?_⟩
    simp only [Ty.Sizes, Ty.Inhabited, Ty.EnumFree]
    exact ((Largest.single _).plus hl).imp (fun h => ⟨trivial, h⟩) (fun h => ⟨trivial, h⟩) rfl
  | .enum args magic id store vs, h => by
    obtain ⟨d, hd, hdl⟩ := IdSrc.largest h
    simp only [Ty.Regular] at h
    obtain ⟨k, hk, hb, hi, _⟩ := Variants.largest vs id.inMessage h.2
    refine ⟨8 * magic.length + d + k, ?_, ?_⟩
    · rw [Ty.size_enum, hd, hk]
      rfl
    · simp only [Ty.Sizes, Ty.Inhabited, Ty.EnumFree]
      refine ⟨fun n ⟨i, x, y, hx, ⟨z, u, hz, hu, e'⟩, e⟩ => ?_, fun hh => ?_, fun h => h.elim⟩
      · have := (hdl z).1 hz
        have := hb i u hu
        omega
      · obtain ⟨i, hi⟩ := hi hh.1 hh.2
        exact ⟨i, _, _, rfl, ⟨_, _, (hdl _).2 rfl, hi, rfl⟩, by omega⟩

theorem Fields.largest : ∀ (fs : Fields), fs.Regular →
    ∃ k, fs.size = some k ∧ Largest fs.Sizes k fs.Inhabited fs.EnumFree
  | .nil, _ => by
    refine ⟨0, by simp only [Fields.size], ?_⟩
    simp only [Fields.Sizes]
    exact Largest.single 0
  | .cons a t tl, h => by
    simp only [Fields.Regular] at h
    obtain ⟨ha, ht, htl⟩ := h
    obtain ⟨k, hk, hl⟩ := Ty.largest t ht
    obtain ⟨k', hk', hl'⟩ := Fields.largest tl htl
    refine ⟨8 * a.magic.length + padConst a.padBefore + k + padConst a.padAfter + k', ?_, ?_⟩
    · simp only [Fields.size, ha.1, Option.isSome_none, Bool.false_eq_true, if_false]
      rw [hk']
      rcases ha.2.2.2.2.2 with h | h
      · rw [h, hk]; rfl
      · rw [h, hk]; rfl
    · simp only [Fields.Sizes, Fields.Inhabited, Fields.EnumFree]
      exact ((ha.largest hl).plus hl').imp id id (by omega)
  | .temp _ _ _ _, h => by simp [Fields.Regular] at h

theorem Fields.restLargest : ∀ (fs : Fields), fs.RestRegular →
    ∃ k, fs.sizeStored = some k ∧ Largest fs.RestSizes k fs.Inhabited fs.EnumFree
  | .nil, h => by simp [Fields.RestRegular] at h
  | .cons a t tl, h => by
    simp only [Fields.RestRegular] at h
    obtain ⟨k', hk', hl'⟩ := Fields.largest tl h
    refine ⟨k', by simp only [Fields.sizeStored]; exact hk', ?_⟩
    simp only [Fields.RestSizes, Fields.Inhabited, Fields.EnumFree]
    exact hl'.imp (·.2) (·.2) rfl
  | .temp _ _ _ _, h => by simp [Fields.RestRegular] at h

theorem Variants.largest : ∀ (vs : Variants) (typed : Bool), vs.Regular typed →
    ∃ k, vs.size typed = some k ∧ (∀ i n, vs.SizesAt typed i n → n ≤ k) ∧
      (vs ≠ .nil → vs.Inhabited → ∃ i, vs.SizesAt typed i k) ∧
      (vs ≠ .nil → vs.EnumFree → vs.Inhabited → ∃ i, ∀ n, vs.SizesAt typed i n ↔ n = k)
  | .nil, typed, _ => by
    refine ⟨0, by simp only [Variants.size], fun i n h => ?_, fun h => (h rfl).elim, fun h => (h rfl).elim⟩
    simp [Variants.SizesAt] at h
  | .cons a fs tl, typed, h => by
    simp only [Variants.Regular] at h
    obtain ⟨k', hk', hb', hi', hf'⟩ := Variants.largest tl typed h.2
    obtain ⟨k, hk, hl⟩ : ∃ k, (if a.idPat && typed then fs.sizeStored else fs.size) = some k ∧
        Largest ((Variants.cons a fs tl).SizesAt typed 0) k fs.Inhabited fs.EnumFree := by
      simp only [Variants.SizesAt]
      cases hp : a.idPat
      · rw [hp] at h
        simp only [Bool.false_and, Bool.false_eq_true, if_false] at h ⊢
        exact Fields.largest fs h.1.2
      · rw [hp] at h
        simp only [if_true] at h
        rw [h.1.1]
        simp only [Bool.true_and, if_true]
        exact Fields.restLargest fs h.1.2.2
    refine ⟨max k k', ?_, ?_, ?_, ?_⟩
    · simp only [Variants.size]
      rw [hk']
      split at hk
      · rw [if_pos ‹_›, hk]; rfl
      · rw [if_neg ‹_›, hk]; rfl
    · intro i n hn
      cases i with
      | zero => have := hl.bound n hn; omega
      | succ i =>
        simp only [Variants.SizesAt] at hn
        have := hb' i n hn
        omega
    · intro _ hh
      simp only [Variants.Inhabited] at hh
      by_cases hm : k' ≤ k
      · exact ⟨0, by rw [Nat.max_eq_left hm]; exact hl.attained hh.1⟩
      · have hne : tl ≠ .nil := by
          intro e; subst e; simp [Variants.size] at hk'; omega
        obtain ⟨i, hi⟩ := hi' hne hh.2
        refine ⟨i + 1, ?_⟩
        rw [Nat.max_eq_right (by omega)]
        simp only [Variants.SizesAt]
        exact hi
    · intro _ he hh
      simp only [Variants.EnumFree] at he
      simp only [Variants.Inhabited] at hh
      by_cases hm : k' ≤ k
      · refine ⟨0, fun n => ⟨fun hn => ?_, fun hn => ?_⟩⟩
        · rw [Nat.max_eq_left hm]; exact hl.only he.1 n hn
        · rw [hn, Nat.max_eq_left hm]; exact hl.attained hh.1
      · have hne : tl ≠ .nil := by
          intro e; subst e; simp [Variants.size] at hk'; omega
        obtain ⟨i, hi⟩ := hf' hne he.2 hh.2
        refine ⟨i + 1, fun n => ?_⟩
        rw [Nat.max_eq_right (by omega)]
        simp only [Variants.SizesAt]
        exact hi n

end

/-! ### integers -/

theorem uint_measures {native e : Endian} {W n : Nat} {ctx : IntCtx} {o : Order} (hW : 1 ≤ W)
    (hs : ctx.shape native W = (e, n, o)) (h1 : 1 ≤ n) (hn : n ≤ 8 * W) :
    (uintCodec native W ctx).Measures n := by
  refine ⟨?_, fun v => ?_⟩
  · have hR := Prim.readUnsigned_delivers native ctx hW
    rw [hs] at hR
    exact (hR h1 hn).uses.map _
  · intro w u w' hw he
    obtain ⟨k, rfl, hk, he⟩ := uint_accepted he
    have ht := Prim.writeUnsigned_takes native (W := W) ctx (v := k) hw.wf hw.healthy
    rw [hs] at ht
    obtain ⟨w1, e1, hg⟩ := (ht h1 hn fun hb => (accepted_fits hb hs hk he).2).ok hw.healthy
    rw [he] at e1
    simp at e1
    subst e1
    exact ⟨hg.appending hw, n, rfl, hg.len⟩

end Deku
