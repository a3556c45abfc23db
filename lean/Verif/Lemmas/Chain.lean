import Verif.Spec.Chain
import Verif.Lemmas.FitsSound

/-! # Parsers that follow the bytes -/

namespace Deku

open Reader Coll

variable {α β σ : Type} {o : Order} {fixed : Bool}

theorem M.bind_assoc {γ : Type} (x : M σ α) (f : α → M σ β) (g : β → M σ γ) :
    ((x >>= f) >>= g) = (x >>= fun a => f a >>= g) := funext fun s => M.bind_assoc_run x f g s

theorem Reader.At.good {p : Nat} {r : Reader} (h : r.At p) : r.Good :=
  ⟨h.healthy, h.wf, h.noPeek, h.sync, fun _ => h.bound⟩

theorem Reader.Past.good {r : Reader} (h : r.Past) : r.Good where
  healthy := h.healthy
  wf := h.wf
  noPeek := by intro b hb; rw [h.empty] at hb; simp at hb
  sync := by
    have := h.counted
    simp only [Synced, Reader.rest, h.empty, leftoverBits, List.length_nil]; omega
  inside := by simp [Reader.rest, h.empty, leftoverBits]

theorem Reader.Good.rest_lt {r : Reader} (h : r.Good) : r.rest.length < 8 := by
  rcases hl : r.leftover with _ | (b | l)
  · simp [Reader.rest, hl, leftoverBits]
  · exact absurd hl (h.noPeek b)
  · have := h.wf l hl; simp [Reader.rest, hl, leftoverBits]; omega

/-- The pending bits are determined by `rest()`. -/
theorem Reader.Good.leftover_eq {r s : Reader} (h : r.Good) (h' : s.Good) (hr : s.rest = r.rest) :
    s.leftover = r.leftover := by
  rcases hl : r.leftover with _ | (b | l)
  · rcases hl' : s.leftover with _ | (b' | l')
    · rfl
    · exact absurd hl' (h'.noPeek b')
    · have := h'.wf l' hl'
      simp [Reader.rest, hl, hl', leftoverBits] at hr
      rw [hr] at this; simp at this
  · exact absurd hl (h.noPeek b)
  · rcases hl' : s.leftover with _ | (b' | l')
    · have := h.wf l hl
      simp [Reader.rest, hl, hl', leftoverBits] at hr
      rw [hr] at this; simp at this
    · exact absurd hl' (h'.noPeek b')
    · simp [Reader.rest, hl, hl', leftoverBits] at hr
      rw [hr]

theorem Reader.unread_eq (o : Order) (r : Reader) :
    r.unread o = present o r.rest ++ orderBits o (avail r) := by
  cases o <;> rfl

/-- How far a step moves in the source. -/
theorem step_pos {n : Nat} {r r' : Reader} (hs : Step o n r r') :
    8 * r'.inner.pos + r.rest.length = 8 * r.inner.pos + n + r'.rest.length := by
  have := hs.sync; have := hs.bitsRead; omega

theorem rest_lt_of {r : Reader} (hw : r.WF) (hn : r.NoPeek) : r.rest.length < 8 := by
  rcases hl : r.leftover with _ | (b | l)
  · simp [Reader.rest, hl, leftoverBits]
  · exact absurd hl (hn b)
  · have := hw l hl; simp [Reader.rest, hl, leftoverBits]; omega

theorem Reader.Good.step {n : Nat} {r r' : Reader} (h : r.Good) (hs : Step o n r r') : r'.Good := by
  refine ⟨hs.healthy, hs.wf, hs.noPeek (.inl h.noPeek), hs.synced h.sync, fun hne => ?_⟩
  rw [hs.data]
  by_cases hb : r.inner.pos ≤ r.inner.data.length
  · exact hs.bound hb
  · exfalso
    have hrest : r.rest = [] := Classical.not_not.1 fun h' => hb (h.inside h')
    have h0 : (avail r).length = 0 := by simp [avail]; omega
    have hu := congrArg List.length hs.unread
    rw [List.length_drop, length_unread, length_unread, hrest, h0] at hu
    exact hne (List.eq_nil_of_length_eq_zero (by simp only [List.length_nil] at hu; omega))

theorem Reader.Alike.rest {d : Int} {k : Nat} {r s : Reader} (h : r.Alike d k s) : s.rest = r.rest := by
  simp only [Reader.rest, h.leftover]

theorem orderBits_take (o : Order) (bs : List Byte) (n : Nat) :
    (orderBits o bs).take (8 * n) = orderBits o (bs.take n) := by
  by_cases hn : n ≤ bs.length
  · have h : orderBits o bs = orderBits o (bs.take n) ++ orderBits o (bs.drop n) := by
      rw [← orderBits_append, List.take_append_drop]
    have h5 : 8 * n = (orderBits o (bs.take n)).length := by
      rw [length_orderBits, List.length_take, Nat.min_eq_left hn]
    rw [h, h5, List.take_left]
  · rw [List.take_of_length_le (show bs.length ≤ n by omega),
      List.take_of_length_le (by rw [length_orderBits]; omega)]

theorem length_present (o : Order) (l : List Bool) : (present o l).length = l.length := by
  cases o <;> simp [present]

theorem Reader.Alike.unread {d : Int} {k : Nat} {r s : Reader} (h : r.Alike d k s) (o : Order) :
    (s.unread o).take (r.rest.length + 8 * k) = (r.unread o).take (r.rest.length + 8 * k) := by
  rw [unread_eq, unread_eq, h.rest, take_split _ _ _ (by rw [length_present]; omega),
    take_split _ _ _ (by rw [length_present]; omega), length_present, Nat.add_sub_cancel_left,
    orderBits_take, orderBits_take]
  exact congrArg _ (congrArg _ h.next)

theorem Reader.Alike.mono {d : Int} {k l : Nat} {r s : Reader} (h : r.Alike d k s) (hl : l ≤ k) :
    r.Alike d l s := by
  refine ⟨h.good, h.leftover, h.pos, ?_, h.bound⟩
  have := congrArg (List.take l) h.next
  rwa [List.take_take, List.take_take, Nat.min_eq_left hl] at this

theorem Reader.Alike.step {d : Int} {n k : Nat} {r r' s s' : Reader} (hr : r.Good)
    (h : r.Alike d (r'.inner.pos - r.inner.pos + k) s) (h1 : Step o n r r') (h2 : Step o n s s') :
    r'.Alike d k s' := by
  have hr' := hr.step h1
  have hs' := h.good.step h2
  have e1 := step_pos h1
  have e2 := step_pos h2
  have l1 := hr'.rest_lt
  have l2 := hs'.rest_lt
  have l3 := hr.rest_lt
  rw [h.rest] at e2
  have hlen : s'.rest.length = r'.rest.length := by omega
  have hpos := h.pos
  obtain ⟨j, hj⟩ : ∃ j, r'.inner.pos = r.inner.pos + j := ⟨r'.inner.pos - r.inner.pos, by omega⟩
  have hj2 : s'.inner.pos = s.inner.pos + j := by omega
  rw [hj, Nat.add_sub_cancel_left] at h
  refine ⟨hs', hr'.leftover_eq hs' ?_, by omega, ?_, ?_⟩
  · have hu : ∀ {x x' : Reader}, Step o n x x' → x'.rest.length = r'.rest.length →
        present o x'.rest = (((x.unread o).take (r.rest.length + 8 * (j + k))).drop n).take r'.rest.length := by
      intro x x' hx hl
      have h4 : (x'.unread o).take r'.rest.length = present o x'.rest := by
        rw [unread_eq, ← hl, ← length_present o x'.rest, List.take_left]
      rw [← h4, hx.unread, List.drop_take, List.take_take, Nat.min_eq_left (by omega)]
    have h5 := hu h2 hlen
    rw [h.unread o, ← hu h1 rfl] at h5
    cases o
    · exact h5
    · simpa [present] using h5
  · rw [h1.data, h2.data, hj, hj2, ← List.drop_drop, ← List.drop_drop]
    have := congrArg (List.drop j) h.next
    rw [List.drop_take, List.drop_take, Nat.add_sub_cancel_left] at this
    exact this
  · intro hb
    rw [h2.data]
    exact h2.bound (h.bound (by rw [h1.data] at hb; omega))

/-- Whatever takes a number of bits follows the bytes. -/
theorem Follows.takes {n : Nat} {f : M Reader α} {val : List Bool → α}
    (h : ∀ r : Reader, r.Good →
      (n ≤ (r.unread o).length → ∃ r', f r = (.ok (val ((r.unread o).take n)), r') ∧ Step o n r r') ∧
      (¬ n ≤ (r.unread o).length → ∃ e r', f r = (.err e, r'))) : Follows fixed f := by
  intro r a r' hr he
  by_cases hn : n ≤ (r.unread o).length
  · obtain ⟨r1, e1, s1⟩ := (h r hr).1 hn
    rw [he] at e1
    simp at e1
    obtain ⟨rfl, rfl⟩ := e1
    have e1 := step_pos s1
    have l1 := (hr.step s1).rest_lt
    have l3 := hr.rest_lt
    refine ⟨hr.step s1, s1.data, by omega, by have := s1.bitsRead; omega, ?_⟩
    intro d k s _ ha
    have hu := ha.unread o
    have hlen := length_unread o r
    have hns : r.rest.length + 8 * (r'.inner.pos - r.inner.pos) ≤ (s.unread o).length := by
      have := congrArg List.length hu
      rw [List.length_take, List.length_take] at this
      omega
    obtain ⟨s', e2, s2⟩ := (h s ha.good).1 (by omega)
    refine ⟨s', ?_, ha.step hr s1 s2⟩
    rw [e2]
    have := congrArg (List.take n) hu
    rw [List.take_take, List.take_take, Nat.min_eq_left (by omega)] at this
    rw [this]
  · obtain ⟨k, r1, e1⟩ := (h r hr).2 hn
    rw [he] at e1
    simp at e1

theorem Prim.Delivers.follows {n : Nat} {f : M Reader α} {val : List Bool → α}
    (h : Prim.Delivers o n f val) : Follows fixed f := by
  refine Follows.takes (o := o) (n := n) (val := val) fun r hr => ⟨(h r hr.healthy hr.wf).1, fun hn => ?_⟩
  obtain ⟨k, r1, e1, _⟩ := (h r hr.healthy hr.wf).2 hn
  exact ⟨_, r1, e1⟩

theorem readBytes_follows (n : Nat) (o : Order) : Follows fixed (readBytes n o) := by
  refine Follows.takes (o := o) (n := 8 * n) (val := Prim.bytesOf o) fun r hr => ⟨fun hn => ?_, fun hn => ?_⟩
  · obtain ⟨bs, r', e, hb, hs⟩ := readBytes_ok o hr.healthy hr.wf (.inl hr.noPeek) hn
    exact ⟨r', by rw [e, ← hb, Prim.bytesOf_orderBits], hs⟩
  · obtain ⟨j, r', e, _⟩ := readBytes_short o hr.healthy hr.wf hn
    exact ⟨_, r', e⟩

theorem Follows.pure (a : α) : Follows fixed (Pure.pure a : M Reader α) := by
  intro r b r' hr he
  simp at he
  obtain ⟨rfl, rfl⟩ := he
  refine ⟨hr, rfl, Nat.le_refl _, Nat.le_refl _, fun d k s _ ha => ⟨s, rfl, ha.mono (by omega)⟩⟩

theorem Follows.throw (e : DekuError) : Follows fixed (M.throw e : M Reader α) := by
  intro r b r' hr he; simp at he

theorem Follows.panic : Follows fixed (M.panic : M Reader α) := by
  intro r b r' hr he; simp at he

theorem Follows.bind {f : M Reader α} {g : α → M Reader β} (hf : Follows fixed f)
    (hg : ∀ a, Follows fixed (g a)) : Follows fixed (f >>= g) := by
  intro r b r2 hr he
  obtain ⟨a, r1, e1, e2⟩ := M.bind_eq_ok he
  obtain ⟨h1, hd1, hp1, hb1, hs1⟩ := hf r a r1 hr e1
  obtain ⟨h2, hd2, hp2, hb2, hs2⟩ := hg a r1 b r2 h1 e2
  refine ⟨h2, hd2.trans hd1, by omega, by omega, fun d k s hd ha => ?_⟩
  obtain ⟨s1, es1, ha1⟩ := hs1 d (r2.inner.pos - r1.inner.pos + k) s hd (ha.mono (by omega))
  obtain ⟨s2, es2, ha2⟩ := hs2 d k s1 hd ha1
  exact ⟨s2, by rw [M.bind_ok es1, es2], ha2⟩

theorem Follows.map {f : M Reader α} (hf : Follows fixed f) (k : α → β) :
    Follows fixed (f >>= fun a => Pure.pure (k a)) := hf.bind fun _ => Follows.pure _

theorem Follows.ite {c : Prop} [Decidable c] {f g : M Reader α} (hf : Follows fixed f)
    (hg : Follows fixed g) : Follows fixed (if c then f else g) := by
  split
  · exact hf
  · exact hg

/-- The pending bits may be looked at. -/
theorem Follows.leftover {f : M Reader α} (g : Option Leftover → M Reader α)
    (hf : ∀ r, f r = g r.leftover r) (hg : ∀ l, Follows fixed (g l)) : Follows fixed f := by
  intro r a r' hr he
  rw [hf] at he
  obtain ⟨h1, hd1, hp1, hb1, hs1⟩ := hg _ r a r' hr he
  refine ⟨h1, hd1, hp1, hb1, fun d k s hd ha => ?_⟩
  obtain ⟨s', es, ha'⟩ := hs1 d k s hd ha
  exact ⟨s', by rw [hf, ha.leftover, es], ha'⟩

theorem assert_eq_ok {b : Bool} {s s' : σ} {u : Unit} (h : M.assert b s = (.ok u, s')) :
    b = true ∧ s' = s := by
  cases b
  · simp [M.assert] at h
  · exact ⟨rfl, (congrArg Prod.snd h).symm⟩

theorem Reader.Alike.bitsRead {d : Int} {k : Nat} {r s : Reader} (hr : r.Good) (h : r.Alike d k s) :
    (s.bitsRead : Int) = r.bitsRead + 8 * d := by
  have h1 := hr.sync
  have h2 := h.good.sync
  simp only [Synced] at h1 h2
  rw [h.rest] at h2
  have := h.pos
  omega

/-- The seek over whole bytes in `skip_bits`. -/
def skipSeek (k : Nat) : M Reader Unit := do
  let r ← M.get
  M.assert (decide (r.bitsRead % 8 = 0))
  match ← Reader.seek (.current k) with
  | .error e => M.throw (.io e)
  | .ok _ => Pure.pure ()

theorem skipSeek_run (k : Nat) {r : Reader} (hr : r.Healthy) : skipSeek k r =
    if r.bitsRead % 8 = 0 then
      (.ok (), { (adv 1 k r) with leftover := none, bitsRead := (r.inner.pos + k) * 8 })
    else (.panic, r) := by
  simp only [skipSeek]
  rw [M.get_bind_run]
  by_cases h : r.bitsRead % 8 = 0
  · simp only [h, decide_true, if_true]
    rw [M.assert_true_bind_run, M.bind_ok (seek_current_ok hr)]
    rfl
  · simp only [h, decide_false, if_false]
    rw [M.assert_false_bind_run]

theorem skipSeek_good (k : Nat) {r : Reader} (hr : r.Good) :
    ({ (adv 1 k r) with leftover := none, bitsRead := (r.inner.pos + k) * 8 } : Reader).Good := by
  refine ⟨hr.healthy, ?_, ?_, ?_, by simp [Reader.rest, leftoverBits]⟩
  · intro l h; simp at h
  · intro l h; simp at h
  · simp [Synced, Reader.rest, leftoverBits, adv]; omega

theorem skipSeek_follows (k : Nat) : Follows fixed (skipSeek k) := by
  intro r a r' hr he
  rw [skipSeek_run k hr.healthy] at he
  split at he
  · rename_i h8
    simp at he
    subst he
    refine ⟨skipSeek_good k hr, rfl, by simp [adv], ?_, fun d j s hd ha => ?_⟩
    · have := hr.sync
      simp only [Synced] at this
      simp only []
      omega
    have hp := ha.pos
    have hb := ha.bitsRead hr
    simp only [adv] at ha
    rw [Nat.add_sub_cancel_left] at ha
    refine ⟨_, by rw [skipSeek_run k ha.good.healthy, if_pos (by omega)], skipSeek_good k ha.good, rfl,
      by simp [adv]; omega, ?_, ?_⟩
    · simp only [adv]
      have := congrArg (List.drop k) ha.next
      rw [List.drop_take, List.drop_take, Nat.add_sub_cancel_left, List.drop_drop, List.drop_drop] at this
      exact this
    · simp only [adv]
      intro h
      have := congrArg List.length ha.next
      simp only [List.length_take, List.length_drop] at this
      have := ha.bound (by omega)
      omega
  · simp at he

theorem readBitsInto_follows (n : Nat) (o : Order) : Follows fixed (readBitsInto n o) :=
  (Prim.readBitsInto_delivers n o).follows

/-- `skip_bits` with the pending bits made explicit. -/
def skipFrom (n : Nat) (o : Order) (l : Option Leftover) : M Reader Unit :=
  match l with
  | some (.bits l) => readBitsInto (min n l.length) o >>= fun _ => skipTail (n - min n l.length) o
  | _ => skipTail n o

theorem skipTail_eq (n : Nat) (o : Order) : skipTail n o =
    ((if n / 8 ≠ 0 then skipSeek (n / 8) else Pure.pure ()) >>= fun _ =>
      readBitsInto (n % 8) o >>= fun _ => Pure.pure ()) := by
  unfold skipTail skipSeek
  split
  · funext r
    simp only [M.bind_def, M.get]
    split
    · rcases hk : Reader.seek (.current (n / 8 : Nat)) _ with ⟨(_ | _) | _ | _, _⟩ <;> rfl
    · rfl
    · rfl
  · rfl

theorem skipTail_follows (n : Nat) (o : Order) : Follows fixed (skipTail n o) := by
  rw [skipTail_eq]
  exact (Follows.ite (skipSeek_follows _) (Follows.pure _)).bind fun _ =>
    (readBitsInto_follows _ _).bind fun _ => Follows.pure _

theorem skipBits_follows (n : Nat) (o : Order) : Follows fixed (skipBits n o) := by
  refine Follows.leftover (skipFrom n o) (fun r => ?_) (fun l => ?_)
  · rcases hl : r.leftover with _ | (b | l)
    · exact skipBits_other (by simp [hl])
    · exact skipBits_other (by simp [hl])
    · exact skipBits_bits hl
  · rcases l with _ | (b | l)
    · exact skipTail_follows n o
    · exact skipTail_follows n o
    · exact (readBitsInto_follows _ _).bind fun _ => skipTail_follows _ o

/-! ### pieces of derived code -/

theorem magicRead_follows (native : Endian) (magic : List Byte) :
    Follows fixed (magicRead native magic) := by
  induction magic with
  | nil => exact Follows.pure _
  | cons b bs ih =>
    refine Follows.bind (u8Read_delivers native).follows fun v => ?_
    exact Follows.ite (Follows.throw _) ih

theorem padSize_follows (n : Int) : Follows fixed (padSize n : M Reader Nat) :=
  Follows.ite (Follows.pure _) (Follows.throw _)

theorem toUsize_follows (n : Int) : Follows fixed (toUsize n : M Reader Nat) :=
  Follows.ite (Follows.pure _) (Follows.throw _)

theorem usize_follows (n : Nat) : Follows fixed (usize n) :=
  Follows.ite (Follows.pure _) Follows.panic

theorem padRead_follows (order : Option Order) (pad : Option (Env → Int)) (env : Env) :
    Follows fixed (padRead order pad env) := by
  cases pad with
  | none => exact Follows.pure _
  | some f => exact (padSize_follows _).bind fun n => skipBits_follows n _

theorem check_follows (a : Attrs) (env : Env) (v : Val) : Follows fixed (a.check env v : M Reader Unit) := by
  unfold Attrs.check
  refine Follows.ite (Follows.throw _) ?_
  split
  · exact Follows.pure _
  · exact Follows.ite (Follows.throw _) (Follows.pure _)

theorem Attrs.value_follows {a : Attrs} {rd : Env → M Reader Val} (h : ∀ env, Follows fixed (rd env))
    (env : Env) : Follows fixed (a.value rd env) := by
  unfold Attrs.value
  refine Follows.ite ((h env).bind fun raw => ?_) (Follows.pure _)
  unfold Attrs.applyMap
  split
  · exact Follows.pure _
  · exact Follows.throw _

/-- The position may be looked at if it is fixed. -/
theorem Follows.offset {f : M Reader α} (g : Nat → M Reader α) (uses : Bool)
    (hf : ∀ r, f r = g (if uses then r.bitsRead else 0) r) (hg : ∀ n, Follows fixed (g n))
    (h : uses = true → fixed = true) : Follows fixed f := by
  intro r a r' hr he
  rw [hf] at he
  obtain ⟨h1, hd1, hp1, hb1, hs1⟩ := hg _ r a r' hr he
  refine ⟨h1, hd1, hp1, hb1, fun d k s hd ha => ?_⟩
  obtain ⟨s', es, ha'⟩ := hs1 d k s hd ha
  refine ⟨s', ?_, ha'⟩
  rw [hf, ← es]
  cases uses
  · rfl
  · have := ha.bitsRead hr
    have := hd (h rfl)
    simp only [if_true]
    rw [show s.bitsRead = r.bitsRead by omega]

theorem Attrs.read_follows {a : Attrs} (ha : a.Streams fixed) (native : Endian) {rd : Env → M Reader Val}
    (h : ∀ env, Follows fixed (rd env)) (env : Env) : Follows fixed (a.read native rd env) := by
  obtain ⟨hs, ho⟩ := ha
  simp only [Attrs.read, hs, seekRead, M.pure_bind]
  refine (magicRead_follows native _).bind fun _ => (padRead_follows _ _ _).bind fun _ => ?_
  refine Follows.offset (fun n => do
    let v ← a.value rd (env.at n)
    a.check (env.at n) v
    padRead a.padOrder a.padAfter ((env.at n).push v)
    Pure.pure v) a.usesOffset (fun r => ?_) (fun n => ?_) ho
  · rw [M.get_bind_run]
  · exact (Attrs.value_follows h _).bind fun v => (check_follows _ _ _).bind fun _ =>
      (padRead_follows _ _ _).bind fun _ => Follows.pure _

/-! ### `ReadExact` -/

/-- Beyond the end, the subtraction `end - pos` panics. -/
theorem readExact_beyond {n : Nat} {r : Reader} (hf : r.Healthy) (hb : ¬ r.inner.pos ≤ r.inner.data.length) :
    readExact n r = (.panic, adv 3 0 r) := by
  have h0 : r.inner.faults = noFaults := hf
  have h2 : srcCall (fun s => s.seek (.end 0)) (adv 1 0 r) =
      (.ok r.inner.data.length, { adv 2 0 r with inner := { (adv 2 0 r).inner with pos := r.inner.data.length } }) := by
    have hneg : ¬ (r.inner.data.length : Int) < 0 := by omega
    simp [srcCall, Src.seek, adv, h0, noFaults, Src.seekTarget, hneg]
  have h3 : srcCall (fun s => s.seek (.start r.inner.pos))
      { adv 2 0 r with inner := { (adv 2 0 r).inner with pos := r.inner.data.length } } =
      (.ok r.inner.pos, adv 3 0 r) := by
    simp [srcCall, Src.seek, adv, h0, noFaults, Src.seekTarget]
  unfold readExact
  rw [M.bind_ok (srcCall_position hf), M.bind_ok h2, M.bind_ok h3]
  simp only [hb, decide_false]
  rw [M.assert_false_bind_run]

theorem readExact_follows (n : Nat) : Follows fixed (readExact n) := by
  intro r a r' hr he
  by_cases hb : r.inner.pos ≤ r.inner.data.length
  · rw [readExact_run hr.healthy hb] at he
    by_cases hl : (avail r).length < n
    · rw [if_pos hl] at he
      obtain ⟨k, r1, e1, e2⟩ := M.bind_eq_ok he
      simp at e2
    · rw [if_neg hl] at he
      have hadv : ∀ {x : Reader}, x.Good → (adv 3 0 x).Good := fun h => ⟨h.healthy, h.wf, h.noPeek, h.sync, h.inside⟩
      obtain ⟨h1, hd1, hp1, hb1, hs1⟩ := readBytes_follows (fixed := fixed) n .lsb0 _ a r' (hadv hr) he
      refine ⟨h1, hd1, hp1, hb1, fun d k s hd ha => ?_⟩
      obtain ⟨s', es, ha'⟩ := hs1 d k (adv 3 0 s) hd
        ⟨hadv ha.good, ha.leftover, ha.pos, ha.next, ha.bound⟩
      refine ⟨s', ?_, ha'⟩
      rw [readExact_run ha.good.healthy (ha.bound hb), if_neg ?_, es]
      have hl' : n ≤ (avail (adv 3 0 r)).length := by simpa [avail_adv] using hl
      obtain ⟨bs, r2, e2, _, st⟩ := readBytes_ok .lsb0 (n := n) (hadv hr).healthy (hadv hr).wf
        (.inl (hadv hr).noPeek) (by rw [length_unread]; omega)
      rw [he] at e2
      simp at e2
      have e3 := step_pos (Step.adv st)
      rw [← e2.2] at e3
      have l1 := h1.rest_lt
      have l3 := hr.rest_lt
      have := congrArg List.length ha.next
      simp only [List.length_take] at this
      simp only [avail] at hl ⊢
      omega
  · rw [readExact_beyond hr.healthy hb] at he
    simp at he

/-! ### lists -/

/-- The same elements, with the counter shifted. -/
inductive Shifted (d : Int) : List (α × Nat) → List (α × Nat) → Prop
  | nil : Shifted d [] []
  | cons {a : α} {b b' : Nat} {t t' : List (α × Nat)} (hb : (b' : Int) = b + 8 * d)
      (ht : Shifted d t t') : Shifted d ((a, b) :: t) ((a, b') :: t')

theorem Trace.follows {f : M Reader α} (hf : Follows fixed f) {r r' : Reader} {t : List (α × Nat)}
    (h : Trace f r t r') (hr : r.Good) :
    r'.Good ∧ r'.inner.data = r.inner.data ∧ r.inner.pos ≤ r'.inner.pos ∧ r.bitsRead ≤ r'.bitsRead ∧
    ∀ d k s, (fixed = true → d = 0) → r.Alike d (r'.inner.pos - r.inner.pos + k) s →
      ∃ t' s', Trace f s t' s' ∧ r'.Alike d k s' ∧
        Shifted d t t' := by
  induction h with
  | nil r => exact ⟨hr, rfl, Nat.le_refl _, Nat.le_refl _, fun d k s _ ha => ⟨[], s, .nil s, ha.mono (by omega), .nil⟩⟩
  | @cons r r1 r2 a t h ht ih =>
    obtain ⟨h1, hd1, hp1, hb1, hs1⟩ := hf r a r1 hr h
    obtain ⟨h2, hd2, hp2, hb2, hs2⟩ := ih h1
    refine ⟨h2, hd2.trans hd1, by omega, by omega, fun d k s hd ha => ?_⟩
    obtain ⟨s1, es1, ha1⟩ := hs1 d (r2.inner.pos - r1.inner.pos + k) s hd (ha.mono (by omega))
    obtain ⟨t', s2, es2, ha2, hF⟩ := hs2 d k s1 hd ha1
    exact ⟨_, s2, .cons es1 es2, ha2, .cons (ha1.bitsRead h1) hF⟩

theorem Shifted.map {d : Int} {t t' : List (α × Nat)} (h : Shifted d t t') :
    t'.map Prod.fst = t.map Prod.fst ∧ t'.length = t.length := by
  induction h with
  | nil => exact ⟨rfl, rfl⟩
  | cons _ _ ih => simp [ih]

theorem StopsAt.shift {pred : Nat → α → σ → Bool × σ} {start start' : Nat} {d : Int} {s : σ}
    {t t' : List (α × Nat)} (hst : (start' : Int) = start + 8 * d)
    (hF : Shifted d t t')
    (h : StopsAt pred start s t) : StopsAt pred start' s t' := by
  induction hF generalizing s with
  | nil => exact h.elim
  | @cons v b b' t t' hb hF ih =>
    rw [StopsAt.cons_iff] at h ⊢
    have e : b' - start' = b - start := by have := h.1; omega
    refine ⟨by have := h.1; omega, ?_⟩
    rw [e]
    have h2 := h.2
    split at h2
    · subst h2
      cases hF
      rw [if_pos ‹_›]
    · rw [if_neg ‹_›]
      exact ih h2

theorem vecLoop_follows {f : M Reader α} (hf : Follows fixed f) (pred : Nat → α → σ → Bool × σ)
    (mem : Nat) (s : σ) :
    Follows fixed (do let r ← M.get; vecLoop f pred r.bitsRead mem s : M Reader (List α)) := by
  intro r a r' hr he
  rw [M.get_bind_run] at he
  obtain ⟨t, ht, hm, hst, hl⟩ := vecLoop_ok_iff.1 he
  obtain ⟨h1, hd1, hp1, hb1, hs1⟩ := ht.follows hf hr
  refine ⟨h1, hd1, hp1, hb1, fun d k s hd ha => ?_⟩
  obtain ⟨t', s', ht', ha', hF⟩ := hs1 d k s hd ha
  refine ⟨s', ?_, ha'⟩
  rw [M.get_bind_run]
  refine vecLoop_ok_iff.2 ⟨t', ht', ?_, hst.shift (ha.bitsRead hr) hF, ?_⟩
  · rw [← hm]; exact hF.map.1
  · rw [hF.map.2]; exact hl

theorem vecWithPredicate_follows {f : M Reader α} (hf : Follows fixed f) (pred : Nat → α → σ → Bool × σ)
    (mem size : Nat) (cap : Option Nat) (s : σ) :
    Follows fixed (vecWithPredicate mem size cap f pred s) := by
  unfold vecWithPredicate
  refine Follows.ite (Follows.pure _) (Follows.bind ?_ fun _ => vecLoop_follows hf pred mem s)
  cases cap
  · exact Follows.pure _
  · simp only [withCapacity, M.assert]
    split
    · exact Follows.pure _
    · exact Follows.panic

theorem vecRead_follows {f : M Reader α} (hf : Follows fixed f) (mem size : Nat) (l : Limit α σ)
    (hl : l ≠ .end) : Follows fixed (vecRead mem size f l) := by
  cases l with
  | count n => exact Follows.ite (Follows.pure _) (vecWithPredicate_follows hf _ _ _ _ _)
  | «until» p s => exact vecWithPredicate_follows hf _ _ _ _ _
  | bits n => exact Follows.ite (Follows.pure _) (vecWithPredicate_follows hf _ _ _ _ _)
  | bytes n =>
    exact (usize_follows _).bind fun n =>
      Follows.ite (Follows.pure _) (vecWithPredicate_follows hf _ _ _ _ _)
  | «end» => exact absurd rfl hl

theorem arrayRead_follows {f : M Reader α} (hf : Follows fixed f) (n : Nat) :
    Follows fixed (arrayRead f n) := by
  induction n with
  | zero => exact Follows.pure _
  | succ n ih => exact hf.bind fun v => ih.bind fun vs => Follows.pure _

/-! ### definitions -/

theorem dispatch_follows {sel : Option Nat} {arm : Nat → M Reader Val} (h : ∀ i, Follows fixed (arm i)) :
    Follows fixed (dispatch sel arm) := by
  cases sel with
  | none => exact Follows.throw _
  | some i => exact (h i).bind fun _ => Follows.pure _

mutual

theorem Ty.follows (m : Machine) : ∀ (t : Ty) (env : Env), t.Streams fixed → Follows fixed (t.read m env)
  | .prim _ c, env, h => by
    simp only [Ty.Streams] at h
    simp only [Ty.read]
    exact h env
  | .option t, env, h => by
    simp only [Ty.Streams] at h
    simp only [Ty.read]
    exact (Ty.follows m t env h).map _
  | .array n t, env, h => by
    simp only [Ty.Streams] at h
    simp only [Ty.read]
    exact (arrayRead_follows (Ty.follows m t env h) n).map _
  | .pair a b, env, h => by
    simp only [Ty.Streams] at h
    simp only [Ty.read]
    exact (Ty.follows m a env h.1).bind fun x => (Ty.follows m b env h.2).map _
  | .vec size l t, env, h => by
    simp only [Ty.Streams] at h
    simp only [Ty.read]
    have ht := Ty.follows m t env h.2
    have hv := fun lim hl => (vecRead_follows (σ := List Val) ht m.mem size lim hl).map Val.ofList
    cases l with
    | count n =>
      simp only [LimitE.eval, M.bind_assoc, M.pure_bind]
      exact (toUsize_follows _).bind fun k => hv _ (by simp)
    | «until» p =>
      simp only [LimitE.eval, M.pure_bind]
      exact hv _ (by simp)
    | bits n =>
      simp only [LimitE.eval, M.bind_assoc, M.pure_bind]
      exact (toUsize_follows _).bind fun k => hv _ (by simp)
    | bytes n =>
      simp only [LimitE.eval, M.bind_assoc, M.pure_bind]
      exact (toUsize_follows _).bind fun k => hv _ (by simp)
    | «end» => exact h.1.elim
  | .bytes n ctx, env, h => by
    simp only [Ty.read]
    exact (toUsize_follows _).bind fun k => (readExact_follows k).map _
  | .struct args sk magic fs, env, h => by
    simp only [Ty.Streams] at h
    obtain ⟨rfl, hf⟩ := h
    simp only [Ty.read, seekRead, M.pure_bind]
    exact (magicRead_follows _ _).bind fun _ => Fields.follows m fs _ hf
  | .enum args magic id store vs, env, h => by
    simp only [Ty.Streams] at h
    rw [Ty.read_enum]
    refine (magicRead_follows _ _).bind fun _ => Follows.bind ?_ fun x =>
      dispatch_follows fun i => Variants.follows m vs _ x _ i h.2
    cases id with
    | ctx e => exact Follows.pure _
    | typed _ c => exact h.1 _

theorem Fields.follows (m : Machine) : ∀ (fs : Fields) (env : Env), fs.Streams fixed →
    Follows fixed (fs.read m env)
  | .nil, env, h => by
    simp only [Fields.read]
    exact Follows.pure _
  | .cons a t tl, env, h => by
    simp only [Fields.Streams] at h
    simp only [Fields.read]
    exact (Attrs.read_follows h.1 _ (fun env => Ty.follows m t env h.2.1) env).bind fun v =>
      (Fields.follows m tl _ h.2.2).map _
  | .temp a t _ tl, env, h => by
    simp only [Fields.Streams] at h
    simp only [Fields.read]
    exact (Attrs.read_follows h.1 _ (fun env => Ty.follows m t env h.2.1) env).bind fun v =>
      Fields.follows m tl _ h.2.2

theorem Fields.storedFollows (m : Machine) : ∀ (fs : Fields) (env : Env) (id : Val), fs.Streams fixed →
    Follows fixed (fs.readStored m env id)
  | .nil, env, id, h => by
    simp only [Fields.readStored]
    exact Follows.pure _
  | .cons a t tl, env, id, h => by
    simp only [Fields.Streams] at h
    simp only [Fields.readStored]
    exact (Fields.follows m tl _ h.2.2).map _
  | .temp a t _ tl, env, id, h => by
    simp only [Fields.Streams] at h
    simp only [Fields.readStored]
    exact Fields.follows m tl _ h.2.2

theorem Variants.follows (m : Machine) : ∀ (vs : Variants) (env : Env) (x : Val) (typed : Bool) (i : Nat),
    vs.Streams fixed → Follows fixed (vs.readAt m env x typed i)
  | .nil, env, x, typed, i, h => by
    simp only [Variants.readAt]
    exact Follows.panic
  | .cons a fs tl, env, x, typed, 0, h => by
    simp only [Variants.Streams] at h
    simp only [Variants.readAt]
    exact Follows.ite (Fields.storedFollows m fs env x h.1) (Fields.follows m fs env h.1)
  | .cons a fs tl, env, x, typed, i + 1, h => by
    simp only [Variants.Streams] at h
    simp only [Variants.readAt]
    exact Variants.follows m tl env x typed i h.2

end

/-! ### fixed positions are less to ask for -/

theorem Follows.weaken {f : M Reader α} (h : Follows false f) : Follows fixed f := by
  intro r a r' hr he
  obtain ⟨h1, h2, h3, h4, h5⟩ := h r a r' hr he
  exact ⟨h1, h2, h3, h4, fun d k s _ => h5 d k s (by simp)⟩

theorem Attrs.Streams.weaken {a : Attrs} (h : a.Streams false) : a.Streams fixed :=
  ⟨h.1, fun hu => by have := h.2 hu; simp at this⟩

mutual

theorem Ty.Streams.weaken : ∀ (t : Ty), t.Streams false → t.Streams fixed
  | .prim _ c, h => by
    simp only [Ty.Streams] at *
    exact fun env => (h env).weaken
  | .option t, h => by
    simp only [Ty.Streams] at *
    exact Ty.Streams.weaken t h
  | .array n t, h => by
    simp only [Ty.Streams] at *
    exact Ty.Streams.weaken t h
  | .pair a b, h => by
    simp only [Ty.Streams] at *
    exact ⟨Ty.Streams.weaken a h.1, Ty.Streams.weaken b h.2⟩
  | .vec size l t, h => by
    simp only [Ty.Streams] at *
    exact ⟨h.1, Ty.Streams.weaken t h.2⟩
  | .bytes n ctx, h => by
    simp only [Ty.Streams]
  | .struct args sk magic fs, h => by
    simp only [Ty.Streams] at *
    exact ⟨h.1, Fields.Streams.weaken fs h.2⟩
  | .enum args magic id store vs, h => by
    simp only [Ty.Streams] at *
    refine ⟨?_, Variants.Streams.weaken vs h.2⟩
    cases id with
    | ctx e => trivial
    | typed _ c => exact fun env => (h.1 env).weaken

theorem Fields.Streams.weaken : ∀ (fs : Fields), fs.Streams false → fs.Streams fixed
  | .nil, h => by
    simp only [Fields.Streams]
  | .cons a t tl, h => by
    simp only [Fields.Streams] at *
    exact ⟨h.1.weaken, Ty.Streams.weaken t h.2.1, Fields.Streams.weaken tl h.2.2⟩
  | .temp a t _ tl, h => by
    simp only [Fields.Streams] at *
    exact ⟨h.1.weaken, Ty.Streams.weaken t h.2.1, Fields.Streams.weaken tl h.2.2⟩

theorem Variants.Streams.weaken : ∀ (vs : Variants), vs.Streams false → vs.Streams fixed
  | .nil, h => by
    simp only [Variants.Streams]
  | .cons a fs tl, h => by
    simp only [Variants.Streams] at *
    exact ⟨Fields.Streams.weaken fs h.1, Variants.Streams.weaken tl h.2⟩

end

end Deku
