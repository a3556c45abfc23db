import Verif.Spec.Canon
import Verif.Lemmas.Locality
import Verif.Lemmas.Leaves

/-! # A successful parse re-serialises to the same bits -/

namespace Deku

open Reader Writer Coll

variable {α β σ : Type} {o : Order} {pk : Bool} {P : Nat → Prop}

/-! ### readers at a byte boundary, also after `end` -/

theorem Reader.Live.move {p n : Nat} {r r' : Reader} (h : r.Live p) (hs : Step o n r r') :
    r'.Live (p + n) where
  healthy := hs.healthy
  wf := hs.wf
  sync := hs.synced h.sync
  bound := by rw [hs.data]; exact hs.bound h.bound
  phase := by have := h.phase; rw [hs.bitsRead]; omega

/-- What is unread at a byte boundary are bytes. -/
theorem Reader.Live.bytes {p : Nat} {r : Reader} (h : r.Live p) (hp : p % 8 = 0) :
    ∃ bs : List Byte, ∀ o, r.unread o = orderBits o bs := by
  have hs := h.sync
  have hph := h.phase
  simp only [Synced] at hs
  rcases hl : r.leftover with _ | (b | l)
  · refine ⟨avail r, fun o => ?_⟩
    exact unread_none _ _ hl
  · refine ⟨b :: avail r, fun o => ?_⟩
    cases o <;> simp [Reader.unread, unreadMsb, unreadLsb, Reader.rest, hl, leftoverBits, orderBits,
      bytesBits, bytesBitsLsb, avail]
  · have := h.wf l hl
    have hr : r.rest.length = l.length := by simp [Reader.rest, hl, leftoverBits]
    omega

theorem Step.switchLive {o o' : Order} {p k : Nat} {r r' : Reader} (hr : r.Live p) (hp : p % 8 = 0)
    (hs : Step o (8 * k) r r') : Step o' (8 * k) r r' := by
  refine ⟨?_, hs.bitsRead, hs.data, hs.healthy, hs.wf, hs.noPeek, hs.sync, hs.bound⟩
  obtain ⟨bs, hb⟩ := hr.bytes hp
  obtain ⟨bs', hb'⟩ := (hr.move hs).bytes (by omega)
  have h := hs.unread
  rw [hb', hb] at h ⊢
  have key : ∀ o, orderBits o (bs.drop k) = (orderBits o bs).drop (8 * k) := by
    intro o
    by_cases hk : k ≤ bs.length
    · have h4 : orderBits o bs = orderBits o (bs.take k) ++ orderBits o (bs.drop k) := by
        rw [← orderBits_append, List.take_append_drop]
      have h5 : 8 * k = (orderBits o (bs.take k)).length := by
        rw [length_orderBits, List.length_take, Nat.min_eq_left hk]
      rw [h4, h5, List.drop_left]
    · rw [List.drop_of_length_le (show bs.length ≤ k by omega),
        List.drop_of_length_le (by rw [length_orderBits]; omega)]
      cases o <;> rfl
  rw [← key] at h ⊢
  rw [orderBits_inj _ h]

/-! ### combinators -/

theorem M.bind_unit (g : M σ Unit) : (g >>= fun _ => Pure.pure ()) = g := by
  funext s
  rw [M.bind_def]
  rcases g s with ⟨_ | _ | _, s'⟩ <;> rfl

theorem CanonOn.mono {P' : Nat → Prop} {Q Q' : α → Nat → Prop} {f : M Reader α}
    {g g' : α → M Writer Unit} (h : CanonOn o pk P f g Q) (hP : ∀ p, P' p → P p)
    (hQ : ∀ a q, Q a q → g' a = g a ∧ Q' a q) : CanonOn o pk P' f g' Q' := by
  intro p r a r' hp hr hk he
  obtain ⟨n, hn, hs, hw, hq⟩ := h p r a r' (hP p hp) hr hk he
  exact ⟨n, hn, hs, by rw [(hQ _ _ hq).1]; exact hw, (hQ _ _ hq).2⟩

theorem CanonOn.pure (a : α) {Q : α → Nat → Prop} {g : α → M Writer Unit}
    (h : ∀ p, P p → Writes o p (g a) [] ∧ Q a p) : CanonOn o pk P (Pure.pure a : M Reader α) g Q := by
  intro p r b r' hp hr hk he
  simp at he
  obtain ⟨rfl, rfl⟩ := he
  exact ⟨0, Nat.zero_le _, Step.refl o hr.healthy hr.wf, by simpa using (h p hp).1, (h p hp).2⟩

theorem CanonOn.fails {Q : α → Nat → Prop} {f : M Reader α} {g : α → M Writer Unit}
    (h : ∀ r a r', f r ≠ (.ok a, r')) : CanonOn o pk P f g Q :=
  fun _ r a r' _ _ _ he => absurd he (h r a r')

theorem CanonOn.throw (e : DekuError) {Q : α → Nat → Prop} {g : α → M Writer Unit} :
    CanonOn o pk P (M.throw e : M Reader α) g Q := CanonOn.fails (by simp)

theorem CanonOn.panic {Q : α → Nat → Prop} {g : α → M Writer Unit} :
    CanonOn o pk P (M.panic : M Reader α) g Q := CanonOn.fails (by simp)

/-- What is known of a result may be used for what comes next. -/
theorem CanonOn.bind {f : M Reader α} {k : α → M Reader β} {gf : α → M Writer Unit}
    {gk : α → β → M Writer Unit} {g : β → M Writer Unit} {R : α → Nat → Prop}
    {Q' : α → β → Nat → Prop} {Q : β → Nat → Prop} (hf : CanonOn o pk P f gf R)
    (hk : ∀ a, (∃ q, R a q) → CanonOn o pk (R a) (k a) (gk a) (Q' a))
    (hg : ∀ a b q, Q' a b q → g b = (gf a >>= fun _ => gk a b) ∧ Q b q) :
    CanonOn o pk P (f >>= k) g Q := by
  intro p r b r2 hp hr hpk he
  obtain ⟨a, r1, e1, e2⟩ := M.bind_eq_ok he
  obtain ⟨n, hn, s1, w1, q1⟩ := hf p r a r1 hp hr hpk e1
  obtain ⟨n', hn', s2, w2, q2⟩ := hk a ⟨_, q1⟩ (p + n) r1 b r2 q1 (hr.move s1)
    (fun h => s1.noPeek (.inl (hpk h))) e2
  rw [s1.unread] at hn' w2
  rw [List.length_drop] at hn'
  obtain ⟨h1, h2⟩ := hg _ _ _ q2
  refine ⟨n + n', by omega, s1.trans s2, ?_, by rw [← Nat.add_assoc]; exact h2⟩
  rw [h1, List.take_add]
  refine w1.bind ?_
  rw [List.length_take, Nat.min_eq_left hn]
  exact w2

theorem CanonOn.map {f : M Reader α} {g : α → M Writer Unit} {R : α → Nat → Prop} (k : α → β)
    {g' : β → M Writer Unit} {Q : β → Nat → Prop} (hf : CanonOn o pk P f g R)
    (hg : ∀ a q, R a q → g' (k a) = g a ∧ Q (k a) q) :
    CanonOn o pk P (f >>= fun a => Pure.pure (k a)) g' Q := by
  intro p r b r2 hp hr hpk he
  obtain ⟨a, r1, e1, e2⟩ := M.bind_eq_ok he
  simp at e2
  obtain ⟨rfl, rfl⟩ := e2
  obtain ⟨n, hn, s1, w1, q1⟩ := hf p r a r1 hp hr hpk e1
  exact ⟨n, hn, s1, by rw [(hg a _ q1).1]; exact w1, (hg a _ q1).2⟩

/-- Something before that is the same for every value. -/
theorem CanonOn.after {f : M Reader Unit} {k : Unit → M Reader β} {gf : M Writer Unit}
    {g : β → M Writer Unit} {R : Nat → Prop} {Q : β → Nat → Prop}
    (hf : CanonOn o pk P f (fun _ => gf) (fun _ => R)) (hk : CanonOn o pk R (k ()) g Q) :
    CanonOn o pk P (f >>= k) (fun b => gf >>= fun _ => g b) Q :=
  hf.bind (gk := fun _ => g) (Q' := fun _ => Q) (fun _ _ => hk) fun _ _ _ h => ⟨rfl, h⟩

/-! ### leaves -/

theorem Prim.Delivers.canonOn {n : Nat} {f : M Reader α} {val : List Bool → α}
    (h : Prim.Delivers o n f val) {g : α → M Writer Unit} {Q : α → Nat → Prop}
    (hg : ∀ p bits, P p → bits.length = n → Writes o p (g (val bits)) bits ∧ Q (val bits) (p + n)) :
    CanonOn o pk P f g Q := by
  intro p r a r' hp hr hpk he
  by_cases hn : n ≤ (r.unread o).length
  · obtain ⟨r1, e1, s1⟩ := (h r hr.healthy hr.wf).1 hn
    rw [he] at e1
    simp at e1
    obtain ⟨rfl, rfl⟩ := e1
    have hl : ((r.unread o).take n).length = n := by rw [List.length_take, Nat.min_eq_left hn]
    exact ⟨n, hn, s1, (hg p _ hp hl).1, (hg p _ hp hl).2⟩
  · obtain ⟨k, r1, e1, _⟩ := (h r hr.healthy hr.wf).2 hn
    rw [he] at e1
    simp at e1

/-- Unsigned integers. -/
theorem uint_canon {native e : Endian} {W n : Nat} {ctx : IntCtx} (hW : 1 ≤ W)
    (hs : ctx.shape native W = (e, n, o)) (h1 : 1 ≤ n) (hn : n ≤ 8 * W)
    (hc : ∀ p, P p → Prim.Compatible native W ctx p) :
    CanonOn o pk P (uintCodec native W ctx).read (uintCodec native W ctx).write
      (fun v q => (∃ k : Nat, v = .num k) ∧ shift P n q) := by
  have hR := Prim.readUnsigned_delivers native ctx hW
  rw [hs] at hR
  have hd : Prim.Delivers o n (uintCodec native W ctx).read (fun l => Val.num (fieldValue e o l)) :=
    (hR h1 hn).map fun l r _ => rfl
  refine hd.canonOn fun p bits hp hl => ⟨?_, ⟨_, rfl⟩, p, hp, rfl⟩
  have hcp := hc p hp
  have hdn := hcp.dense
  rw [hs] at hdn
  have hlt : fieldValue e o bits < 2 ^ n := by
    have := Prim.fieldValue_dense_lt (e := e) (o := o) (l := bits) (by rw [hl]; exact hdn)
    rwa [hl] at this
  have hlt' : fieldValue e o bits < 256 ^ W := by
    refine Nat.lt_of_lt_of_le hlt ?_
    rw [show (256 : Nat) ^ W = 2 ^ (8 * W) by rw [Nat.pow_mul]]
    exact Nat.pow_le_pow_right (by omega) hn
  rw [uint_write_num hlt']
  have := (round_trip hW hs h1 hn hlt hcp).1
  have hb := Prim.fieldBits_fieldValue (e := e) (o := o) (l := bits) (by rw [hl]; exact hdn)
  rw [hl] at hb
  rwa [hb] at this

/-! ### pieces -/

/-- One byte at a byte boundary, or anywhere in Msb0 order. -/
theorem u8Read_canon (native : Endian) (h : ByteSafe o P) :
    CanonOn o pk P (u8Read native) (fun b => Writer.writeBytes [b]) (fun _ => shift P 8) := by
  rcases h with rfl | h
  · refine (u8Read_delivers native).canonOn fun p bits hp hl => ⟨?_, p, hp, rfl⟩
    have hw := writeBytes_writes (o := .msb0) (p := p) [byteOf (present .msb0 bits)] (by simp)
    rw [show orderBits .msb0 [byteOf (present .msb0 bits)] = bits by
      simp [orderBits, bytesBits, present, byteBits_byteOf _ hl]] at hw
    exact hw
  · intro p r a r' hp hr hpk he
    have h8 := h p hp
    obtain ⟨bs, hb⟩ := hr.bytes h8
    by_cases hn : 8 ≤ (r.unread .msb0).length
    · obtain ⟨r1, e1, s1⟩ := (u8Read_delivers native r hr.healthy hr.wf).1 hn
      rw [he] at e1
      simp at e1
      obtain ⟨rfl, rfl⟩ := e1
      cases bs with
      | nil => rw [hb] at hn; simp [orderBits] at hn
      | cons b bs =>
        have ht : ∀ o, (r.unread o).take 8 = orderBits o [b] := by
          intro o
          rw [hb, show b :: bs = [b] ++ bs from rfl, orderBits_append,
            List.take_append_of_le_length (by rw [length_orderBits]; simp),
            List.take_of_length_le (by rw [length_orderBits]; simp)]
        have hv : byteOf (present .msb0 ((r.unread .msb0).take 8)) = b := by
          rw [ht]; simp [orderBits, bytesBits, present]
        refine ⟨8, by rw [length_unread] at hn ⊢; exact hn, Step.switchLive (k := 1) hr h8 s1, ?_, p, hp, rfl⟩
        rw [hv, ht]
        exact writeBytes_writes [b] fun _ => h8
    · obtain ⟨k, r1, e1, _⟩ := (u8Read_delivers native r hr.healthy hr.wf).2 hn
      rw [he] at e1
      simp at e1

theorem magicRead_canon (native : Endian) {magic : List Byte} (h : magic = [] ∨ ByteSafe o P) :
    CanonOn o pk P (magicRead native magic) (fun _ => magicWrite native magic)
      (fun _ => shift P (8 * magic.length)) := by
  rcases h with rfl | h
  · exact CanonOn.pure _ fun p hp => ⟨Writes.pure o p, p, hp, rfl⟩
  · induction magic generalizing P with
    | nil => exact CanonOn.pure _ fun p hp => ⟨Writes.pure o p, p, hp, rfl⟩
    | cons b bs ih =>
      simp only [magicRead]
      refine (u8Read_canon native h).bind (gk := fun _ _ => magicWrite native bs)
        (Q' := fun v _ q => v = b ∧ shift P (8 * (b :: bs).length) q) (fun v _ => ?_) ?_
      · split
        · exact CanonOn.throw _
        · rename_i hv
          refine (ih (byteSafe_shift (n := 1) h)).mono (fun _ h => h) fun _ q hq => ⟨rfl, ?_, ?_⟩
          · simpa using Eq.symm (Classical.not_not.1 hv)
          · have := shift_shift hq
            rwa [show 8 * 1 + 8 * bs.length = 8 * (b :: bs).length by simp; omega] at this
      · rintro v _ q ⟨rfl, hq⟩
        refine ⟨?_, hq⟩
        simp only [magicWrite, Coll.writeAll]
        rw [u8Write_bytes native rfl]

theorem Attrs.value_canon {a : Attrs} {rd : Env → M Reader Val} {wr : Env → Val → M Writer Unit}
    {env : Env} {Q : Val → Nat → Prop}
    (h1 : a.isRead env = true → a.isWritten env = true ∧ ∃ R : Val → Nat → Prop,
      CanonOn o pk P (rd env) (wr env) R ∧
      ∀ raw v q', R raw q' → a.map env raw = .ok v → a.unmap env v = raw ∧ Q v q')
    (h2 : a.isRead env = false → ∀ p, P p →
      (a.isWritten env = true → Writes o p (wr env (a.unmap env (a.default env))) []) ∧
      Q (a.default env) p) :
    CanonOn o pk P (a.value rd env) (a.put wr env) Q := by
  unfold Attrs.value
  split
  · rename_i h
    obtain ⟨hw, R, hR, hQ⟩ := h1 h
    refine hR.bind (gk := fun _ _ => Pure.pure ()) (Q' := fun raw v q => a.unmap env v = raw ∧ Q v q)
      (fun raw _ => ?_) ?_
    · unfold Attrs.applyMap
      split
      · rename_i v hv
        exact CanonOn.pure _ fun q hq => ⟨Writes.pure o q, hQ raw v q hq hv⟩
      · exact CanonOn.throw _
    · rintro raw v q ⟨h3, h4⟩
      refine ⟨?_, h4⟩
      simp only [Attrs.put, hw, if_true, h3]
      rw [M.bind_unit]
  · rename_i h
    refine CanonOn.pure _ fun p hp => ?_
    obtain ⟨h3, h4⟩ := h2 (by simpa using h) p hp
    refine ⟨?_, h4⟩
    unfold Attrs.put
    split
    · exact h3 (by assumption)
    · exact Writes.pure o p

theorem Attrs.read_canon {a : Attrs} {T : (Nat → Prop) → (Val → Nat → Prop) → Env → Prop}
    (native : Endian) {rd : Env → M Reader Val} {wr : Env → Val → M Writer Unit} {env : Env}
    {Q : Val → Nat → Prop} (h : a.Canon o T wr P Q env)
    (hT : ∀ P R env, T P R env → CanonOn o pk P (rd env) (wr env) R) :
    CanonOn o pk P (a.read native rd env) (a.write native wr env) Q := by
  obtain ⟨hs, ho, hm, hpb, hpa, h1, h2⟩ := h
  have hval := Attrs.value_canon (o := o) (pk := pk) (a := a) (rd := rd) (wr := wr) (env := env.at 0)
    (P := shift P (8 * a.magic.length)) (Q := Q)
    (fun hr => ⟨(h1 hr).1, (h1 hr).2.imp fun R hR => ⟨hT _ _ _ hR.1, hR.2⟩⟩) h2
  have hw : a.write native wr env = fun v => (magicWrite native a.magic >>= fun _ =>
      (a.check (env.at 0) v >>= fun _ => a.put wr (env.at 0) v)) := by
    funext v
    simp only [Attrs.write, hs, ho, seekWrite, hpb, hpa, padWrite, M.pure_bind]
    congr 1
    funext _ w
    rw [M.get_bind_run]
    simp only [Bool.false_eq_true, if_false, M.bind_unit]
  have hrd : a.read native rd env = (magicRead native a.magic >>= fun _ =>
      (a.value rd (env.at 0) >>= fun v => (a.check (env.at 0) v : M Reader Unit) >>= fun _ => Pure.pure v)) := by
    simp only [Attrs.read, hs, ho, seekRead, hpb, hpa, padRead, M.pure_bind]
    congr 1
  rw [hw, hrd]
  refine (magicRead_canon native hm).after ?_
  intro p r b r2 hp hr hpk he
  obtain ⟨v, r1, e1, e2⟩ := M.bind_eq_ok he
  obtain ⟨u, r3, e3, e4⟩ := M.bind_eq_ok e2
  simp at e4
  obtain ⟨rfl, rfl⟩ := e4
  cases u
  have hc : ∀ {τ : Type} (t : τ), a.check (env.at 0) v t = (.ok (), t) := fun t => check_ok e3 t
  rw [hc r1] at e3
  simp at e3
  subst e3
  obtain ⟨n, hn, s1, w1, q1⟩ := hval p r v r1 hp hr hpk e1
  refine ⟨n, hn, s1, ?_, q1⟩
  intro w hw
  show ∃ w', (a.check (env.at 0) v >>= fun _ => a.put wr (env.at 0) v) w = (.ok (), w') ∧ _
  rw [M.bind_ok (hc w)]
  exact w1 w hw

/-! ### lists -/

theorem arrayRead_canon {f : M Reader α} {g : α → M Writer Unit} {I : Nat → Nat → Prop}
    (hf : ∀ j, CanonOn o pk (I j) f g (fun _ => I (j + 1))) (n : Nat) : ∀ j,
    CanonOn o pk (I j) (arrayRead f n) (Coll.writeAll g) (fun vs q => vs.length = n ∧ I (j + n) q) := by
  induction n with
  | zero => exact fun j => CanonOn.pure _ fun q hq => ⟨Writes.pure o q, rfl, hq⟩
  | succ n ih =>
    intro j
    refine (hf j).bind (gk := fun _ vs => Coll.writeAll g vs.tail)
      (Q' := fun v vs q => (∃ tl, vs = v :: tl) ∧ vs.length = n + 1 ∧ I (j + (n + 1)) q) (fun v _ => ?_) ?_
    · refine (ih (j + 1)).map (fun vs => v :: vs) ?_
      rintro vs q ⟨h1, h2⟩
      exact ⟨rfl, ⟨_, rfl⟩, by simp [h1], by rw [show j + (n + 1) = j + 1 + n by omega]; exact h2⟩
    · rintro v _ q ⟨⟨tl, rfl⟩, h⟩
      exact ⟨rfl, h⟩

theorem vecLoop_canon {f : M Reader α} {g : α → M Writer Unit} {I : Nat → Nat → Prop}
    (hf : ∀ j, CanonOn o pk (I j) f g (fun _ => I (j + 1))) (pred : Nat → α → σ → Bool × σ)
    (start mem : Nat) : ∀ j s,
    CanonOn o pk (I j) (vecLoop f pred start mem s) (Coll.writeAll g) (fun vs => I (j + vs.length)) := by
  induction mem with
  | zero =>
    intro j s
    refine CanonOn.fails fun r a r' he => ?_
    simp only [vecLoop] at he
    obtain ⟨_, _, _, he⟩ := M.bind_eq_ok he
    simp at he
  | succ mem ih =>
    intro j s
    simp only [vecLoop]
    refine (hf j).bind (gk := fun _ vs => Coll.writeAll g vs.tail)
      (Q' := fun v vs q => (∃ tl, vs = v :: tl) ∧ I (j + vs.length) q) (fun v _ => ?_) ?_
    · intro p r b r2 hp hr hpk he
      rw [M.get_bind_run] at he
      by_cases hst : start ≤ r.bitsRead
      · rw [show decide (start ≤ r.bitsRead) = true by simpa using hst, M.assert_true_bind_run] at he
        split at he
        · simp at he
          obtain ⟨rfl, rfl⟩ := he
          exact ⟨0, Nat.zero_le _, Step.refl o hr.healthy hr.wf, Writes.pure o p, ⟨_, rfl⟩, hp⟩
        · refine ((ih (j + 1) _).map (fun vs => v :: vs) (g' := fun vs => Coll.writeAll g vs.tail)
            (Q := fun vs q => (∃ tl, vs = v :: tl) ∧ I (j + vs.length) q) ?_) p r b r2 hp hr hpk he
          intro vs q hq
          exact ⟨rfl, ⟨_, rfl⟩, by
            rw [List.length_cons, show j + (vs.length + 1) = j + 1 + vs.length by omega]; exact hq⟩
      · rw [show decide (start ≤ r.bitsRead) = false by simpa using hst, M.assert_false_bind_run] at he
        simp at he
    · rintro v _ q ⟨⟨tl, rfl⟩, h⟩
      exact ⟨rfl, h⟩

/-- Only states that are passed through. -/
theorem CanonOn.look {f : M Reader α} {k : Reader → M Reader α} {g : α → M Writer Unit}
    {Q : α → Nat → Prop} (hf : ∀ r, f r = k r r) (h : ∀ r, CanonOn o pk P (k r) g Q) :
    CanonOn o pk P f g Q := by
  intro p r a r' hp hr hpk he
  rw [hf] at he
  exact h r p r a r' hp hr hpk he

theorem CanonOn.assuming {f : M Reader α} {k : M Reader α} {g : α → M Writer Unit}
    {Q : α → Nat → Prop} (hf : ∀ r a r', f r = (.ok a, r') → k r = (.ok a, r'))
    (h : CanonOn o pk P k g Q) : CanonOn o pk P f g Q :=
  fun p r a r' hp hr hpk he => h p r a r' hp hr hpk (hf r a r' he)

theorem vecWithPredicate_canon {f : M Reader α} {g : α → M Writer Unit} {I : Nat → Nat → Prop}
    (hf : ∀ j, CanonOn o pk (I j) f g (fun _ => I (j + 1))) (pred : Nat → α → σ → Bool × σ)
    (mem : Nat) {size : Nat} (hs : size ≠ 0) (cap : Option Nat) (s : σ) :
    CanonOn o pk (I 0) (vecWithPredicate mem size cap f pred s) (Coll.writeAll g)
      (fun vs => I vs.length) := by
  refine CanonOn.assuming (k := do let r ← M.get; vecLoop f pred r.bitsRead mem s) ?_ ?_
  · intro r a r' he
    simp only [vecWithPredicate, if_neg hs] at he
    obtain ⟨_, r1, e1, e2⟩ := M.bind_eq_ok he
    have h1 : r1 = r := by
      cases cap with
      | none =>
        simp only [withCapacity, M.pure_run, Prod.mk.injEq, true_and] at e1
        exact e1.symm
      | some n =>
        simp only [withCapacity, M.assert] at e1
        by_cases hn : n ≤ mem
        · rw [if_pos (by simpa using hn)] at e1
          exact (congrArg Prod.snd e1).symm
        · rw [if_neg (by simpa using hn)] at e1
          simp at e1
    rw [h1] at e2
    exact e2
  · refine CanonOn.look (k := fun r => vecLoop f pred r.bitsRead mem s) (fun _ => rfl)
      fun r => ?_
    refine (vecLoop_canon hf pred _ mem 0 s).mono (fun _ h => h) fun vs q hq => ⟨rfl, ?_⟩
    rwa [Nat.zero_add] at hq

/-- The number of elements a counted list has. -/
theorem count_length {f : M Reader α} {mem size n : Nat} (hs : size ≠ 0) {r r' : Reader} {vs : List α}
    (h : vecRead (σ := σ) mem size f (.count n) r = (.ok vs, r')) : vs.length = n := by
  simp only [vecRead] at h
  split at h
  · simp at h
    rw [h.1]; simp [*]
  · rename_i hn
    simp only [vecWithPredicate, if_neg hs] at h
    obtain ⟨_, r1, _, h⟩ := M.bind_eq_ok h
    rw [M.get_bind_run] at h
    generalize r1.bitsRead = start at h
    have key : ∀ (mem k : Nat) (r : Reader) (vs : List α), k ≠ 0 →
        vecLoop f countPred start mem k r = (.ok vs, r') → vs.length = k := by
      intro mem
      induction mem with
      | zero =>
        intro k r vs hk h
        simp only [vecLoop] at h
        obtain ⟨_, _, _, h⟩ := M.bind_eq_ok h
        simp at h
      | succ mem ih =>
        intro k r vs hk h
        simp only [vecLoop] at h
        obtain ⟨v, r2, _, h⟩ := M.bind_eq_ok h
        rw [M.get_bind_run] at h
        by_cases hst : start ≤ r2.bitsRead
        · rw [show decide (start ≤ r2.bitsRead) = true by simpa using hst, M.assert_true_bind_run] at h
          by_cases h0 : k - 1 = 0
          · rw [if_pos (by simpa [countPred] using h0)] at h
            simp at h
            rw [← h.1]
            simp
            omega
          · rw [if_neg (by simpa [countPred] using h0)] at h
            obtain ⟨tl, r3, e, h⟩ := M.bind_eq_ok h
            simp at h
            rw [← h.1]
            obtain ⟨_, rfl⟩ := h
            have := ih _ _ _ h0 e
            simp; omega
        · rw [show decide (start ≤ r2.bitsRead) = false by simpa using hst, M.assert_false_bind_run] at h
          simp at h
    exact key mem n r1 vs hn h

theorem vecRead_canon {f : M Reader α} {g : α → M Writer Unit} {I : Nat → Nat → Prop}
    (hf : ∀ j, CanonOn o pk (I j) f g (fun _ => I (j + 1))) (mem : Nat) {size : Nat} (hs : size ≠ 0)
    (l : Limit α σ) (hl : l ≠ .end) :
    CanonOn o pk (I 0) (vecRead mem size f l) (Coll.writeAll g) (fun vs => I vs.length) := by
  have hp : CanonOn o pk (I 0) (Pure.pure [] : M Reader (List α)) (Coll.writeAll g) (fun vs => I vs.length) :=
    CanonOn.pure _ fun p h => ⟨Writes.pure o p, h⟩
  cases l with
  | count n =>
    simp only [vecRead]
    split
    · exact hp
    · exact vecWithPredicate_canon hf _ _ hs _ _
  | «until» p s => exact vecWithPredicate_canon hf _ _ hs _ _
  | bits n =>
    simp only [vecRead]
    split
    · exact hp
    · exact vecWithPredicate_canon hf _ _ hs _ _
  | bytes n =>
    refine CanonOn.assuming (k := if 8 * n = 0 then Pure.pure [] else
      vecWithPredicate mem size none f (sizePred (8 * n)) ()) (fun r a r' he => ?_) ?_
    · simp only [vecRead, usize] at he
      split at he
      · rw [M.pure_bind] at he
        simpa only [Nat.mul_comm] using he
      · obtain ⟨_, _, e, _⟩ := M.bind_eq_ok he
        simp at e
    · split
      · exact hp
      · exact vecWithPredicate_canon hf _ _ hs _ _
  | «end» => exact absurd rfl hl

theorem vecEndLoop_canon {f : M Reader α} {g : α → M Writer Unit} {I : Nat → Nat → Prop}
    (hf : ∀ j p, I j p → CanonOn o true (· = p) f g (fun _ q => p < q ∧ I (j + 1) q)) (mem : Nat) :
    ∀ j, CanonOn o true (I j) (vecEndLoop f mem) (Coll.writeAll g) (fun vs => I (j + vs.length)) := by
  have done : ∀ (j p : Nat) (r r1 : Reader), I j p → r.Live p → r1.Live p →
      (∀ o, r1.unread o = r.unread o) → r1.bitsRead = r.bitsRead → r1.inner.data = r.inner.data →
      r1.NoPeek → ∃ n, n ≤ (r.unread o).length ∧ Step o n r r1 ∧
        Writes o p (Coll.writeAll g []) ((r.unread o).take n) ∧ I (j + ([] : List α).length) (p + n) := by
    intro j p r r1 hp hr hl hu hb hd hnp
    refine ⟨0, Nat.zero_le _, ⟨by rw [hu]; rfl, hb, hd, hl.healthy, hl.wf, fun _ => hnp, ?_, ?_⟩,
      Writes.pure o p, hp⟩
    · have h1 := hr.sync
      have h2 := hl.sync
      simp only [Synced] at h1 h2
      omega
    · intro _; rw [← hd]; exact hl.bound
  induction mem with
  | zero =>
    intro j p r vs r' hp hr _ he
    simp only [vecEndLoop] at he
    obtain ⟨r1, e, hl, hu, hb, hd, hnp⟩ := end_live hr o
    rw [M.bind_ok e] at he
    by_cases h0 : r.unread o = []
    · simp [h0] at he
      obtain ⟨rfl, rfl⟩ := he
      exact done j p r r1 hp hr hl hu hb hd (hnp h0)
    · simp only [h0, decide_false, Bool.false_eq_true, if_false] at he
      obtain ⟨a, r2, _, he⟩ := M.bind_eq_ok he
      simp at he
  | succ mem ih =>
    intro j p r vs r' hp hr _ he
    simp only [vecEndLoop] at he
    obtain ⟨r1, e, hl, hu, hb, hd, hnp⟩ := end_live hr o
    rw [M.bind_ok e] at he
    by_cases h0 : r.unread o = []
    · simp [h0] at he
      obtain ⟨rfl, rfl⟩ := he
      exact done j p r r1 hp hr hl hu hb hd (hnp h0)
    · simp only [h0, decide_false, Bool.false_eq_true, if_false] at he
      obtain ⟨a, r2, h1, he⟩ := M.bind_eq_ok he
      obtain ⟨as, r3, h2, he⟩ := M.bind_eq_ok he
      simp at he
      obtain ⟨rfl, rfl⟩ := he
      obtain ⟨n, hn, s1, w1, hlt, hq⟩ := hf j p hp p r1 a r2 rfl hl (by simp) h1
      have hat := hl.step s1 (.inr (by omega))
      obtain ⟨n', hn', s2, w2, hI⟩ := ih (j + 1) (p + n) r2 as r3 hq hat.live (by simp) h2
      rw [s1.unread, List.length_drop] at hn'
      rw [s1.unread, hu] at w2
      rw [hu] at hn hn' w1
      have hs : Step o (n + n') r1 r3 := s1.trans s2
      have hnp3 : r3.NoPeek := s2.noPeek (.inl hat.noPeek)
      refine ⟨n + n', by omega, ⟨by rw [hs.unread, hu], by rw [hs.bitsRead, hb], hs.data.trans hd,
        hs.healthy, hs.wf, fun _ => hnp3, ?_, ?_⟩, ?_, ?_⟩
      · have h3 := hr.sync
        have h4 := hs.synced hl.sync
        simp only [Synced] at h3 h4
        omega
      · intro _; rw [← hd]; exact hs.bound hl.bound
      · rw [List.take_add]
        refine w1.bind ?_
        rw [List.length_take, Nat.min_eq_left hn]
        exact w2
      · show I (j + (as.length + 1)) (p + (n + n'))
        rw [show j + (as.length + 1) = j + 1 + as.length by omega, ← Nat.add_assoc]
        exact hI

theorem CanonOn.unpeek {f : M Reader α} {g : α → M Writer Unit} {Q : α → Nat → Prop}
    (h : CanonOn o true P f g Q) : CanonOn o pk P f g Q :=
  fun p r a r' hp hr _ he => h p r a r' hp hr (by simp) he

theorem readExact_canon (native : Endian) {n : Nat} {ctx : IntCtx} (hc : ctx.isBits = false)
    (hP : ∀ p, P p → p % 8 = 0) :
    CanonOn o false P (readExact n) (Coll.writeAll (u8Write native ctx))
      (fun bs q => bs.length = n ∧ shift P (8 * n) q) := by
  intro p r a r' hp hr hpk he
  have h8 := hP p hp
  have hat : r.At p := hr.at (hpk rfl)
  obtain ⟨bs, hb⟩ := hr.bytes h8
  by_cases hn : 8 * n ≤ (r.unread .lsb0).length
  · obtain ⟨r1, e1, s1⟩ := readExact_ok hat hn
    rw [he] at e1
    simp at e1
    obtain ⟨rfl, rfl⟩ := e1
    have hnb : n ≤ bs.length := by rw [hb, length_orderBits] at hn; omega
    have ht : ∀ o, (r.unread o).take (8 * n) = orderBits o (bs.take n) := by
      intro o; rw [hb, orderBits_take]
    refine ⟨8 * n, by rw [length_unread] at hn ⊢; exact hn, Step.switchLive hr h8 s1, ?_, ?_, p, hp, rfl⟩
    · rw [ht, ht, Prim.bytesOf_orderBits]
      exact byteList_writes native hc _ fun _ => h8
    · rw [ht, Prim.bytesOf_orderBits, List.length_take, Nat.min_eq_left hnb]
  · rw [readExact_run hr.healthy hr.bound, if_pos (by
      rw [← Nat.not_le]; exact fun h' => hn ((avail_iff hat .lsb0).1 h'))] at he
    obtain ⟨k, r1, e1, e2⟩ := M.bind_eq_ok he
    simp at e2

/-! ### definitions -/

theorem toUsize_ok {n : Int} {s s' : σ} {k : Nat} (h : toUsize n s = (.ok k, s')) :
    k = n.toNat ∧ s' = s := by
  unfold toUsize at h
  split at h
  · simp at h
    exact ⟨h.1.symm, h.2.symm⟩
  · simp at h

theorem toUsize_bind_canon {f : Nat → M Reader α} {n : Int} {g : α → M Writer Unit}
    {Q : α → Nat → Prop} (h : CanonOn o pk P (f n.toNat) g Q) :
    CanonOn o pk P (toUsize n >>= f) g Q := by
  refine CanonOn.assuming (fun r a r' he => ?_) h
  obtain ⟨k, r1, e1, e2⟩ := M.bind_eq_ok he
  obtain ⟨rfl, rfl⟩ := toUsize_ok e1
  exact e2

theorem map_toByte (bs : List Byte) : (bs.map Val.ofByte).map Val.toByte = bs := by
  induction bs with
  | nil => rfl
  | cons b bs ih => simp only [List.map_cons, ih, Val.ofByte, Val.toByte]; simp

theorem isBytes_ofList (bs : List Byte) : (Val.ofList (bs.map Val.ofByte)).isBytes = true := by
  simp only [Val.isBytes, isList_ofList, elems_ofList, Bool.true_and, List.all_map, List.all_eq_true,
    Function.comp, decide_eq_true_eq]
  intro b _
  simp [Val.ofByte, Val.toByte]

/-- What is written for the id `x`. -/
def Variants.idAt (vs : Variants) (env : Env) (id : IdSrc) (store : Env → Val → M Writer Unit)
    (x : Val) (i : Nat) : M Writer Unit :=
  if vs.storesAt i then store env x
  else match id with
    | .ctx _ => Pure.pure ()
    | .typed _ c => (c env).write x

/-- What is written after the id `x`. -/
def Variants.bodyAt (m : Machine) (env : Env) (x : Val) : Variants → Nat → Val → M Writer Unit
  | .nil, _, _ => M.panic
  | .cons a fs _, 0, v =>
    if a.idPat then match fs, v with
      | .cons _ _ tl, .cons _ xs => tl.write m (env.push x) (.cons x xs) xs
      | _, _ => M.panic
    else fs.write m env v v
  | .cons _ _ tl, i + 1, v => Variants.bodyAt m env x tl i v

/-- The value is written as the id and the rest. -/
def Variants.Body (m : Machine) (env : Env) (x : Val) (typed : Bool) (vs : Variants) (i : Nat)
    (v : Val) : Prop :=
  (typed = false → vs.storesAt i = false) ∧
  ∀ (id : IdSrc) (store : Env → Val → M Writer Unit), (∀ n c, id = .typed n c → typed = true) →
    vs.writeAt m env id store i v =
      (vs.idAt env id store x i >>= fun _ => vs.bodyAt m env x i v)

mutual

theorem Ty.canon (m : Machine) : ∀ (t : Ty) (pk : Bool) (P : Nat → Prop) (Q : Val → Nat → Prop)
    (env : Env), t.Canon m o pk P Q env → CanonOn o pk P (t.read m env) (t.write m env) Q
  | .prim _ c, pk, P, Q, env, h => by
    simp only [Ty.Canon] at h
    exact h
  | .option t, pk, P, Q, env, h => by
    simp only [Ty.Canon] at h
    simp only [Ty.read]
    exact (Ty.canon m t pk _ _ env h).map Val.some fun a q hq => ⟨rfl, hq⟩
  | .array n t, pk, P, Q, env, h => by
    simp only [Ty.Canon] at h
    simp only [Ty.read]
    obtain ⟨I, h0, hI, hQ⟩ := h
    refine CanonOn.map Val.ofList ((arrayRead_canon (fun j => Ty.canon m t pk _ _ env (hI j)) n 0).mono
      (g' := Coll.writeAll (t.write m env)) h0 fun _ _ h => ⟨rfl, h⟩) ?_
    rintro vs q ⟨h1, h2⟩
    rw [Nat.zero_add] at h2
    refine ⟨?_, hQ vs q h1 h2⟩
    simp only [Ty.write, isList_ofList, elems_ofList, h1, and_self, if_true]
  | .pair a b, pk, P, Q, env, h => by
    simp only [Ty.Canon] at h
    simp only [Ty.read]
    obtain ⟨R, ha, hb⟩ := h
    refine (Ty.canon m a pk _ _ env ha).bind (Q' := fun x v q => (∃ y, v = .cons x (.cons y .nil)) ∧ Q v q)
      (gk := fun _ v => match v with | .cons _ (.cons y .nil) => b.write m env y | _ => M.panic)
      (fun x _ => ?_) ?_
    · exact (Ty.canon m b pk _ _ env (hb x)).map (fun y => Val.cons x (.cons y .nil)) fun y q hq =>
        ⟨rfl, ⟨y, rfl⟩, hq⟩
    · rintro x _ q ⟨⟨y, rfl⟩, hq⟩
      exact ⟨rfl, hq⟩
  | .vec size l t, pk, P, Q, env, h => by
    simp only [Ty.Canon] at h
    simp only [Ty.read]
    obtain ⟨hs, I, h0, hI, hQ⟩ := h
    have hw : ∀ vs, (Ty.vec size l t).write m env (.ofList vs) = Coll.writeAll (t.write m env) vs := by
      intro vs
      simp only [Ty.write, isList_ofList, elems_ofList, if_true]
    have hv : (∀ j, t.Canon m o pk (I j) (fun _ => I (j + 1)) env) → ∀ lim, lim ≠ .end →
        CanonOn o pk P (vecRead (σ := List Val) m.mem size (t.read m env) lim) (Coll.writeAll (t.write m env))
          (fun vs => I vs.length) := fun hI lim hl =>
      (vecRead_canon (fun j => Ty.canon m t pk _ _ env (hI j)) m.mem hs lim hl).mono h0
        fun _ _ h => ⟨rfl, h⟩
    cases l with
    | count n =>
      simp only [LimitE.eval, M.bind_assoc, M.pure_bind]
      refine toUsize_bind_canon ?_
      refine CanonOn.map (R := fun vs q => vs.length = (n env).toNat ∧ I vs.length q) Val.ofList ?_
        fun vs q hq => ⟨hw vs, hQ vs q (by simpa only [LimitE.Met] using hq.1) hq.2⟩
      intro p r vs r' hp hr hpk he
      obtain ⟨k, hk, s1, w1, q1⟩ := hv hI (.count (n env).toNat) (by simp) p r vs r' hp hr hpk he
      exact ⟨k, hk, s1, w1, count_length hs he, q1⟩
    | «until» p =>
      simp only [LimitE.eval, M.pure_bind]
      exact (hv hI _ (by simp)).map Val.ofList fun vs q hq => ⟨hw vs, hQ vs q trivial hq⟩
    | bits n =>
      simp only [LimitE.eval, M.bind_assoc, M.pure_bind]
      refine toUsize_bind_canon ?_
      exact (hv hI _ (by simp)).map Val.ofList fun vs q hq => ⟨hw vs, hQ vs q trivial hq⟩
    | bytes n =>
      simp only [LimitE.eval, M.bind_assoc, M.pure_bind]
      refine toUsize_bind_canon ?_
      exact (hv hI _ (by simp)).map Val.ofList fun vs q hq => ⟨hw vs, hQ vs q trivial hq⟩
    | «end» =>
      simp only [LimitE.eval, M.pure_bind, vecRead, vecToEnd, if_neg hs]
      have hend := (vecEndLoop_canon (fun j p hp => Ty.canon m t true _ _ env (hI j p hp)) m.mem 0).mono
        (g' := Coll.writeAll (t.write m env)) (Q' := fun vs => I vs.length) h0 fun vs q h =>
          ⟨rfl, by rwa [Nat.zero_add] at h⟩
      exact hend.unpeek.map Val.ofList fun vs q hq => ⟨hw vs, hQ vs q trivial hq⟩
  | .bytes n ctx, pk, P, Q, env, h => by
    simp only [Ty.Canon] at h
    simp only [Ty.read]
    obtain ⟨rfl, hc, hP, hQ⟩ := h
    refine toUsize_bind_canon ?_
    refine CanonOn.map (fun bs : List Byte => Val.ofList (bs.map Val.ofByte))
      (readExact_canon m.native hc hP) ?_
    rintro bs q ⟨h1, p, hp, rfl⟩
    refine ⟨?_, ?_⟩
    · simp only [Ty.write, isBytes_ofList, if_true, elems_ofList, map_toByte]
    · rw [← h1]; exact hQ p bs hp h1
  | .struct args sk magic fs, pk, P, Q, env, h => by
    simp only [Ty.Canon] at h
    obtain ⟨rfl, hm, hf⟩ := h
    simp only [Ty.read, seekRead, M.pure_bind]
    have h1 := (magicRead_canon (pk := pk) m.native hm).after (k := fun _ => fs.read m { ctx := args env })
      (Fields.canon m fs pk _ _ _ _ hf)
    refine h1.mono (fun _ h => h) fun v q hq => ⟨?_, hq⟩
    simp only [Ty.write, seekWrite, M.pure_bind, id]
  | .enum args magic id store vs, pk, P, Q, env, h => by
    simp only [Ty.Canon] at h
    obtain ⟨hm, h⟩ := h
    simp only [Ty.read]
    cases id with
    | ctx e =>
      have h1 : CanonOn o pk (shift P (8 * magic.length))
          (dispatch (vs.select { ctx := args env } (e { ctx := args env }))
            (vs.readAt m { ctx := args env } (e { ctx := args env }) false))
          (fun v => match v with
            | .variant i fs => vs.writeAt m { ctx := args env } (.ctx e) (store i) i fs
            | _ => M.panic) (fun v q => (∃ i fs, v = .variant i fs) ∧ Q v q) := by
        cases hsel : vs.select { ctx := args env } (e { ctx := args env }) with
        | none => exact CanonOn.throw _
        | some i =>
          refine (Variants.canon m vs pk _ _ _ _ _ i (h i hsel)).map (Val.variant i) ?_
          rintro fs q ⟨hq, hs, hb⟩
          refine ⟨?_, ⟨i, fs, rfl⟩, hq⟩
          show vs.writeAt m { ctx := args env } (.ctx e) (store i) i fs = _
          rw [hb (.ctx e) (store i) (by simp)]
          simp only [Variants.idAt, hs rfl, Bool.false_eq_true, if_false, M.pure_bind]
      refine ((magicRead_canon m.native hm).after (k := fun _ => _) h1).mono (fun _ h => h) ?_
      rintro _ q ⟨⟨i, fs, rfl⟩, hq⟩
      exact ⟨rfl, hq⟩
    | typed n c =>
      obtain ⟨R, hc, h⟩ := h
      have h1 : CanonOn o pk (shift P (8 * magic.length))
          ((c { ctx := args env }).read >>= fun x => dispatch (vs.select { ctx := args env } x)
            (vs.readAt m { ctx := args env } x true))
          (fun v => match v with
            | .variant i fs => vs.writeAt m { ctx := args env } (.typed n c) (store i) i fs
            | _ => M.panic) (fun v q => (∃ i fs, v = .variant i fs) ∧ Q v q) := by
        refine hc.bind (gk := fun x v => match v with
            | .variant i fs => vs.bodyAt m { ctx := args env } x i fs
            | _ => M.panic)
          (Q' := fun x v q => ∃ i fs, v = .variant i fs ∧ vs.select { ctx := args env } x = some i ∧
            vs.Body m { ctx := args env } x true i fs ∧ Q v q) (fun x hx => ?_) ?_
        · cases hsel : vs.select { ctx := args env } x with
          | none => exact CanonOn.throw _
          | some i =>
            refine (Variants.canon m vs pk _ _ _ _ _ i (h x hx i hsel)).map (Val.variant i) ?_
            rintro fs q ⟨hq, hb⟩
            exact ⟨rfl, i, fs, rfl, rfl, hb, hq⟩
        · rintro x _ q ⟨i, fs, rfl, hsel, hb, hq⟩
          refine ⟨?_, ⟨i, fs, rfl⟩, hq⟩
          show vs.writeAt m { ctx := args env } (.typed n c) (store i) i fs = _
          rw [hb.2 (.typed n c) (store i) (fun _ _ _ => rfl)]
          simp only [Variants.idAt, hsel]
      refine ((magicRead_canon m.native hm).after (k := fun _ => _) h1).mono (fun _ h => h) ?_
      rintro _ q ⟨⟨i, fs, rfl⟩, hq⟩
      exact ⟨rfl, hq⟩

theorem Fields.canon (m : Machine) : ∀ (fs : Fields) (pk : Bool) (P : Nat → Prop)
    (Q : Val → Nat → Prop) (env : Env) (whole : Val → Val), fs.Canon m o pk P Q env whole →
    CanonOn o pk P (fs.read m env) (fun v => fs.write m env (whole v) v) Q
  | .nil, pk, P, Q, env, whole, h => by
    simp only [Fields.Canon] at h
    simp only [Fields.read]
    exact CanonOn.pure _ fun p hp => ⟨by simp only [Fields.write, if_true]; exact Writes.pure o p, h p hp⟩
  | .cons a t tl, pk, P, Q, env, whole, h => by
    simp only [Fields.Canon] at h
    simp only [Fields.read]
    obtain ⟨R, ha, hr⟩ := h
    refine (Attrs.read_canon m.native ha (fun P R env h => Ty.canon m t pk P R env h)).bind
      (Q' := fun x v q => (∃ xs, v = .cons x xs) ∧ Q v q)
      (gk := fun x v => match v with
        | .cons _ xs => tl.write m (env.push x) (whole (.cons x xs)) xs
        | _ => M.panic) (fun x hx => ?_) ?_
    · exact (Fields.canon m tl pk _ _ _ _ (hr x hx)).map (Val.cons x) fun xs q hq => ⟨rfl, ⟨xs, rfl⟩, hq⟩
    · rintro x _ q ⟨⟨xs, rfl⟩, hq⟩
      exact ⟨rfl, hq⟩
  | .temp a t value tl, pk, P, Q, env, whole, h => by
    cases value with
    | none => exact h.elim
    | some f =>
      simp only [Fields.Canon] at h
      simp only [Fields.read]
      obtain ⟨R, ha, hr⟩ := h
      refine (Attrs.read_canon m.native ha (fun P R env h => Ty.canon m t pk P R env h)).bind
        (Q' := fun x xs q => f (whole xs) = x ∧ Q xs q)
        (gk := fun x xs => tl.write m (env.push x) (whole xs) xs) (fun x hx => ?_) ?_
      · exact Fields.canon m tl pk _ _ _ _ (hr x hx)
      · rintro x xs q ⟨rfl, hq⟩
        exact ⟨rfl, hq⟩

theorem Variants.canon (m : Machine) : ∀ (vs : Variants) (pk : Bool) (P : Nat → Prop)
    (Q : Val → Nat → Prop) (env : Env) (x : Val) (typed : Bool) (i : Nat),
    vs.CanonAt m o i pk P Q env x typed →
    CanonOn o pk P (vs.readAt m env x typed i) (vs.bodyAt m env x i)
      (fun v q => Q v q ∧ vs.Body m env x typed i v)
  | .nil, pk, P, Q, env, x, typed, i, h => by
    simp only [Variants.readAt]
    exact CanonOn.panic
  | .cons a fs tl, pk, P, Q, env, x, typed, 0, h => by
    simp only [Variants.CanonAt] at h
    simp only [Variants.readAt]
    split at h
    · rename_i hp
      obtain ⟨rfl, hid, h⟩ := h
      simp only [hp, Bool.and_self, if_true]
      cases fs with
      | nil => exact h.elim
      | temp a t value fs => exact h.elim
      | cons a' t fs =>
        simp only [Fields.CanonStored] at h
        simp only [Fields.readStored]
        refine (Fields.canon m fs pk _ _ _ _ h).map (Val.cons x) fun xs q hq => ⟨?_, hq, ?_⟩
        · simp only [Variants.bodyAt, hp, if_true]
        · refine ⟨by simp, fun id store _ => ?_⟩
          simp only [Variants.writeAt, hid, hp, if_true, Variants.idAt, Variants.bodyAt,
            Fields.writeStored, Variants.storesAt]
    · rename_i hp
      obtain ⟨hid, h⟩ := h
      simp only [hp, Bool.false_and, Bool.false_eq_true, if_false]
      refine (Fields.canon m fs pk _ _ _ _ h).mono (fun _ h => h) fun v q hq => ⟨?_, hq, ?_⟩
      · simp only [Variants.bodyAt, hp, Bool.false_eq_true, if_false, id]
      · refine ⟨fun _ => by simpa [Variants.storesAt] using hp, fun id store hty => ?_⟩
        simp only [Variants.writeAt, hp, Bool.false_eq_true, if_false, Variants.idAt, Variants.bodyAt,
          Variants.storesAt]
        cases id with
        | ctx e => rfl
        | typed n c => rw [hid (hty n c rfl)]
  | .cons a fs tl, pk, P, Q, env, x, typed, i + 1, h => by
    simp only [Variants.CanonAt] at h
    simp only [Variants.readAt]
    exact (Variants.canon m tl pk P Q env x typed i h).mono (fun _ h => h) fun v q hq => ⟨rfl, hq⟩

end

end Deku
