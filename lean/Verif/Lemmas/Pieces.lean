import Verif.Spec.Format
import Verif.Lemmas.Switch
import Verif.Lemmas.CString

/-! # Pieces of derived code: magic, padding, assertions, sequences -/

namespace Deku

open Reader Writer Coll

variable {α β σ : Type} {o : Order} {p : Nat}

/-! ### whole bytes in either order -/

/-- Whole bytes consumed at a byte boundary are the same in both bit orders. -/
theorem Step.switch {o o' : Order} {k : Nat} {r r' : Reader} (hr : r.At p) (hp : p % 8 = 0)
    (hs : Step o (8 * k) r r') : Step o' (8 * k) r r' := by
  have h0 : r.At 0 := hr.congr hp
  have h1 : r'.At 0 := (hr.step hs).congr (by omega)
  refine ⟨?_, hs.bitsRead, hs.data, hs.healthy, hs.wf, hs.noPeek, hs.sync, hs.bound⟩
  have h2 := hs.sync
  rw [h0.aligned, h1.aligned] at h2
  have h3 := hs.bitsRead
  simp at h2
  rw [h1.unread_aligned, h0.unread_aligned, hs.data,
    show r'.inner.pos = r.inner.pos + k by omega, ← List.drop_drop]
  generalize List.drop r.inner.pos r.inner.data = d
  by_cases hk : k ≤ d.length
  · have h4 : orderBits o' d = orderBits o' (d.take k) ++ orderBits o' (d.drop k) := by
      rw [← orderBits_append, List.take_append_drop]
    have h5 : 8 * k = (orderBits o' (d.take k)).length := by
      rw [length_orderBits, List.length_take, Nat.min_eq_left hk]
    rw [h4, h5, List.drop_left]
  · rw [List.drop_of_length_le (show d.length ≤ k by omega),
      List.drop_of_length_le (by rw [length_orderBits]; omega)]
    cases o' <;> rfl

theorem Reads.switch {o o' : Order} {f : M Reader α} {bs : List Byte} {a : α} (hp : p % 8 = 0)
    (h : Reads o p f (orderBits o bs) a) : Reads o' p f (orderBits o' bs) a := by
  intro r rest hr hu
  have h0 : r.At 0 := hr.congr hp
  rw [h0.unread_aligned] at hu
  have hlen : bs.length ≤ (r.inner.data.drop r.inner.pos).length := by
    have := congrArg List.length hu
    rw [length_orderBits, List.length_append, length_orderBits] at this
    omega
  have hd : r.inner.data.drop r.inner.pos = bs ++ (r.inner.data.drop r.inner.pos).drop bs.length := by
    generalize r.inner.data.drop r.inner.pos = d at hu hlen
    have h1 : d.take bs.length ++ d.drop bs.length = d := List.take_append_drop ..
    rw [← h1, orderBits_append] at hu
    have h2 := (List.append_inj hu (by rw [length_orderBits, length_orderBits, List.length_take]; omega)).1
    have h3 := orderBits_inj o' h2
    rw [h3] at h1
    exact h1.symm
  obtain ⟨r', e, s⟩ := h r (orderBits o ((r.inner.data.drop r.inner.pos).drop bs.length)) hr
    (by rw [h0.unread_aligned, ← orderBits_append, ← hd])
  rw [length_orderBits] at s ⊢
  exact ⟨r', e, Step.switch hr hp s⟩

/-! ### bytes -/

theorem u8Write_bytes (native : Endian) {ctx : IntCtx} (h : ctx.isBits = false) (b : Byte) :
    u8Write native ctx b = Writer.writeBytes [b] := by
  have h1 : toLE 1 b.toNat = [b] := by simp [toLE]
  have h2 : ∀ e, endianBytes 1 e b.toNat = [b] := by intro e; cases e <;> simp [endianBytes, toBE, toLE]
  cases ctx <;> simp [IntCtx.isBits] at h <;>
    simp [u8Write, Prim.writeUnsigned, Prim.writeWhole, Prim.writeUBytes, Prim.writeU8Bytes, h1, h2]

theorem byteList_writes (native : Endian) {ctx : IntCtx} (h : ctx.isBits = false) (bs : List Byte)
    {p : Nat} (hp : o = .lsb0 → p % 8 = 0) :
    Writes o p (Coll.writeAll (u8Write native ctx) bs) (orderBits o bs) := by
  induction bs generalizing p with
  | nil =>
    have : orderBits o ([] : List Byte) = [] := by cases o <;> rfl
    rw [this]; exact Writes.pure o p
  | cons b bs ih =>
    rw [show b :: bs = [b] ++ bs from rfl, orderBits_append]
    refine Writes.bind ?_ (ih ?_)
    · rw [u8Write_bytes native h]; exact writeBytes_writes [b] hp
    · intro ho; have := hp ho; rw [length_orderBits]; simp; omega

theorem readExact_reads (hp : p % 8 = 0) (bs : List Byte) :
    Reads o p (readExact bs.length) (orderBits o bs) bs := by
  refine Reads.switch (o := .lsb0) hp ?_
  intro r rest hr hu
  have hl : (orderBits .lsb0 bs).length = 8 * bs.length := length_orderBits _ _
  obtain ⟨r', e, s⟩ := readExact_ok (n := bs.length) hr (by rw [hu, List.length_append, hl]; omega)
  rw [hu, ← hl, List.take_left, Prim.bytesOf_orderBits] at e
  exact ⟨r', e, by rw [hl]; exact s⟩

/-! ### magic -/

theorem magicRead_msb (native : Endian) (bs : List Byte) (p : Nat) :
    Reads .msb0 p (magicRead native bs) (bytesBits bs) () := by
  induction bs generalizing p with
  | nil => exact Reads.pure _ _ _
  | cons b bs ih =>
    have h := (u8Read_delivers native).reads (bits := byteBits b) (by simp) p
    rw [show byteOf (present .msb0 (byteBits b)) = b from byteOf_byteBits b] at h
    refine h.bind (x := byteBits b) (y := bytesBits bs) ?_
    simp only [ne_eq, not_true_eq_false, if_false]
    exact ih _

theorem magicRead_reads (native : Endian) (bs : List Byte) (hp : o = .lsb0 → p % 8 = 0) :
    Reads o p (magicRead native bs) (orderBits o bs) () := by
  cases o
  · exact magicRead_msb native bs p
  · exact Reads.switch (o := .msb0) (hp rfl) (magicRead_msb native bs p)

theorem magicWrite_writes (native : Endian) (bs : List Byte) (hp : o = .lsb0 → p % 8 = 0) :
    Writes o p (magicWrite native bs) (orderBits o bs) := byteList_writes native rfl bs hp

/-! ### padding -/

theorem skipBits_reads (p : Nat) (bits : List Bool) :
    Reads o p (skipBits bits.length o) bits () := by
  intro r rest hr hu
  exact skip_step hr.healthy hr.wf hr.noPeek hr.sync (by rw [hu]; simp)

theorem present_replicate (n : Nat) : present o (List.replicate n false) = List.replicate n false := by
  cases o
  · rfl
  · simp [present]

theorem padLoop_writes {fuel n : Nat} (h : n ≤ fuel) (p : Nat) :
    Writes o p (padLoop o fuel n) (List.replicate n false) := by
  induction fuel generalizing n p with
  | zero =>
    obtain rfl : n = 0 := by omega
    exact Writes.pure o p
  | succ fuel ih =>
    simp only [padLoop]
    by_cases h0 : n = 0
    · subst h0; exact Writes.pure o p
    · rw [if_neg h0]
      have h1 := zeros_writes (o := o) p (min padChunk n)
      have hc : 1 ≤ padChunk := by decide
      have h2 := h1.bind (ih (n := n - min padChunk n) (by omega) _)
      rw [List.replicate_append_replicate, show min padChunk n + (n - min padChunk n) = n by omega] at h2
      exact h2

theorem padSize_ok {n : Int} {s s' : σ} {k : Nat} (h : padSize n s = (.ok k, s')) :
    k = n.toNat ∧ s' = s ∧ ∀ {τ : Type} (t : τ), padSize n t = (.ok k, t) := by
  unfold padSize at h ⊢
  by_cases hn : 0 ≤ n ∧ n < 2 ^ 64
  · rw [if_pos hn] at h
    simp at h
    refine ⟨h.1.symm, h.2.symm, fun t => ?_⟩
    rw [if_pos hn, ← h.1]; rfl
  · rw [if_neg hn] at h; simp at h

/-- A padding that is accepted by the writer. -/
theorem pad_sound {order : Option Order} {pad : Option (Env → Int)} {env : Env}
    (hs : PadSafe o order pad) (P : Nat → Prop) :
    SoundOn o P (padRead order pad env) (padWrite order pad env) () (shift P (padBits pad env)) := by
  intro p w w' hP hw he
  cases pad with
  | none => exact ⟨[], Writes.pure o p, Reads.pure o p (), p, hP, by simp [padBits]⟩
  | some f =>
    rcases hs with h | ho
    · simp at h
    · simp only [padWrite] at he
      obtain ⟨k, w1, e1, e2⟩ := M.bind_eq_ok he
      obtain ⟨hk, _, hall⟩ := padSize_ok e1
      refine ⟨List.replicate k false, ?_, ?_, p, hP, by simp [padBits, hk]⟩
      · intro w hw
        simp only [padWrite]
        rw [M.bind_ok (hall w), ho]
        exact padLoop_writes (Nat.le_refl _) p w hw
      · intro r rest hr hu
        simp only [padRead]
        rw [M.bind_ok (hall r), ho]
        have := skipBits_reads (o := o) p (List.replicate k false) r rest hr hu
        rwa [List.length_replicate] at this ⊢

/-! ### the law -/

theorem SoundOn.mono {P P' Q Q' : Nat → Prop} {f : M Reader α} {g : M Writer Unit} {v : α}
    (h : SoundOn o P f g v Q) (hP : ∀ p, P' p → P p) (hQ : ∀ p, Q p → Q' p) :
    SoundOn o P' f g v Q' := by
  intro p w w' hp hw he
  obtain ⟨bits, h1, h2, h3⟩ := h p w w' (hP p hp) hw he
  exact ⟨bits, h1, h2, hQ _ h3⟩

theorem SoundOn.pure {P : Nat → Prop} (v : α) :
    SoundOn o P (Pure.pure v : M Reader α) (Pure.pure ()) v P :=
  fun p _ _ hp _ _ => ⟨[], Writes.pure o p, Reads.pure o p v, hp⟩

theorem SoundOn.bind {P R Q : Nat → Prop} {f : M Reader α} {g : M Writer Unit} {v : α}
    {f' : α → M Reader β} {g' : M Writer Unit} {v' : β} (h : SoundOn o P f g v R)
    (h' : SoundOn o R (f' v) g' v' Q) : SoundOn o P (f >>= f') (g >>= fun _ => g') v' Q := by
  intro p w w2 hp hw he
  obtain ⟨u, w1, e1, e2⟩ := M.bind_eq_ok he
  obtain ⟨x, hW, hR, hr⟩ := h p w w1 hp hw e1
  obtain ⟨_, hw1⟩ := hW.run hw e1
  obtain ⟨y, hW', hR', hq⟩ := h' _ w1 w2 hr hw1 e2
  exact ⟨x ++ y, hW.bind hW', hR.bind hR', by rw [List.length_append, ← Nat.add_assoc]; exact hq⟩

theorem SoundOn.mapRead {P Q : Nat → Prop} {f : M Reader α} {g : M Writer Unit} {v : α}
    (h : SoundOn o P f g v Q) (k : α → β) :
    SoundOn o P (f >>= fun a => Pure.pure (k a)) g (k v) Q := by
  intro p w w' hp hw he
  obtain ⟨x, hW, hR, hq⟩ := h p w w' hp hw he
  exact ⟨x, hW, hR.map k, hq⟩

/-- The writer only goes on if a check passes, which the reader makes as well. -/
theorem SoundOn.guard {P Q : Nat → Prop} {f : M Reader α} {g : M Writer Unit} {v : α}
    {cr : M Reader Unit} {cw : M Writer Unit} (h : SoundOn o P f g v Q)
    (hc : ∀ w w', cw w = (.ok (), w') → (∀ w, cw w = (.ok (), w)) ∧ ∀ r, cr r = (.ok (), r)) :
    SoundOn o P (f >>= fun a => cr >>= fun _ => Pure.pure a) (cw >>= fun _ => g) v Q := by
  intro p w w' hp hw he
  obtain ⟨u, w1, e1, e2⟩ := M.bind_eq_ok he
  obtain ⟨hcw, hcr⟩ := hc _ _ e1
  have : w1 = w := by have := hcw w; rw [e1] at this; simpa using this
  subst this
  obtain ⟨x, hW, hR, hq⟩ := h p w1 w' hp hw e2
  refine ⟨x, fun w hw => ?_, fun r rest hr hu => ?_, hq⟩
  · rw [M.bind_ok (hcw w)]; exact hW w hw
  · obtain ⟨r', e, s⟩ := hR r rest hr hu
    refine ⟨r', ?_, s⟩
    rw [M.bind_ok e, M.bind_ok (hcr r')]
    rfl

theorem check_ok {a : Attrs} {env : Env} {v : Val} {s s' : σ} (h : a.check env v s = (.ok (), s')) :
    ∀ {τ : Type} (t : τ), a.check env v t = (.ok (), t) := by
  intro τ t
  unfold Attrs.check at h ⊢
  by_cases ha : a.assert env v = false
  · rw [if_pos ha] at h; simp at h
  · rw [if_neg ha] at h ⊢
    cases hq : a.assertEq env with
    | none => rfl
    | some x =>
      rw [hq] at h
      simp only at h ⊢
      by_cases hx : v ≠ x
      · rw [if_pos hx] at h; simp at h
      · rw [if_neg hx]; rfl

/-! ### lists -/

/-- The elements of a list with their bits. -/
def Pieces (o : Order) (f : M Reader α) (P : Nat → Prop) (g : α → M Writer Unit) :
    Nat → List (List Bool) → List α → Prop
  | _, [], [] => True
  | p, x :: xs, v :: vs => P p ∧ Reads o p f x v ∧ Writes o p (g v) x ∧
      Pieces o f P g (p + x.length) xs vs
  | _, _, _ => False

theorem writeAll_pieces {P : Nat → Prop} {f : M Reader α} {g : α → M Writer Unit} {vs : List α}
    (h : ∀ v ∈ vs, SoundOn o P f (g v) v P) {w w' : Writer} (hp : P p) (hw : w.At o p)
    (he : Coll.writeAll g vs w = (.ok (), w')) :
    ∃ xs, Pieces o f P g p xs vs ∧ P (p + xs.flatten.length) := by
  induction vs generalizing p w with
  | nil => exact ⟨[], trivial, hp⟩
  | cons v vs ih =>
    simp only [Coll.writeAll] at he
    obtain ⟨u, w1, e1, e2⟩ := M.bind_eq_ok he
    obtain ⟨x, hW, hR, hp1⟩ := h v List.mem_cons_self p w w1 hp hw e1
    obtain ⟨_, hw1⟩ := hW.run hw e1
    obtain ⟨xs, hL, hp2⟩ := ih (fun v hv => h v (List.mem_cons_of_mem _ hv)) hp1 hw1 e2
    refine ⟨x :: xs, ⟨hp, hR, hW, hL⟩, ?_⟩
    rw [List.flatten_cons, List.length_append, ← Nat.add_assoc]
    exact hp2

theorem Pieces.writes {P : Nat → Prop} {f : M Reader α} {g : α → M Writer Unit}
    {xs : List (List Bool)} {vs : List α} (h : Pieces o f P g p xs vs) :
    Writes o p (Coll.writeAll g vs) xs.flatten := by
  induction vs generalizing p xs with
  | nil =>
    cases xs with
    | nil => exact Writes.pure o p
    | cons _ _ => exact h.elim
  | cons v vs ih =>
    cases xs with
    | nil => exact h.elim
    | cons x xs =>
      obtain ⟨_, _, hW, hL⟩ := h
      exact hW.bind (ih hL)

/-- Reading the pieces. -/
theorem Pieces.trace {P : Nat → Prop} {f : M Reader α} {g : α → M Writer Unit}
    {xs : List (List Bool)} {vs : List α} (h : Pieces o f P g p xs vs) {r : Reader} {rest : List Bool}
    (hr : r.At p) (hu : r.unread o = xs.flatten ++ rest) :
    ∃ t r', Trace f r t r' ∧ t.map Prod.fst = vs ∧ Step o xs.flatten.length r r' ∧
      (∀ x ∈ t, r.bitsRead ≤ x.2) ∧
      ((∀ x ∈ xs, x ≠ []) → ∀ start n, start ≤ r.bitsRead → vs ≠ [] →
        r.bitsRead + xs.flatten.length = start + n → StopsAt (sizePred n) start () t) := by
  induction vs generalizing p xs r with
  | nil =>
    cases xs with
    | nil => exact ⟨[], r, .nil r, rfl, Step.refl o hr.healthy hr.wf, by simp, by simp⟩
    | cons _ _ => exact h.elim
  | cons v vs ih =>
    cases xs with
    | nil => exact h.elim
    | cons x xs =>
      obtain ⟨_, hR, _, hL⟩ := h
      rw [List.flatten_cons, List.append_assoc] at hu
      obtain ⟨r1, e1, s1⟩ := hR r _ hr hu
      obtain ⟨t, r', ht, hm, hs, hb, hz⟩ := ih hL (hr.step s1) (by rw [s1.unread, hu, List.drop_left])
      have hbr := s1.bitsRead
      refine ⟨_, r', .cons e1 ht, by simp [hm], ?_, ?_, ?_⟩
      · rw [List.flatten_cons, List.length_append]; exact s1.trans hs
      · intro y hy
        rcases List.mem_cons.1 hy with rfl | hy
        · show r.bitsRead ≤ r1.bitsRead; omega
        · have := hb y hy; omega
      · intro hne start n hst _ hn
        rw [List.flatten_cons, List.length_append] at hn
        have hx : 0 < x.length := List.length_pos_iff.2 (hne x List.mem_cons_self)
        rw [StopsAt.cons_iff]
        refine ⟨by omega, ?_⟩
        cases vs with
        | nil =>
          cases xs with
          | cons _ _ => exact hL.elim
          | nil =>
            have : t = [] := by simpa using hm
            subst this
            simp at hn
            rw [if_pos (by simp [sizePred]; omega)]
        | cons v' vs =>
          have hpos : 0 < xs.flatten.length := by
            cases xs with
            | nil => exact hL.elim
            | cons y ys =>
              have := List.length_pos_iff.2 (hne y (by simp))
              rw [List.flatten_cons, List.length_append]; omega
          rw [if_neg (by simp [sizePred]; omega)]
          exact hz (fun y hy => hne y (List.mem_cons_of_mem _ hy)) start n (by omega) (by simp) (by omega)

theorem Pieces.nonempty {P : Nat → Prop} {f : M Reader α} {g : α → M Writer Unit}
    {xs : List (List Bool)} {vs : List α} (h : Pieces o f P g p xs vs)
    (hne : ∀ v ∈ vs, ∀ p bits, P p → Writes o p (g v) bits → bits ≠ []) : ∀ x ∈ xs, x ≠ [] := by
  induction vs generalizing p xs with
  | nil =>
    cases xs with
    | nil => simp
    | cons _ _ => exact h.elim
  | cons v vs ih =>
    cases xs with
    | nil => exact h.elim
    | cons x xs =>
      obtain ⟨hp, _, hW, hL⟩ := h
      intro y hy
      rcases List.mem_cons.1 hy with rfl | hy
      · exact hne v List.mem_cons_self _ _ hp hW
      · exact ih hL (fun v hv => hne v (List.mem_cons_of_mem _ hv)) y hy

theorem arrayRead_eq (f : M Reader α) (n : Nat) : arrayRead f n = readN f n := by
  induction n with
  | zero => rfl
  | succ n ih => simp only [arrayRead, readN, ih]

theorem stopsAt_count {start n : Nat} {t : List (α × Nat)} (h : ∀ x ∈ t, start ≤ x.2)
    (hn : t.length = n) (h0 : n ≠ 0) : StopsAt countPred start n t := by
  induction t generalizing n with
  | nil => simp at hn; omega
  | cons x t ih =>
    obtain ⟨v, b⟩ := x
    rw [StopsAt.cons_iff]
    refine ⟨h (v, b) List.mem_cons_self, ?_⟩
    simp at hn
    cases t with
    | nil => simp at hn; rw [if_pos (by simp [countPred]; omega)]
    | cons y t =>
      simp at hn
      rw [if_neg (by simp [countPred]; omega)]
      exact ih (fun x hx => h x (List.mem_cons_of_mem _ hx)) (by simp [countPred]; omega) (by simp only [countPred]; omega)

end Deku
