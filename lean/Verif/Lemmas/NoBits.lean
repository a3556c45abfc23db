import Verif.Spec.NoBits
import Verif.Lemmas.Chain
import Verif.Lemmas.Writer

/-! # Reading and writing without feature `bits` -/

namespace Deku

variable {α β σ : Type} {seeks peek : Bool}

/-! ## The parametrised functions are those of `Model.Derive` -/

theorem Attrs.readP_eq (a : Attrs) (native : Endian) (rd : Env → M Reader Val) (env : Env) :
    a.readP withBits native rd env = a.read native rd env := rfl

theorem Attrs.writeP_eq (a : Attrs) (native : Endian) (wr : Env → Val → M Writer Unit) (env : Env) (v : Val) :
    a.writeP withBits native wr env v = a.write native wr env v := rfl

mutual

theorem Ty.readP_eq (m : Machine) : (t : Ty) → t.readP withBits m = t.read m
  | .prim _ c => by funext env; simp only [Ty.readP, Ty.read]
  | .option t => by funext env; simp only [Ty.readP, Ty.read, Ty.readP_eq m t]
  | .array n t => by funext env; simp only [Ty.readP, Ty.read, Ty.readP_eq m t]
  | .pair a b => by funext env; simp only [Ty.readP, Ty.read, Ty.readP_eq m a, Ty.readP_eq m b]
  | .vec size l t => by funext env; simp only [Ty.readP, Ty.read, Ty.readP_eq m t]
  | .bytes n c => by funext env; simp only [Ty.readP, Ty.read]
  | .struct args seek magic fs => by funext env; simp only [Ty.readP, Ty.read, Fields.readP_eq m fs]
  | .enum args magic id store vs => by
    funext env
    simp only [Ty.readP, Ty.read, Variants.readAtP_eq m vs]
    rfl

theorem Fields.readP_eq (m : Machine) : (fs : Fields) → fs.readP withBits m = fs.read m
  | .nil => by funext env; simp only [Fields.readP, Fields.read]
  | .cons a t tl => by
    funext env; simp only [Fields.readP, Fields.read, Ty.readP_eq m t, Fields.readP_eq m tl, Attrs.readP_eq]
  | .temp a t _ tl => by
    funext env; simp only [Fields.readP, Fields.read, Ty.readP_eq m t, Fields.readP_eq m tl, Attrs.readP_eq]

theorem Fields.readStoredP_eq (m : Machine) : (fs : Fields) → fs.readStoredP withBits m = fs.readStored m
  | .nil => by funext env x; simp only [Fields.readStoredP, Fields.readStored]
  | .cons a t tl => by funext env x; simp only [Fields.readStoredP, Fields.readStored, Fields.readP_eq m tl]
  | .temp a t _ tl => by funext env x; simp only [Fields.readStoredP, Fields.readStored, Fields.readP_eq m tl]

theorem Variants.readAtP_eq (m : Machine) : (vs : Variants) → vs.readAtP withBits m = vs.readAt m
  | .nil => by funext env x b i; simp only [Variants.readAtP, Variants.readAt]
  | .cons a fs tl => by
    funext env x b i
    cases i
    · simp only [Variants.readAtP, Variants.readAt, Fields.readP_eq m fs, Fields.readStoredP_eq m fs]
    · simp only [Variants.readAtP, Variants.readAt, Variants.readAtP_eq m tl]

end

mutual

theorem Ty.writeP_eq (m : Machine) : (t : Ty) → t.writeP withBits m = t.write m
  | .prim _ c => by funext env v; simp only [Ty.writeP, Ty.write]
  | .option t => by funext env v; simp only [Ty.writeP, Ty.write, Ty.writeP_eq m t]; rfl
  | .array n t => by funext env v; simp only [Ty.writeP, Ty.write, Ty.writeP_eq m t]
  | .pair a b => by funext env v; simp only [Ty.writeP, Ty.write, Ty.writeP_eq m a, Ty.writeP_eq m b]; rfl
  | .vec size l t => by funext env v; simp only [Ty.writeP, Ty.write, Ty.writeP_eq m t]
  | .bytes n c => by funext env v; simp only [Ty.writeP, Ty.write]
  | .struct args seek magic fs => by funext env v; simp only [Ty.writeP, Ty.write, Fields.writeP_eq m fs]
  | .enum args magic id store vs => by
    funext env v
    simp only [Ty.writeP, Ty.write, Variants.writeAtP_eq m vs]
    rfl

theorem Fields.writeP_eq (m : Machine) : (fs : Fields) → fs.writeP withBits m = fs.write m
  | .nil => by funext env all v; simp only [Fields.writeP, Fields.write]
  | .cons a t tl => by
    funext env all v
    simp only [Fields.writeP, Fields.write, Ty.writeP_eq m t, Fields.writeP_eq m tl, Attrs.writeP_eq]
    rfl
  | .temp a t f tl => by
    funext env all v
    simp only [Fields.writeP, Fields.write, Ty.writeP_eq m t, Fields.writeP_eq m tl, Attrs.writeP_eq]
    rfl

theorem Fields.writeStoredP_eq (m : Machine) (store : Env → Val → M Writer Unit) :
    (fs : Fields) → fs.writeStoredP withBits m store = fs.writeStored m store
  | .nil => by funext env v; simp only [Fields.writeStoredP, Fields.writeStored]
  | .cons a t tl => by funext env v; simp only [Fields.writeStoredP, Fields.writeStored, Fields.writeP_eq m tl]; rfl
  | .temp a t _ tl => by funext env v; simp only [Fields.writeStoredP, Fields.writeStored]

theorem Variants.writeAtP_eq (m : Machine) : (vs : Variants) → vs.writeAtP withBits m = vs.writeAt m
  | .nil => by funext env id store i v; simp only [Variants.writeAtP, Variants.writeAt]
  | .cons a fs tl => by
    funext env id store i v
    cases i
    · simp only [Variants.writeAtP, Variants.writeAt, Fields.writeP_eq m fs, Fields.writeStoredP_eq m _ fs]
      rfl
    · simp only [Variants.writeAtP, Variants.writeAt, Variants.writeAtP_eq m tl]

end

/-! ## Reading -/

namespace RSim

theorem pure (a : α) : RSim seeks peek (Pure.pure a) (Pure.pure a) where
  step d r s h _ := .inl ⟨.ok a, r, s, rfl, rfl, fun _ _ => ⟨h, id⟩⟩
  beyond _ d r b r' h e := by simp only [M.pure_run, Prod.mk.injEq] at e; rw [← e.2]; exact h

theorem throw (e : DekuError) : RSim (α := α) seeks peek (M.throw e) (M.throw e) where
  step d r s _ _ := .inl ⟨.err e, r, s, rfl, rfl, fun a h => by simp at h⟩
  beyond _ d r b r' _ e := by simp at e

theorem panic : RSim (α := α) seeks peek M.panic M.panic where
  step d r s _ _ := .inl ⟨.panic, r, s, rfl, rfl, fun a h => by simp at h⟩
  beyond _ d r b r' _ e := by simp at e

theorem bind {f f' : M Reader α} {g g' : α → M Reader β} (hf : RSim seeks peek f f')
    (hg : ∀ a, RSim seeks peek (g a) (g' a)) : RSim seeks peek (f >>= g) (f' >>= g') where
  step d r s h hp := by
    rcases hf.step d r s h hp with ⟨x, r1, s1, e1, e2, hx⟩ | ⟨⟨n, hn⟩, hb⟩
    · rw [M.bind_def, M.bind_def, e1, e2]
      cases x with
      | ok a =>
        obtain ⟨h1, hp1⟩ := hx a rfl
        rcases (hg a).step d r1 s1 h1 (hp.imp id hp1) with ⟨y, r2, s2, e3, e4, hy⟩ | h2
        · exact .inl ⟨y, r2, s2, e3, e4, fun b hb => ⟨(hy b hb).1, fun h0 => (hy b hb).2 (hp1 h0)⟩⟩
        · exact .inr h2
      | err e => exact .inl ⟨.err e, r1, s1, rfl, rfl, fun a h => by simp at h⟩
      | panic => exact .inl ⟨.panic, r1, s1, rfl, rfl, fun a h => by simp at h⟩
    · refine .inr ⟨⟨n, ?_⟩, fun hs b r' he => ?_⟩
      · rw [M.bind_def]
        cases hq : f' s with
        | mk x s1 => rw [hq] at hn; simp only at hn; subst hn; rfl
      · obtain ⟨a, r1, e1, e2⟩ := M.bind_eq_ok he
        exact (hg a).beyond hs d r1 b r' (hb hs a r1 e1) e2
  beyond hs d r b r' h he := by
    obtain ⟨a, r1, e1, e2⟩ := M.bind_eq_ok he
    exact (hg a).beyond hs d r1 b r' (hf.beyond hs d r a r1 h e1) e2

/-- What is looked at is the same for level readers. -/
theorem get {g g' : Nat → M Reader β} (h : ∀ n, RSim seeks peek (g n) (g' n)) :
    RSim seeks peek (M.get >>= fun r : Reader => g r.bitsRead) (M.get >>= fun r : Reader => g' r.bitsRead) where
  step d r s hl hp := by
    rw [M.get_bind_run, M.get_bind_run, hl.bitsRead]
    exact (h r.bitsRead).step d r s hl hp
  beyond hs d r b r' hb he := by
    rw [M.get_bind_run] at he
    exact (h r.bitsRead).beyond hs d r b r' hb he

theorem map {f f' : M Reader α} (g : α → β) (hf : RSim seeks peek f f') :
    RSim seeks peek (f >>= fun a => Pure.pure (g a)) (f' >>= fun a => Pure.pure (g a)) :=
  hf.bind fun _ => pure _

theorem ite {c : Prop} [Decidable c] {f f' g g' : M Reader α} (hf : RSim seeks peek f f') (hg : RSim seeks peek g g') :
    RSim seeks peek (if c then f else g) (if c then f' else g') := by
  by_cases h : c
  · rw [if_pos h, if_pos h]; exact hf
  · rw [if_neg h, if_neg h]; exact hg

theorem weaken {f g : M Reader α} (h : RSim seeks true f g) : RSim seeks peek f g where
  step d r s hl _ := h.step d r s hl (.inl rfl)
  beyond := h.beyond

theorem assert (b : Bool) : RSim seeks peek (M.assert b) (M.assert b) := by
  cases b
  · exact panic
  · exact pure ()

end RSim

namespace Reader.Level

variable {d : List Byte} {r s : Reader}

/-- Level readers after one more call each. -/
theorem goes (h : Level d r s) {k : Nat} {c c' : Nat} (hl : r.leftover = none) :
    Level d { r with inner := { r.inner with pos := r.inner.pos + k, calls := c }, bitsRead := r.bitsRead + k * 8 }
      { s with inner := { s.inner with pos := s.inner.pos + k, calls := c' }, bitsRead := s.bitsRead + k * 8 } where
  data := h.data
  data' := h.data'
  pos := by simp only [h.pos]
  bitsRead := by simp only [h.bitsRead]
  leftover := h.leftover
  healthy := h.healthy
  healthy' := h.healthy'
  whole := h.whole
  sync := by
    have := h.sync
    simp only [Reader.Synced, Reader.rest, hl, Reader.leftoverBits, List.length_nil] at this ⊢
    omega

end Reader.Level

open Reader in
theorem readBytes_none {r : Reader} (hh : r.Healthy) (hl : r.leftover = none) (n : Nat) (o : Order) :
    readBytes n o r =
      if n ≤ r.inner.data.length - r.inner.pos then
        (.ok ((r.inner.data.drop r.inner.pos).take n),
          { r with inner := { r.inner with pos := r.inner.pos + n, calls := r.inner.calls + 1 },
                   bitsRead := r.bitsRead + n * 8 })
      else (.err (.incomplete (n * 8)),
          { r with inner := { r.inner with pos := max r.inner.pos r.inner.data.length, calls := r.inner.calls + 1 } }) := by
  have hq : r.inner.faults r.inner.calls = none := by rw [hh]; rfl
  simp only [readBytes, M.get_bind_run, hl]
  simp only [ioRead, M.bind_def, Src.readExact, hq]
  by_cases h : n ≤ r.inner.data.length - r.inner.pos
  · simp only [if_pos h, hl]; rfl
  · simp only [if_neg h, M.throw_run, hl]

open Reader in
theorem readBytes_byte {r : Reader} {b : Byte} (hh : r.Healthy) (hl : r.leftover = some (.byte b)) (n : Nat) (o : Order) :
    readBytes (n + 1) o r =
      if n ≤ r.inner.data.length - r.inner.pos ∨ n = 0 then
        (.ok (b :: (r.inner.data.drop r.inner.pos).take n),
          { r with inner := { r.inner with pos := r.inner.pos + n, calls := if n = 0 then r.inner.calls else r.inner.calls + 1 },
                   leftover := none, bitsRead := r.bitsRead + (n + 1) * 8 })
      else (.err (.incomplete (n * 8)),
          { r with inner := { r.inner with pos := max r.inner.pos r.inner.data.length, calls := r.inner.calls + 1 },
                   leftover := none }) := by
  have hq : r.inner.faults r.inner.calls = none := by rw [hh]; rfl
  simp only [readBytes, M.get_bind_run, hl, readBytesLeftover, Nat.add_one_ne_zero, if_false, Nat.add_sub_cancel,
    M.modify_bind_run]
  by_cases h0 : n = 0
  · subst h0
    simp
  · simp only [if_neg h0, ioRead, M.bind_def, Src.readExact, hq]
    by_cases h : n ≤ r.inner.data.length - r.inner.pos
    · rw [if_pos h, if_pos (.inl h)]; rfl
    · rw [if_neg h, if_neg (fun h' => h'.elim h h0)]; rfl

open Reader in
theorem readBytes_rsim (n : Nat) (o : Order) : RSim seeks peek (readBytes n o) (readBytes n o) where
  step d r s h _ := by
    cases hl : r.leftover with
    | none =>
      rw [readBytes_none h.healthy hl, readBytes_none h.healthy' (h.leftover.trans hl), h.data, h.data', h.pos]
      by_cases hn : n ≤ d.length - r.inner.pos
      · rw [if_pos hn, if_pos hn]
        have := h.goes (k := n) (c := r.inner.calls + 1) (c' := s.inner.calls + 1) hl
        rw [h.pos] at this
        exact .inl ⟨_, _, _, rfl, rfl, fun a _ => ⟨this, fun hp => hp⟩⟩
      · rw [if_neg hn, if_neg hn]
        exact .inl ⟨_, _, _, rfl, rfl, fun a ha => by simp at ha⟩
    | some x =>
      cases x with
      | bits l => exact absurd hl (h.whole l)
      | byte b =>
        cases n with
        | zero =>
          refine .inl ⟨.panic, r, s, ?_, ?_, fun a ha => by simp at ha⟩
          · simp [readBytes, hl, readBytesLeftover]
          · simp [readBytes, h.leftover.trans hl, readBytesLeftover]
        | succ n =>
          rw [readBytes_byte h.healthy hl, readBytes_byte h.healthy' (h.leftover.trans hl), h.data, h.data', h.pos]
          by_cases hn : n ≤ d.length - r.inner.pos ∨ n = 0
          · rw [if_pos hn, if_pos hn]
            refine .inl ⟨_, _, _, rfl, rfl, fun a _ => ⟨⟨h.data, h.data', rfl, by simp only [h.bitsRead], rfl, h.healthy,
              h.healthy', fun l h => by simp at h, ?_⟩, fun _ l h => by simp at h⟩⟩
            have := h.sync
            simp only [Reader.Synced, Reader.rest, hl, Reader.leftoverBits, List.length_nil, length_byteBits] at this ⊢
            omega
          · rw [if_neg hn, if_neg hn]
            exact .inl ⟨_, _, _, rfl, rfl, fun a ha => by simp at ha⟩
  beyond _ d r a r' h e := by
    rw [readBytes_none h.healthy h.empty, h.data] at e
    by_cases hn : n ≤ d.length - r.inner.pos
    · rw [if_pos hn] at e
      have := h.beyond
      obtain rfl : n = 0 := by omega
      simp only [Prod.mk.injEq] at e
      rw [← e.2]
      exact ⟨h.data, h.healthy, h.empty, h.beyond, by simp only [Nat.zero_mul, Nat.add_zero]; exact h.counted⟩
    · rw [if_neg hn] at e; simp at e

/-! ### Integers -/

open Reader Prim

theorem readBytesConstInto_rsim (n : Nat) (o : Order) :
    RSim seeks peek (readBytesConstInto n o) (readBytesConstInto n o) := readBytes_rsim n o

theorem readUBytesOrd_rsim (W : Nat) (e : Endian) (k : Nat) (o : Order) :
    RSim seeks peek (readUBytesOrd W e k o) (readUBytesOrd W e k o) := by
  unfold readUBytesOrd
  refine .ite ?_ ?_
  · exact (readBytesConstInto_rsim 1 o).map _
  · unfold readBytesOrd
    exact .ite (.throw _) ((readBytes_rsim k o).map _)

theorem readSignedBytesOrd_rsim (W : Nat) (e : Endian) (k : Nat) (o : Order) :
    RSim seeks peek (readSignedBytesOrd W e k o) (readSignedBytesOrd W e k o) := by
  unfold readSignedBytesOrd
  exact .ite (.throw _) ((readBytes_rsim k o).map _)

theorem readUnsigned_rsim (native : Endian) (W : Nat) {ctx : IntCtx} (h : ctx.isBits = false) :
    RSim seeks peek (readUnsigned native W ctx) (readUnsigned native W ctx) := by
  have hw : ∀ e, RSim seeks peek (readWhole W e) (readWhole W e) := fun e => (readBytesConstInto_rsim W .msb0).map _
  cases ctx <;> simp only [IntCtx.isBits, Bool.true_eq_false] at h <;> simp only [readUnsigned]
  all_goals first | exact hw _ | exact readUBytesOrd_rsim _ _ _ _

theorem readSigned_rsim (native : Endian) (W : Nat) {ctx : IntCtx} (h : ctx.isBits = false) :
    RSim seeks peek (readSigned native W ctx) (readSigned native W ctx) := by
  have hw : ∀ e, RSim seeks peek (readSignedWhole W e) (readSignedWhole W e) :=
    fun e => (readBytesConstInto_rsim W .msb0).map _
  cases ctx <;> simp only [IntCtx.isBits, Bool.true_eq_false] at h <;> simp only [readSigned]
  all_goals first | exact hw _ | exact readSignedBytesOrd_rsim _ _ _ _

theorem u8Read_rsim (native : Endian) : RSim seeks peek (Coll.u8Read native) (Coll.u8Read native) :=
  (readUnsigned_rsim native 1 rfl).map _

theorem magicRead_rsim (native : Endian) (magic : List Byte) :
    RSim seeks peek (magicRead native magic) (magicRead native magic) := by
  induction magic with
  | nil => exact .pure ()
  | cons b bs ih =>
    simp only [magicRead]
    exact (u8Read_rsim native).bind fun v => .ite (.throw _) ih

/-! ### Collections -/

theorem toUsize_rsim (n : Int) : RSim seeks peek (toUsize n) (toUsize n) := by
  unfold toUsize; exact .ite (.pure _) (.throw _)

theorem usize_rsim (n : Nat) : RSim seeks peek (usize n) (usize n) := by
  unfold usize; exact .ite (.pure _) .panic

theorem arrayRead_rsim {f g : M Reader α} (h : RSim seeks peek f g) (n : Nat) :
    RSim seeks peek (Coll.arrayRead f n) (Coll.arrayRead g n) := by
  induction n with
  | zero => exact .pure _
  | succ n ih =>
    simp only [Coll.arrayRead]
    exact h.bind fun v => ih.map _

theorem vecLoop_rsim {f g : M Reader α} (h : RSim seeks peek f g) (pred : Nat → α → σ → Bool × σ) (start mem : Nat)
    (st : σ) : RSim seeks peek (Coll.vecLoop f pred start mem st) (Coll.vecLoop g pred start mem st) := by
  induction mem generalizing st with
  | zero => simp only [Coll.vecLoop]; exact h.bind fun _ => .panic
  | succ mem ih =>
    simp only [Coll.vecLoop]
    refine h.bind fun v => ?_
    refine .get (g := fun b => do
        M.assert (decide (start ≤ b))
        if (pred (b - start) v st).1 then Pure.pure [v]
        else do
          let vs ← Coll.vecLoop f pred start mem (pred (b - start) v st).2
          Pure.pure (v :: vs))
      (g' := fun b => do
        M.assert (decide (start ≤ b))
        if (pred (b - start) v st).1 then Pure.pure [v]
        else do
          let vs ← Coll.vecLoop g pred start mem (pred (b - start) v st).2
          Pure.pure (v :: vs)) fun b => ?_
    exact (RSim.assert _).bind fun _ => .ite (.pure _) ((ih _).map _)

theorem vecWithPredicate_rsim {f g : M Reader α} (h : RSim seeks peek f g) (mem size : Nat) (c : Option Nat)
    (pred : Nat → α → σ → Bool × σ) (init : σ) :
    RSim seeks peek (Coll.vecWithPredicate mem size c f pred init) (Coll.vecWithPredicate mem size c g pred init) := by
  unfold Coll.vecWithPredicate
  refine .ite (.pure _) (.bind ?_ fun _ => .get (g := fun b => Coll.vecLoop f pred b mem init)
    (g' := fun b => Coll.vecLoop g pred b mem init) fun b => vecLoop_rsim h pred b mem init)
  cases c with
  | none => exact .pure _
  | some n => exact .assert _

theorem end_none {r : Reader} (hh : r.Healthy) (hl : r.leftover = none) :
    Reader.end r =
      if 1 ≤ r.inner.data.length - r.inner.pos then
        (.ok false, { r with inner := { r.inner with pos := r.inner.pos + 1, calls := r.inner.calls + 1 },
                             leftover := some (.byte (((r.inner.data.drop r.inner.pos).take 1).headD 0)) })
      else (.ok true, { r with inner := { r.inner with pos := max r.inner.pos r.inner.data.length,
                                                       calls := r.inner.calls + 1 } }) := by
  have hq : r.inner.faults r.inner.calls = none := by rw [hh]; rfl
  simp only [Reader.end, M.get_bind_run, hl, Option.isSome_none, Bool.false_eq_true, if_false]
  simp only [ioRead, M.bind_def, Src.readExact, hq]
  by_cases h : 1 ≤ r.inner.data.length - r.inner.pos
  · simp only [if_pos h]; rfl
  · simp only [if_neg h, hl]; rfl

/-- `end` from level readers: the input is at its end, or the next byte has been peeked. -/
theorem end_level {d : List Byte} {r s : Reader} (h : Reader.Level d r s) :
    (∃ r' s', Reader.end r = (.ok true, r') ∧ Reader.end s = (.ok true, s') ∧ Reader.Level d r' s' ∧ r'.NoPeek) ∨
    (∃ r' s', Reader.end r = (.ok false, r') ∧ Reader.end s = (.ok false, s') ∧ Reader.Level d r' s') := by
  cases hl : r.leftover with
  | some x =>
    right
    refine ⟨r, s, ?_, ?_, h⟩
    · simp [Reader.end, hl]
    · simp [Reader.end, h.leftover.trans hl]
  | none =>
    have hl' := h.leftover.trans hl
    have hs := h.sync
    simp only [Reader.Synced, Reader.rest, hl, Reader.leftoverBits, List.length_nil] at hs
    rw [end_none h.healthy hl, end_none h.healthy' hl', h.data, h.data', h.pos]
    by_cases hn : 1 ≤ d.length - r.inner.pos
    · right
      rw [if_pos hn, if_pos hn]
      refine ⟨_, _, rfl, rfl, ⟨h.data, h.data', rfl, h.bitsRead, rfl, h.healthy, h.healthy', fun l h => by simp at h, ?_⟩⟩
      simp only [Reader.Synced, Reader.rest, Reader.leftoverBits, length_byteBits]
      omega
    · left
      rw [if_neg hn, if_neg hn]
      refine ⟨_, _, rfl, rfl, ⟨h.data, h.data', rfl, h.bitsRead, h.leftover, h.healthy, h.healthy', h.whole, ?_⟩, ?_⟩
      · simp only [Reader.Synced, Reader.rest, hl, Reader.leftoverBits, List.length_nil]
        by_cases hd : d.length ≤ r.inner.pos
        · rw [Nat.max_eq_left hd]; omega
        · omega
      · intro b hb; simp only [hl] at hb; simp at hb

theorem end_beyond {d : List Byte} {r : Reader} (h : Reader.Beyond d r) :
    ∃ r', Reader.end r = (.ok true, r') ∧ Reader.Beyond d r' := by
  have := h.beyond
  rw [end_none h.healthy h.empty, h.data, if_neg (by omega)]
  refine ⟨_, rfl, ⟨h.data, h.healthy, h.empty, ?_, ?_⟩⟩
  · show d.length < max r.inner.pos d.length; omega
  · show r.bitsRead = 8 * max r.inner.pos d.length
    rw [h.counted]; omega

theorem vecEndLoop_beyond {f : M Reader α} {mem : Nat} {d : List Byte} {r r' : Reader} {vs : List α}
    (h : Reader.Beyond d r) (he : Coll.vecEndLoop f mem r = (.ok vs, r')) : r'.Beyond d := by
  obtain ⟨r1, e1, h1⟩ := end_beyond h
  cases mem <;>
  · simp only [Coll.vecEndLoop] at he
    rw [M.bind_ok e1] at he
    simp only [if_true, M.pure_run, Prod.mk.injEq] at he
    rw [← he.2]; exact h1

theorem vecEndLoop_rsim {f g : M Reader α} (h : RSim seeks true f g) (mem : Nat) :
    RSim seeks peek (Coll.vecEndLoop f mem) (Coll.vecEndLoop g mem) where
  beyond _ d r vs r' hb he := vecEndLoop_beyond hb he
  step d r s hl hpk := by
    clear hpk
    suffices H : (∃ x r' s', Coll.vecEndLoop f mem r = (x, r') ∧ Coll.vecEndLoop g mem s = (x, s') ∧
          ∀ a, x = .ok a → Reader.Level d r' s' ∧ r'.NoPeek) ∨
        ((∃ n, (Coll.vecEndLoop g mem s).1 = .err (.incomplete n)) ∧
          (seeks = false → ∀ a r', Coll.vecEndLoop f mem r = (.ok a, r') → r'.Beyond d)) by
      rcases H with ⟨x, r', s', e1, e2, hx⟩ | H
      · exact .inl ⟨x, r', s', e1, e2, fun a ha => ⟨(hx a ha).1, fun _ => (hx a ha).2⟩⟩
      · exact .inr H
    induction mem generalizing r s with
    | zero =>
      rcases end_level hl with ⟨r1, s1, e1, e2, h1, hn⟩ | ⟨r1, s1, e1, e2, h1⟩
      · left
        refine ⟨.ok [], r1, s1, ?_, ?_, fun _ _ => ⟨h1, hn⟩⟩
        · rw [Coll.vecEndLoop, M.bind_ok e1]; rfl
        · rw [Coll.vecEndLoop, M.bind_ok e2]; rfl
      · have hf : ∀ (f : M Reader α) {r r1 : Reader}, Reader.end r = (.ok false, r1) →
            Coll.vecEndLoop f 0 r = (f >>= fun _ => M.panic) r1 := by
          intro f r r1 e; rw [Coll.vecEndLoop, M.bind_ok e]; rfl
        rw [hf f e1, hf g e2]
        have hb := h.bind (g := fun _ => (M.panic : M Reader (List α))) (g' := fun _ => M.panic) fun _ => .panic
        rcases hb.step d r1 s1 h1 (.inl rfl) with ⟨x, r2, s2, e3, e4, hx⟩ | h2
        · refine .inl ⟨x, r2, s2, e3, e4, fun a ha => ?_⟩
          subst ha
          obtain ⟨b, r3, _, e⟩ := M.bind_eq_ok e3
          simp at e
        · exact .inr h2
    | succ mem ih =>
      rcases end_level hl with ⟨r1, s1, e1, e2, h1, hn⟩ | ⟨r1, s1, e1, e2, h1⟩
      · left
        refine ⟨.ok [], r1, s1, ?_, ?_, fun _ _ => ⟨h1, hn⟩⟩
        · rw [Coll.vecEndLoop, M.bind_ok e1]; rfl
        · rw [Coll.vecEndLoop, M.bind_ok e2]; rfl
      · have hf : ∀ (f : M Reader α) {r r1 : Reader}, Reader.end r = (.ok false, r1) →
            Coll.vecEndLoop f (mem + 1) r =
              (f >>= fun v => Coll.vecEndLoop f mem >>= fun vs => Pure.pure (v :: vs)) r1 := by
          intro f r r1 e; rw [Coll.vecEndLoop, M.bind_ok e]; rfl
        rw [hf f e1, hf g e2]
        rcases h.step d r1 s1 h1 (.inl rfl) with ⟨x, r2, s2, e3, e4, hx⟩ | ⟨⟨n, hn⟩, hb⟩
        · cases x with
          | ok a =>
            obtain ⟨h2, -⟩ := hx a rfl
            rw [M.bind_ok e3, M.bind_ok e4]
            rcases ih r2 s2 h2 with ⟨y, r3, s3, e5, e6, hy⟩ | ⟨⟨n, hn⟩, hb⟩
            · cases y with
              | ok vs =>
                rw [M.bind_ok e5, M.bind_ok e6]
                exact .inl ⟨_, r3, s3, rfl, rfl, fun _ _ => hy vs rfl⟩
              | err e =>
                rw [M.bind_err e5, M.bind_err e6]
                exact .inl ⟨_, r3, s3, rfl, rfl, fun _ h => by simp at h⟩
              | panic =>
                rw [M.bind_panic e5, M.bind_panic e6]
                exact .inl ⟨_, r3, s3, rfl, rfl, fun _ h => by simp at h⟩
            · refine .inr ⟨⟨n, ?_⟩, fun hs vs r' he => ?_⟩
              · rw [M.bind_def]
                cases hq : Coll.vecEndLoop g mem s2 with
                | mk x s3 => rw [hq] at hn; simp only at hn; subst hn; rfl
              · obtain ⟨b, r3, e5, e6⟩ := M.bind_eq_ok he
                simp only [M.pure_run, Prod.mk.injEq] at e6
                rw [← e6.2]
                exact hb hs b r3 e5
          | err e =>
            rw [M.bind_err e3, M.bind_err e4]
            exact .inl ⟨_, r2, s2, rfl, rfl, fun _ h => by simp at h⟩
          | panic =>
            rw [M.bind_panic e3, M.bind_panic e4]
            exact .inl ⟨_, r2, s2, rfl, rfl, fun _ h => by simp at h⟩
        · refine .inr ⟨⟨n, ?_⟩, fun hs vs r' he => ?_⟩
          · rw [M.bind_def]
            cases hq : g s1 with
            | mk x s3 => rw [hq] at hn; simp only at hn; subst hn; rfl
          · obtain ⟨a, r2, e3, e4⟩ := M.bind_eq_ok he
            obtain ⟨b, r3, e5, e6⟩ := M.bind_eq_ok e4
            simp only [M.pure_run, Prod.mk.injEq] at e6
            rw [← e6.2]
            exact vecEndLoop_beyond (hb hs a r2 e3) e5

theorem vecRead_rsim {f g : M Reader α} (h : RSim seeks peek f g) (lim : Limit α σ)
    (hend : lim = .end → RSim seeks true f g) (mem size : Nat) :
    RSim seeks peek (Coll.vecRead mem size f lim) (Coll.vecRead mem size g lim) := by
  cases lim with
  | count n => exact .ite (.pure _) (vecWithPredicate_rsim h _ _ _ _ _)
  | «until» p i => exact vecWithPredicate_rsim h _ _ _ _ _
  | bits n => exact .ite (.pure _) (vecWithPredicate_rsim h _ _ _ _ _)
  | bytes n =>
    simp only [Coll.vecRead]
    exact (usize_rsim _).bind fun n => .ite (.pure _) (vecWithPredicate_rsim h _ _ _ _ _)
  | «end» => exact .ite (.pure _) (vecEndLoop_rsim (hend rfl) mem)

theorem Reader.Level.adv {d : List Byte} {r s : Reader} (h : Reader.Level d r s) (c : Nat) :
    Reader.Level d (Reader.adv c 0 r) (Reader.adv c 0 s) :=
  ⟨h.data, h.data', h.pos, h.bitsRead, h.leftover, h.healthy, h.healthy', h.whole, h.sync⟩

theorem readExact_rsim (n : Nat) : RSim seeks peek (Coll.readExact n) (Coll.readExact n) where
  step d r s h hp := by
    have hd : s.inner.data = r.inner.data := h.data'.trans h.data.symm
    by_cases hb : r.inner.pos ≤ r.inner.data.length
    · rw [readExact_run h.healthy hb, readExact_run h.healthy' (by rw [h.pos, hd]; exact hb)]
      have ha : avail s = avail r := by simp only [avail, h.pos, hd]
      rw [ha]
      by_cases hn : (avail r).length < n
      · rw [if_pos hn, if_pos hn]
        exact ((usize_rsim (n * 8)).bind fun k => .throw (α := List Byte) (.incomplete k)).step d _ _ (h.adv 3) hp
      · rw [if_neg hn, if_neg hn]
        exact (readBytes_rsim n .lsb0).step d _ _ (h.adv 3) hp
    · rw [readExact_beyond h.healthy hb, readExact_beyond h.healthy' (by rw [h.pos, hd]; exact hb)]
      exact .inl ⟨.panic, _, _, rfl, rfl, fun a ha => by simp at ha⟩
  beyond _ d r a r' h e := by
    rw [readExact_beyond h.healthy (by have := h.beyond; rw [h.data]; omega)] at e
    simp at e

theorem cstringOf_rsim (bs : List Byte) : RSim seeks peek (Coll.cstringOf bs) (Coll.cstringOf bs) := by
  unfold Coll.cstringOf
  split
  · exact .pure _
  · exact .throw _

theorem cstringRead_rsim (native : Endian) (mem : Nat) :
    RSim seeks peek (Coll.cstringRead native mem) (Coll.cstringRead native mem) :=
  (vecRead_rsim (u8Read_rsim native) _ (fun h => by simp at h) _ _).bind fun _ => cstringOf_rsim _

theorem cstringReadSized_rsim (native : Endian) (mem n : Nat) :
    RSim seeks peek (Coll.cstringReadSized native mem n) (Coll.cstringReadSized native mem n) :=
  (vecRead_rsim (u8Read_rsim native) _ (fun h => by simp at h) _ _).bind fun _ => cstringOf_rsim _

/-! ### Pieces of derived code -/

theorem Reader.Level.seek {d : List Byte} {r s : Reader} (h : Reader.Level d r s) (p : SeekFrom) :
    ∃ x r' s', Reader.seek p r = (.ok x, r') ∧ Reader.seek p s = (.ok x, s') ∧
      ((∃ n, x = .ok n) → Reader.Level d r' s' ∧ r'.NoPeek) := by
  have h1 : r.inner.faults = noFaults := h.healthy
  have h2 : s.inner.faults = noFaults := h.healthy'
  have hrun : ∀ t : Reader, t.inner.faults = noFaults → t.inner.data = d → t.inner.pos = r.inner.pos →
      Reader.seek p t = match Src.seekTarget d.length r.inner.pos p with
        | some n => (.ok (.ok n), { inner := { t.inner with calls := t.inner.calls + 1, pos := n }, leftover := none, bitsRead := n * 8 })
        | none => (.ok (.error .invalidInput), { t with leftover := none, inner := { t.inner with calls := t.inner.calls + 1 } }) := by
    intro t ht hd hp
    simp only [Reader.seek, Src.seek, ht, noFaults, hd, hp, Bool.true_eq_false, if_false]
    cases Src.seekTarget d.length r.inner.pos p <;> rfl
  rw [hrun r h1 h.data rfl, hrun s h2 h.data' h.pos]
  cases Src.seekTarget d.length r.inner.pos p with
  | some n =>
    refine ⟨.ok n, _, _, rfl, rfl, fun _ => ⟨⟨h.data, h.data', rfl, rfl, rfl, h1, h2, fun l h => by simp at h, ?_⟩,
      fun b h => by simp at h⟩⟩
    simp only [Reader.Synced, Reader.rest, Reader.leftoverBits, List.length_nil]
    omega
  | none => exact ⟨.error .invalidInput, _, _, rfl, rfl, fun ⟨n, hn⟩ => by simp at hn⟩

theorem seekRead_rsim {sk : Option (Env → Option SeekFrom)} (h : seeks = false → sk = none) (env : Env) :
    RSim seeks peek (seekRead sk env) (seekRead sk env) := by
  cases sk with
  | none => exact .pure ()
  | some f =>
    have hs : seeks = true := by
      cases seeks
      · exact absurd (h rfl) (by simp)
      · rfl
    subst hs
    simp only [seekRead]
    cases f env with
    | none => exact .panic
    | some p =>
      dsimp only
      refine ⟨fun d r s hl _ => ?_, fun hf => by simp at hf⟩
      obtain ⟨x, r', s', e1, e2, hx⟩ := hl.seek p
      rw [M.bind_ok e1, M.bind_ok e2]
      cases x with
      | ok n =>
        obtain ⟨h1, h2⟩ := hx ⟨n, rfl⟩
        exact .inl ⟨_, _, _, rfl, rfl, fun _ _ => ⟨h1, fun _ => h2⟩⟩
      | error e => exact .inl ⟨_, _, _, rfl, rfl, fun _ h => by simp at h⟩

/-- The loop gets over `n` bytes if they are there. -/
theorem padReadLoop_run {r : Reader} (hh : r.Healthy) (hl : r.leftover = none) :
    ∀ fuel n, n ≤ fuel →
      (n = 0 ∨ n ≤ r.inner.data.length - r.inner.pos → ∃ c, padReadLoop fuel n r = (.ok (),
        { r with inner := { r.inner with pos := r.inner.pos + n, calls := c }, bitsRead := r.bitsRead + n * 8 })) ∧
      (¬ (n = 0 ∨ n ≤ r.inner.data.length - r.inner.pos) →
        ∃ k s, padReadLoop fuel n r = (.err (.incomplete k), s)) := by
  intro fuel
  induction fuel generalizing r with
  | zero =>
    intro n hn
    obtain rfl : n = 0 := by omega
    exact ⟨fun _ => ⟨r.inner.calls, by simp [padReadLoop]⟩, fun h => absurd (.inl rfl) h⟩
  | succ fuel ih =>
    intro n hn
    by_cases h0 : n = 0
    · subst h0
      exact ⟨fun _ => ⟨r.inner.calls, by simp [padReadLoop]⟩, fun h => absurd (.inl rfl) h⟩
    · have hrun := readBytes_none hh hl (min 64 n) .msb0
      have hm : min 64 n ≤ n ∧ 1 ≤ min 64 n := by omega
      simp only [padReadLoop, if_neg h0]
      generalize hk : min 64 n = k at *
      by_cases hc : k ≤ r.inner.data.length - r.inner.pos
      · rw [if_pos hc] at hrun
        rw [M.bind_ok hrun]
        have := ih (r := { r with inner := { r.inner with pos := r.inner.pos + k, calls := r.inner.calls + 1 }, bitsRead := r.bitsRead + k * 8 })
          hh hl (n - k) (by omega)
        simp only at this
        constructor
        · intro h
          obtain ⟨c, e⟩ := this.1 (by omega)
          refine ⟨c, ?_⟩
          rw [e]
          simp only [show r.inner.pos + k + (n - k) = r.inner.pos + n by omega,
            show r.bitsRead + k * 8 + (n - k) * 8 = r.bitsRead + n * 8 by omega]
        · intro h
          exact this.2 (by omega)
      · rw [if_neg hc] at hrun
        refine ⟨fun h => absurd h (by omega), fun _ => ⟨_, _, M.bind_err hrun _⟩⟩

theorem padRead_whole {n : Nat} {o : Order} {r : Reader} (hf : r.Healthy) (hl : r.leftover = none)
    (hs : r.bitsRead = 8 * r.inner.pos) :
    ∃ c, skipBits (8 * n) o r = (.ok (), { inner := { r.inner with pos := r.inner.pos + n, calls := c }, leftover := none, bitsRead := (r.inner.pos + n) * 8 }) := by
  rw [skipBits_other (by simp [hl])]
  have h8 : 8 * n / 8 = n := by omega
  have hm : 8 * n % 8 = 0 := by omega
  by_cases h0 : n = 0
  · subst h0
    refine ⟨r.inner.calls, ?_⟩
    have hr : r.bitsRead = r.inner.pos * 8 := by omega
    simp [skipTail, readBitsInto, ← hr]
    cases r; simp_all
  · refine ⟨r.inner.calls + 1, ?_⟩
    simp only [skipTail, h8, hm, ne_eq, h0, not_false_eq_true, if_true, M.get_bind_run, show r.bitsRead % 8 = 0 by omega,
      decide_true, M.assert_true_bind_run]
    rw [M.bind_ok (seek_current_ok hf)]
    simp [readBitsInto, adv]

theorem padRead_rsim {pad : Option (Env → Int)} (h : WholePad peek pad) (o : Option Order) (env : Env) :
    RSim seeks peek (padRead o pad env) (padReadBytes o pad env) := by
  cases pad with
  | none => exact .pure ()
  | some f =>
    obtain ⟨rfl, hw⟩ := h f rfl
    obtain ⟨hm, hlt⟩ := hw env
    simp only [padRead, padReadBytes, padSize]
    by_cases h0 : 0 ≤ f env
    · rw [if_pos ⟨h0, hlt⟩, if_pos (by omega)]
      obtain ⟨n, hn⟩ : ∃ n : Nat, f env = 8 * n := ⟨(f env).toNat / 8, by omega⟩
      rw [hn]
      have e1 : ((8 : Int) * (n : Nat)).toNat = 8 * n := by omega
      have e2 : ((8 : Int) * (n : Nat) / 8).toNat = n := by omega
      rw [e1, e2]
      show RSim seeks false (skipBits (8 * n) (o.getD .msb0)) (padReadLoop n n)
      refine ⟨fun d r s hl hp => ?_, fun _ d r a r' hb he => ?_⟩
      · have hnp : r.NoPeek := by simpa using hp
        have hlo : r.leftover = none := by
          rcases hx : r.leftover with _ | (b | l)
          · rfl
          · exact absurd hx (hnp b)
          · exact absurd hx (hl.whole l)
        have hsy := hl.sync
        simp only [Reader.Synced, Reader.rest, hlo, Reader.leftoverBits, List.length_nil] at hsy
        obtain ⟨c0, e0⟩ := padRead_whole (n := n) (o := o.getD .msb0) hl.healthy hlo (by omega)
        rw [e0]
        obtain ⟨a1, a2⟩ := padReadLoop_run hl.healthy' (hl.leftover.trans hlo) n n (Nat.le_refl n)
        by_cases hc : n = 0 ∨ n ≤ s.inner.data.length - s.inner.pos
        · obtain ⟨c, e⟩ := a1 hc
          rw [e]
          refine .inl ⟨_, _, _, rfl, rfl, fun _ _ => ⟨⟨hl.data, hl.data', ?_, ?_, hl.leftover.trans hlo, hl.healthy,
            hl.healthy', fun l h => by simp at h, ?_⟩, fun _ b h => by simp at h⟩⟩
          · simp only [hl.pos]
          · simp only [hl.bitsRead]; omega
          · simp only [Reader.Synced, Reader.rest, Reader.leftoverBits, List.length_nil]
            omega
        · obtain ⟨k, s', e⟩ := a2 hc
          rw [e]
          refine .inr ⟨⟨k, rfl⟩, fun _ a r' he => ?_⟩
          simp only [Prod.mk.injEq] at he
          rw [← he.2]
          refine ⟨hl.data, hl.healthy, rfl, ?_, ?_⟩
          · rw [hl.data', hl.pos] at hc
            show d.length < r.inner.pos + n
            omega
          · show (r.inner.pos + n) * 8 = 8 * (r.inner.pos + n)
            omega
      · obtain ⟨c0, e0⟩ := padRead_whole (n := n) (o := o.getD .msb0) hb.healthy hb.empty hb.counted
        rw [e0] at he
        simp only [Prod.mk.injEq] at he
        rw [← he.2]
        refine ⟨hb.data, hb.healthy, rfl, ?_, ?_⟩
        · have := hb.beyond
          show d.length < r.inner.pos + n
          omega
        · show (r.inner.pos + n) * 8 = 8 * (r.inner.pos + n)
          omega
    · rw [if_neg (fun h => h0 h.1), if_neg (fun h => by omega)]
      exact .throw _

theorem Attrs.check_rsim (a : Attrs) (env : Env) (v : Val) : RSim seeks peek (a.check env v) (a.check env v) := by
  unfold Attrs.check
  refine .ite (.throw _) ?_
  split
  · exact .pure ()
  · exact .ite (.throw _) (.pure ())

theorem Attrs.value_rsim (a : Attrs) {rd rd' : Env → M Reader Val} (h : ∀ env, RSim seeks peek (rd env) (rd' env))
    (env : Env) : RSim seeks peek (a.value rd env) (a.value rd' env) := by
  unfold Attrs.value
  refine .ite ((h env).bind fun raw => ?_) (.pure _)
  unfold Attrs.applyMap
  split
  · exact .pure _
  · exact .throw _

theorem Attrs.readP_rsim {a : Attrs} (ha : a.Bytewise seeks peek) (native : Endian) {rd rd' : Env → M Reader Val}
    (h : ∀ env, RSim seeks peek (rd env) (rd' env)) (env : Env) :
    RSim seeks peek (a.readP withBits native rd env) (a.readP withoutBits native rd' env) := by
  unfold Attrs.readP
  refine (seekRead_rsim ha.1 env).bind fun _ => (magicRead_rsim native a.magic).bind fun _ =>
    (padRead_rsim ha.2.1 _ _).bind fun _ => ?_
  refine .get (g := fun b => do
      let v ← a.value rd (env.at (if a.usesOffset then b else 0))
      a.check (env.at (if a.usesOffset then b else 0)) v
      padRead a.padOrder a.padAfter ((env.at (if a.usesOffset then b else 0)).push v)
      Pure.pure v)
    (g' := fun b => do
      let v ← a.value rd' (env.at (if a.usesOffset then b else 0))
      a.check (env.at (if a.usesOffset then b else 0)) v
      padReadBytes a.padOrder a.padAfter ((env.at (if a.usesOffset then b else 0)).push v)
      Pure.pure v) fun b => ?_
  exact (a.value_rsim h _).bind fun v => (a.check_rsim _ v).bind fun _ => (padRead_rsim ha.2.2 _ _).map _

theorem dispatch_rsim {sel : Option Nat} {arm arm' : Nat → M Reader Val}
    (h : ∀ i, RSim seeks peek (arm i) (arm' i)) : RSim seeks peek (dispatch sel arm) (dispatch sel arm') := by
  unfold dispatch
  split
  · exact .throw _
  · exact (h _).map _

theorem LimitE.eval_bind (l : LimitE) (env : Env) {f g : Limit Val (List Val) → M Reader β}
    (h : ∀ lim, (lim = .end → l = .end) → RSim seeks peek (f lim) (g lim)) :
    RSim seeks peek (l.eval env >>= f) (l.eval env >>= g) := by
  cases l with
  | «end» => exact h .end fun _ => rfl
  | «until» p => exact h _ fun h => by simp at h
  | count n =>
    simp only [LimitE.eval, M.bind_assoc]
    exact (toUsize_rsim _).bind fun k => h (.count k) fun h => by simp at h
  | bytes n =>
    simp only [LimitE.eval, M.bind_assoc]
    exact (toUsize_rsim _).bind fun k => h (.bytes k) fun h => by simp at h
  | bits n =>
    simp only [LimitE.eval, M.bind_assoc]
    exact (toUsize_rsim _).bind fun k => h (.bits k) fun h => by simp at h

mutual

theorem Ty.readP_rsim (m : Machine) (seeks peek : Bool) : (t : Ty) → t.Bytewise seeks peek → ∀ env,
    RSim seeks peek (t.readP withBits m env) (t.readP withoutBits m env)
  | .prim _ c, h, env => by simp only [Ty.readP]; exact h.1 env
  | .option t, h, env => by simp only [Ty.readP]; exact (t.readP_rsim m seeks peek h env).map _
  | .array n t, h, env => by
    simp only [Ty.readP]; exact (arrayRead_rsim (t.readP_rsim m seeks peek h env) n).map _
  | .pair a b, h, env => by
    simp only [Ty.readP]
    exact (a.readP_rsim m seeks peek h.1 env).bind fun x => (b.readP_rsim m seeks peek h.2 env).map _
  | .vec size l t, h, env => by
    simp only [Ty.readP]
    refine l.eval_bind env fun lim hl => (vecRead_rsim (t.readP_rsim m seeks peek h.2 env) lim (fun he => ?_) _ _).map _
    obtain rfl := hl he
    exact t.readP_rsim m seeks true h.1 env
  | .bytes n _, h, env => by
    simp only [Ty.readP]
    exact (toUsize_rsim _).bind fun k => (readExact_rsim k).map _
  | .struct args sk magic fs, h, env => by
    simp only [Ty.readP]
    exact (seekRead_rsim h.1 _).bind fun _ => (magicRead_rsim _ _).bind fun _ => fs.readP_rsim m seeks peek h.2 _
  | .enum args magic id store vs, h, env => by
    simp only [Ty.readP]
    refine (magicRead_rsim _ _).bind fun _ => ?_
    cases id with
    | ctx e => exact dispatch_rsim fun i => vs.readAtP_rsim m seeks peek h.2.2 _ _ _ i
    | typed sz c => exact (h.1.1 _).bind fun x => dispatch_rsim fun i => vs.readAtP_rsim m seeks peek h.2.2 _ _ _ i

theorem Fields.readP_rsim (m : Machine) (seeks peek : Bool) : (fs : Fields) → fs.Bytewise seeks peek → ∀ env,
    RSim seeks peek (fs.readP withBits m env) (fs.readP withoutBits m env)
  | .nil, _, env => by simp only [Fields.readP]; exact .pure _
  | .cons a t tl, h, env => by
    simp only [Fields.readP]
    exact (Attrs.readP_rsim h.1 _ (t.readP_rsim m seeks peek h.2.1) env).bind fun v =>
      (tl.readP_rsim m seeks peek h.2.2 _).map _
  | .temp a t _ tl, h, env => by
    simp only [Fields.readP]
    exact (Attrs.readP_rsim h.1 _ (t.readP_rsim m seeks peek h.2.1) env).bind fun v => tl.readP_rsim m seeks peek h.2.2 _

theorem Fields.readStoredP_rsim (m : Machine) (seeks peek : Bool) : (fs : Fields) → fs.Bytewise seeks peek → ∀ env x,
    RSim seeks peek (fs.readStoredP withBits m env x) (fs.readStoredP withoutBits m env x)
  | .nil, _, env, x => by simp only [Fields.readStoredP]; exact .pure _
  | .cons a t tl, h, env, x => by
    simp only [Fields.readStoredP]; exact (tl.readP_rsim m seeks peek h.2.2 _).map _
  | .temp a t _ tl, h, env, x => by simp only [Fields.readStoredP]; exact tl.readP_rsim m seeks peek h.2.2 _

theorem Variants.readAtP_rsim (m : Machine) (seeks peek : Bool) : (vs : Variants) → vs.Bytewise seeks peek →
    ∀ env x b i, RSim seeks peek (vs.readAtP withBits m env x b i) (vs.readAtP withoutBits m env x b i)
  | .nil, _, env, x, b, i => by simp only [Variants.readAtP]; exact .panic
  | .cons a fs tl, h, env, x, b, i => by
    cases i with
    | zero =>
      simp only [Variants.readAtP]
      exact .ite (fs.readStoredP_rsim m seeks peek h.1 _ _) (fs.readP_rsim m seeks peek h.1 _)
    | succ i => simp only [Variants.readAtP]; exact tl.readAtP_rsim m seeks peek h.2 _ _ _ _

end

/-! ## Writing -/

namespace WSim

theorem pure (a : α) : WSim (Pure.pure a) (Pure.pure a) :=
  fun w s h => ⟨.ok a, w, s, rfl, rfl, fun _ _ => h⟩

theorem throw (e : DekuError) : WSim (α := α) (M.throw e) (M.throw e) :=
  fun w s _ => ⟨.err e, w, s, rfl, rfl, fun a h => by simp at h⟩

theorem panic : WSim (α := α) M.panic M.panic :=
  fun w s _ => ⟨.panic, w, s, rfl, rfl, fun a h => by simp at h⟩

theorem bind {f f' : M Writer α} {g g' : α → M Writer β} (hf : WSim f f') (hg : ∀ a, WSim (g a) (g' a)) :
    WSim (f >>= g) (f' >>= g') := by
  intro w s h
  obtain ⟨x, w1, s1, e1, e2, hx⟩ := hf w s h
  rw [M.bind_def, M.bind_def, e1, e2]
  cases x with
  | ok a => exact hg a w1 s1 (hx a rfl)
  | err e => exact ⟨.err e, w1, s1, rfl, rfl, fun a h => by simp at h⟩
  | panic => exact ⟨.panic, w1, s1, rfl, rfl, fun a h => by simp at h⟩

/-- What is looked at is the same for level writers. -/
theorem get {g g' : Nat → M Writer β} (h : ∀ n, WSim (g n) (g' n)) :
    WSim (M.get >>= fun w : Writer => g w.bitsWritten) (M.get >>= fun w : Writer => g' w.bitsWritten) := by
  intro w s hl
  rw [M.get_bind_run, M.get_bind_run, hl.bitsWritten]
  exact h w.bitsWritten w s hl

theorem ite {c : Prop} [Decidable c] {f f' g g' : M Writer α} (hf : WSim f f') (hg : WSim g g') :
    WSim (if c then f else g) (if c then f' else g') := by
  by_cases h : c
  · rw [if_pos h, if_pos h]; exact hf
  · rw [if_neg h, if_neg h]; exact hg

end WSim

namespace Writer

/-- The contents after storing `bs` at `p`, if there is anything to store. -/
def put (d : List Byte) (p : Nat) (bs : List Byte) : List Byte := if bs = [] then d else Sink.splice d p bs

theorem splice_splice (d : List Byte) (p : Nat) (a b : List Byte) :
    Sink.splice (Sink.splice d p a) (p + a.length) b = Sink.splice d p (a ++ b) := by
  have hl : (d.take p ++ List.replicate (p - d.length) 0 ++ a).length = p + a.length := by
    simp only [List.length_append, List.length_take, List.length_replicate]; omega
  have h1 : (Sink.splice d p a).take (p + a.length) = d.take p ++ List.replicate (p - d.length) 0 ++ a := by
    unfold Sink.splice
    rw [← hl, List.take_left]
  have h2 : (Sink.splice d p a).drop (p + a.length) = d.drop (p + a.length) := by
    unfold Sink.splice
    rw [← hl, List.drop_left, hl]
  have h3 : p + a.length - (Sink.splice d p a).length = 0 := by
    unfold Sink.splice
    rw [List.length_append, hl]; omega
  rw [show Sink.splice (Sink.splice d p a) (p + a.length) b = (Sink.splice d p a).take (p + a.length) ++
    List.replicate (p + a.length - (Sink.splice d p a).length) 0 ++ b ++
    (Sink.splice d p a).drop (p + a.length + b.length) from rfl, h1, h3, ← List.drop_drop, h2, List.drop_drop]
  unfold Sink.splice
  simp [Nat.add_assoc]

theorem put_put (d : List Byte) (p : Nat) (a b : List Byte) : put (put d p a) (p + a.length) b = put d p (a ++ b) := by
  unfold put
  by_cases ha : a = []
  · subst ha; simp
  · by_cases hb : b = []
    · subst hb; simp [ha]
    · simp [ha, hb, splice_splice]

theorem writeAll_run {w : Writer} (h : w.Healthy) (bs : List Byte) : writeAll bs w =
    (.ok (), { w with inner := { w.inner with calls := w.inner.calls + 1, data := Sink.splice w.inner.data w.inner.pos bs, pos := w.inner.pos + bs.length } }) := by
  have h1 : w.inner.faults w.inner.calls = none := by rw [h.1]; rfl
  simp only [writeAll, Sink.writeAll, h1, h.2]

/-- The writer after storing `bs`. -/
def stored (w : Writer) (bs : List Byte) (c : Nat) : Writer :=
  { w with inner := { w.inner with calls := c, data := put w.inner.data w.inner.pos bs, pos := w.inner.pos + bs.length } }

theorem writeChunks_run {w : Writer} (h : w.Healthy) (cs : List (List Bool)) :
    ∃ c, writeChunks cs w = (.ok (), w.stored (cs.map byteOf) c) := by
  induction cs generalizing w with
  | nil => exact ⟨w.inner.calls, by simp [writeChunks, stored, put]⟩
  | cons b bs ih =>
    simp only [writeChunks]
    rw [M.bind_ok (writeAll_run h _)]
    obtain ⟨c, e⟩ := ih (w := { w with inner := { w.inner with calls := w.inner.calls + 1, data := Sink.splice w.inner.data w.inner.pos [byteOf b], pos := w.inner.pos + [byteOf b].length } }) h
    refine ⟨c, ?_⟩
    rw [e]
    have : Sink.splice w.inner.data w.inner.pos [byteOf b] = put w.inner.data w.inner.pos [byteOf b] := by simp [put]
    simp only [stored, this, put_put, List.map_cons, List.singleton_append, List.length_map]
    simp only [List.length_cons, List.length_nil, List.length_map,
      show w.inner.pos + (0 + 1) + bs.length = w.inner.pos + (bs.length + 1) by omega]

theorem map_chunks8_zeros (k n : Nat) (h : 8 * k ≤ n) :
    (chunks8 k (List.replicate n false)).map byteOf = List.replicate k 0 := by
  induction k generalizing n with
  | zero => rfl
  | succ k ih =>
    simp only [chunks8, List.map_cons]
    rw [List.take_replicate, List.drop_replicate, ih _ (by omega), show min 8 n = 8 by omega,
      show byteOf (List.replicate 8 false) = 0 by decide]
    rfl

theorem map_rchunks8_zeros (k n : Nat) (h : 8 * k ≤ n) :
    (rchunks8 k (List.replicate n false)).map byteOf = List.replicate k 0 := by
  induction k generalizing n with
  | zero => rfl
  | succ k ih =>
    simp only [rchunks8, List.map_cons]
    rw [List.length_replicate, List.take_replicate, List.drop_replicate, ih _ (by omega),
      show n - (n - 8) = 8 by omega, show byteOf (List.replicate 8 false) = 0 by decide]
    rfl

/-- Whole zero bytes at a byte boundary are stored as they are, in every bit order. -/
theorem writeBitsOrder_zeros {w : Writer} (h : w.Healthy) (hlo : w.leftover = []) (k : Nat) (o : Order) :
    ∃ c t, writeBitsOrder (List.replicate (8 * k) false) o w =
      (.ok (), { w.stored (List.replicate k 0) c with leftover := [], tag := t, bitsWritten := w.bitsWritten + 8 * k }) := by
  have h8 : 8 * k / 8 = k := by omega
  have hm : 8 * k % 8 = 0 := by omega
  have hf : fwdRemainder (List.replicate (8 * k) false) = [] := by
    apply List.eq_nil_of_length_eq_zero; simp
  have hb : bwdRemainder (List.replicate (8 * k) false) = [] := by
    apply List.eq_nil_of_length_eq_zero; simp
  have hc := fun (cs : List (List Bool)) =>
    writeChunks_run (w := { w with leftover := [], tag := .msb0 }) h cs
  simp only [writeBitsOrder, M.get_bind_run]
  cases o <;> cases ht : w.tag
  · obtain ⟨c, e⟩ := hc (chunks8 k (List.replicate (8 * k) false))
    refine ⟨c, .msb0, ?_⟩
    simp only [msbMsb, M.get_bind_run, hlo, List.length_nil, Nat.zero_lt_succ, decide_true, M.assert_true_bind_run,
      takeLeftover_bind_run, List.isEmpty_nil, if_true, M.pure_bind_run, List.length_replicate, h8, hf]
    rw [writeBulk, M.bind_assoc, M.bind_ok e, map_chunks8_zeros _ _ (Nat.le_refl _)]
    simp only [M.modify_bind_run]
    rw [extend_bind_run _ _ _ (by simp [stored])]
    simp [stored]
  · obtain ⟨c, e⟩ := hc (rchunks8 k (List.replicate (8 * k) false))
    refine ⟨c, .msb0, ?_⟩
    simp only [lsbMsb, M.get_bind_run, hlo, List.length_nil, Nat.zero_lt_succ, decide_true, M.assert_true_bind_run,
      takeLeftover_bind_run, List.isEmpty_nil, if_true, List.length_replicate, h8, hb]
    rw [writeBulk, M.bind_assoc, M.bind_ok e, map_rchunks8_zeros _ _ (Nat.le_refl _)]
    simp only [M.modify_bind_run]
    rw [extend_bind_run _ _ _ (by simp [stored]), extend_bind_run _ _ _ (by simp [stored])]
    simp only [M.modify_bind_run, M.get_bind_run]
    simp only [Bool.or_true, M.assert_true_bind_run]
    rw [M.bind_ok (flushFull_not (by simp [stored])), extend_run _ _ (by simp [stored])]
    simp [stored]
  · obtain ⟨c, e⟩ := hc (chunks8 k (List.replicate (8 * k) false))
    refine ⟨c, .lsb0, ?_⟩
    simp only [msbLsb, M.get_bind_run, hlo, List.length_nil, Nat.zero_lt_succ, decide_true, M.assert_true_bind_run,
      takeLeftover_bind_run, List.isEmpty_nil, if_true, List.length_replicate, h8, hf]
    rw [extend_bind_run _ _ _ (by simp), extend_bind_run _ _ _ (by simp)]
    simp only [List.append_nil]
    rw [M.bind_ok (flushFull_not (by simp))]
    rw [writeBulk, M.bind_assoc, M.bind_ok e, map_chunks8_zeros _ _ (Nat.le_refl _)]
    simp only [M.modify_bind_run, M.get_bind_run]
    rw [decide_eq_true (by simp [stored]), M.assert_true_bind_run, extend_bind_run _ _ _ (by simp [stored]),
      extend_bind_run _ _ _ (by simp [stored])]
    simp only [M.get_bind_run, List.drop_nil, List.isEmpty_nil, Bool.or_true, M.assert_true_bind_run, List.take_nil,
      List.append_nil]
    rw [M.bind_ok (flushFull_not (by simp [stored])), extend_bind_run _ _ _ (by simp [stored])]
    simp [stored]
  · obtain ⟨c, e⟩ := hc (rchunks8 k (List.replicate (8 * k) false))
    refine ⟨c, .lsb0, ?_⟩
    simp only [lsbLsb, M.get_bind_run, hlo, List.length_nil, Nat.zero_lt_succ, decide_true, M.assert_true_bind_run,
      takeLeftover_bind_run, List.isEmpty_nil, if_true, M.pure_bind_run, List.length_replicate, h8, hb]
    rw [writeBulk, M.bind_assoc, M.bind_ok e, map_rchunks8_zeros _ _ (Nat.le_refl _)]
    simp only [M.modify_bind_run]
    rw [extend_bind_run _ _ _ (by simp [stored])]
    simp [stored]

theorem writeBytes_run {w : Writer} (h : w.Healthy) (hlo : w.leftover = []) (bs : List Byte) :
    writeBytes bs w = (.ok (), { w with inner := { w.inner with calls := w.inner.calls + 1, data := Sink.splice w.inner.data w.inner.pos bs, pos := w.inner.pos + bs.length }, bitsWritten := w.bitsWritten + bs.length * 8 }) := by
  simp only [writeBytes, M.get_bind_run, hlo, List.isEmpty_nil, if_true]
  rw [M.bind_ok (writeAll_run h bs)]
  simp [hlo]

theorem padLoop_run (o : Order) {w : Writer} (h : w.Healthy) (hlo : w.leftover = []) (fuel k : Nat) (hk : k ≤ fuel) :
    ∃ c t, padLoop o fuel (8 * k) w =
      (.ok (), { w.stored (List.replicate k 0) c with leftover := [], tag := t, bitsWritten := w.bitsWritten + 8 * k }) := by
  induction fuel generalizing w k with
  | zero =>
    obtain rfl : k = 0 := by omega
    exact ⟨w.inner.calls, w.tag, by simp [padLoop, stored, put, ← hlo]⟩
  | succ fuel ih =>
    by_cases h0 : k = 0
    · subst h0
      exact ⟨w.inner.calls, w.tag, by simp [padLoop, stored, put, ← hlo]⟩
    · obtain ⟨j, hj, hj1, hjk⟩ : ∃ j, min padChunk (8 * k) = 8 * j ∧ 1 ≤ j ∧ j ≤ k :=
        ⟨min 64 k, by unfold padChunk; omega, by omega, by omega⟩
      simp only [padLoop, if_neg (show ¬ 8 * k = 0 by omega), hj]
      obtain ⟨c1, t1, e1⟩ := writeBitsOrder_zeros h hlo j o
      rw [M.bind_ok e1, show 8 * k - 8 * j = 8 * (k - j) by omega]
      obtain ⟨c, t, e⟩ := ih (w := { w.stored (List.replicate j 0) c1 with leftover := [], tag := t1, bitsWritten := w.bitsWritten + 8 * j })
        h rfl (k - j) (by omega)
      refine ⟨c, t, ?_⟩
      rw [e]
      simp only [stored]
      rw [put_put]
      simp only [List.replicate_append_replicate, List.length_replicate, show j + (k - j) = k by omega,
        show w.inner.pos + j + (k - j) = w.inner.pos + k by omega,
        show w.bitsWritten + 8 * j + 8 * (k - j) = w.bitsWritten + 8 * k by omega]

theorem padWriteLoop_run {w : Writer} (h : w.Healthy) (hlo : w.leftover = []) (fuel k : Nat) (hk : k ≤ fuel) :
    ∃ c, padWriteLoop fuel k w =
      (.ok (), { w.stored (List.replicate k 0) c with bitsWritten := w.bitsWritten + 8 * k }) := by
  induction fuel generalizing w k with
  | zero =>
    obtain rfl : k = 0 := by omega
    exact ⟨w.inner.calls, by simp [padWriteLoop, stored, put]⟩
  | succ fuel ih =>
    by_cases h0 : k = 0
    · subst h0
      exact ⟨w.inner.calls, by simp [padWriteLoop, stored, put]⟩
    · obtain ⟨j, hj, hj1, hjk⟩ : ∃ j, min 64 k = j ∧ 1 ≤ j ∧ j ≤ k := ⟨min 64 k, rfl, by omega, by omega⟩
      simp only [padWriteLoop, if_neg h0, hj]
      have hp : Sink.splice w.inner.data w.inner.pos (List.replicate j 0) =
          put w.inner.data w.inner.pos (List.replicate j 0) := by
        unfold put
        rw [if_neg]
        intro hn
        have := congrArg List.length hn
        simp at this
        omega
      rw [M.bind_ok (writeBytes_run h hlo _), hp]
      obtain ⟨c, e⟩ := ih (w := { w.stored (List.replicate j 0) (w.inner.calls + 1) with bitsWritten := w.bitsWritten + (List.replicate j (0 : Byte)).length * 8 })
        h hlo (k - j) (by omega)
      refine ⟨c, ?_⟩
      refine Eq.trans e ?_
      simp only [stored]
      rw [put_put]
      simp only [List.replicate_append_replicate, List.length_replicate, show j + (k - j) = k by omega,
        show w.inner.pos + j + (k - j) = w.inner.pos + k by omega,
        show w.bitsWritten + j * 8 + 8 * (k - j) = w.bitsWritten + 8 * k by omega]

end Writer

theorem writeBytes_wsim (bs : List Byte) : WSim (Writer.writeBytes bs) (Writer.writeBytes bs) := by
  intro w s h
  rw [Writer.writeBytes_run h.healthy h.empty, Writer.writeBytes_run h.healthy' h.empty']
  refine ⟨_, _, _, rfl, rfl, fun _ _ => ⟨?_, ?_, ?_, h.healthy, h.healthy', h.empty, h.empty'⟩⟩
  · simp only [h.data, h.pos]
  · simp only [h.pos]
  · simp only [h.bitsWritten]

theorem padWrite_wsim {pad : Option (Env → Int)} (h : WholePad peek pad) (o : Option Order) (env : Env) :
    WSim (padWrite o pad env) (padWriteBytes o pad env) := by
  cases pad with
  | none => exact .pure ()
  | some f =>
    obtain ⟨-, hw⟩ := h f rfl
    obtain ⟨hm, hlt⟩ := hw env
    simp only [padWrite, padWriteBytes, padSize]
    by_cases h0 : 0 ≤ f env
    · rw [if_pos ⟨h0, hlt⟩, if_pos (by omega)]
      obtain ⟨n, hn⟩ : ∃ n : Nat, f env = 8 * n := ⟨(f env).toNat / 8, by omega⟩
      rw [hn]
      have e1 : ((8 : Int) * (n : Nat)).toNat = 8 * n := by omega
      have e2 : ((8 : Int) * (n : Nat) / 8).toNat = n := by omega
      rw [e1, e2]
      show WSim (padLoop (o.getD .msb0) (8 * n) (8 * n)) (padWriteLoop n n)
      intro w s hl
      obtain ⟨c1, t1, e1⟩ := Writer.padLoop_run (o.getD .msb0) hl.healthy hl.empty (8 * n) n (by omega)
      obtain ⟨c2, e2⟩ := Writer.padWriteLoop_run hl.healthy' hl.empty' n n (Nat.le_refl n)
      rw [e1, e2]
      refine ⟨_, _, _, rfl, rfl, fun _ _ => ⟨?_, ?_, ?_, hl.healthy, hl.healthy', rfl, hl.empty'⟩⟩
      · simp only [Writer.stored, hl.data, hl.pos]
      · simp only [Writer.stored, hl.pos]
      · simp only [hl.bitsWritten]
    · rw [if_neg (fun h => h0 h.1), if_neg (fun h => by omega)]
      exact .throw _

theorem seekWrite_wsim (sk : Option (Env → Option SeekFrom)) (env : Env) :
    WSim (seekWrite sk env) (seekWrite sk env) := by
  cases sk with
  | none => exact .pure ()
  | some f =>
    simp only [seekWrite]
    cases f env with
    | none => exact .panic
    | some p =>
      dsimp only
      intro w s hl
      have hrun : ∀ t : Writer, t.Healthy → t.inner.data = w.inner.data → t.inner.pos = w.inner.pos →
          Writer.seek p t = match Src.seekTarget w.inner.data.length w.inner.pos p with
            | some n => (.ok (.ok n), { t with leftover := [], tag := .msb0, inner := { t.inner with calls := t.inner.calls + 1, pos := n } })
            | none => (.ok (.error .invalidInput), { t with leftover := [], tag := .msb0, inner := { t.inner with calls := t.inner.calls + 1 } }) := by
        intro t ht hd hp
        simp only [Writer.seek, Sink.seek, ht.1, noFaults, hd, hp, Bool.true_eq_false, if_false]
        cases Src.seekTarget w.inner.data.length w.inner.pos p <;> rfl
      have e1 := hrun w hl.healthy rfl rfl
      have e2 := hrun s hl.healthy' hl.data hl.pos
      cases ht : Src.seekTarget w.inner.data.length w.inner.pos p with
      | some n =>
        rw [ht] at e1 e2
        rw [M.bind_ok e1, M.bind_ok e2]
        exact ⟨_, _, _, rfl, rfl, fun _ _ => ⟨hl.data, rfl, hl.bitsWritten, hl.healthy, hl.healthy', rfl, rfl⟩⟩
      | none =>
        rw [ht] at e1 e2
        rw [M.bind_ok e1, M.bind_ok e2]
        exact ⟨_, _, _, rfl, rfl, fun _ h => by simp at h⟩

theorem primWriteBytes_wsim (W : Nat) (e : Endian) (k v : Nat) :
    WSim (Prim.writeBytes W e k v) (Prim.writeBytes W e k v) := by
  unfold Prim.writeBytes
  refine .ite (.throw _) ?_
  cases e <;> exact writeBytes_wsim _

theorem writeUnsigned_wsim (native : Endian) (W : Nat) {ctx : IntCtx} (h : ctx.isBits = false) (v : Nat) :
    WSim (writeUnsigned native W ctx v) (writeUnsigned native W ctx v) := by
  have hw : ∀ e, WSim (writeWhole W e v) (writeWhole W e v) := fun e => writeBytes_wsim _
  have hb : ∀ e k, WSim (writeUBytes W e k v) (writeUBytes W e k v) := fun e k =>
    .ite (writeBytes_wsim _) (primWriteBytes_wsim _ _ _ _)
  cases ctx <;> simp only [IntCtx.isBits, Bool.true_eq_false] at h <;> simp only [writeUnsigned]
  all_goals first | exact hw _ | exact hb _ _

theorem writeSigned_wsim (native : Endian) (W : Nat) {ctx : IntCtx} (h : ctx.isBits = false) (v : Int) :
    WSim (writeSigned native W ctx v) (writeSigned native W ctx v) := by
  cases ctx <;> simp only [IntCtx.isBits, Bool.true_eq_false] at h <;> simp only [writeSigned]
  all_goals first | exact writeBytes_wsim _ | exact primWriteBytes_wsim _ _ _ _

theorem collWriteAll_wsim {f g : α → M Writer Unit} (h : ∀ a, WSim (f a) (g a)) (l : List α) :
    WSim (Coll.writeAll f l) (Coll.writeAll g l) := by
  induction l with
  | nil => exact .pure ()
  | cons a l ih => simp only [Coll.writeAll]; exact (h a).bind fun _ => ih

theorem u8Write_wsim (native : Endian) {ctx : IntCtx} (h : ctx.isBits = false) (b : Byte) :
    WSim (Coll.u8Write native ctx b) (Coll.u8Write native ctx b) := writeUnsigned_wsim native 1 h _

theorem magicWrite_wsim (native : Endian) (magic : List Byte) :
    WSim (magicWrite native magic) (magicWrite native magic) := collWriteAll_wsim (u8Write_wsim native rfl) _

theorem Attrs.check_wsim (a : Attrs) (env : Env) (v : Val) : WSim (a.check env v) (a.check env v) := by
  unfold Attrs.check
  refine .ite (.throw _) ?_
  split
  · exact .pure ()
  · exact .ite (.throw _) (.pure ())

theorem Attrs.writeP_wsim {a : Attrs} (ha : a.Bytewise seeks peek) (native : Endian)
    {wr wr' : Env → Val → M Writer Unit} (h : ∀ env v, WSim (wr env v) (wr' env v)) (env : Env) (v : Val) :
    WSim (a.writeP withBits native wr env v) (a.writeP withoutBits native wr' env v) := by
  unfold Attrs.writeP
  refine (seekWrite_wsim _ env).bind fun _ => (magicWrite_wsim native a.magic).bind fun _ =>
    (padWrite_wsim ha.2.1 _ _).bind fun _ => ?_
  refine .get (g := fun b => do
      a.check (env.at (if a.usesOffset then b else 0)) v
      a.put wr (env.at (if a.usesOffset then b else 0)) v
      padWrite a.padOrder a.padAfter ((env.at (if a.usesOffset then b else 0)).push v))
    (g' := fun b => do
      a.check (env.at (if a.usesOffset then b else 0)) v
      a.put wr' (env.at (if a.usesOffset then b else 0)) v
      padWriteBytes a.padOrder a.padAfter ((env.at (if a.usesOffset then b else 0)).push v)) fun b => ?_
  exact (a.check_wsim _ v).bind fun _ => (WSim.ite (h _ _) (.pure ())).bind fun _ => padWrite_wsim ha.2.2 _ _

mutual

theorem Ty.writeP_wsim (m : Machine) (seeks peek : Bool) : (t : Ty) → t.Bytewise seeks peek → ∀ env v,
    WSim (t.writeP withBits m env v) (t.writeP withoutBits m env v)
  | .prim _ c, h, env, v => by simp only [Ty.writeP]; exact h.2 env v
  | .option t, h, env, v => by
    have ht := t.writeP_wsim m seeks peek h env
    cases v <;> simp only [Ty.writeP]
    all_goals first | exact .panic | exact .pure () | exact ht _
  | .array n t, h, env, v => by
    simp only [Ty.writeP]
    exact .ite (collWriteAll_wsim (t.writeP_wsim m seeks peek h env) _) .panic
  | .pair a b, h, env, v => by
    have ha := a.writeP_wsim m seeks peek h.1 env
    have hb := b.writeP_wsim m seeks peek h.2 env
    rw [Ty.writeP.eq_def, Ty.writeP.eq_def]
    dsimp only
    split
    · exact (ha _).bind fun _ => hb _
    · exact .panic
  | .vec size l t, h, env, v => by
    simp only [Ty.writeP]
    exact .ite (collWriteAll_wsim (t.writeP_wsim m seeks peek h.2 env) _) .panic
  | .bytes n c, h, env, v => by
    simp only [Ty.writeP]
    exact .ite (collWriteAll_wsim (u8Write_wsim _ (h env)) _) .panic
  | .struct args sk magic fs, h, env, v => by
    simp only [Ty.writeP]
    exact (seekWrite_wsim _ _).bind fun _ => (magicWrite_wsim _ _).bind fun _ => fs.writeP_wsim m seeks peek h.2 _ _ _
  | .enum args magic id store vs, h, env, v => by
    have hvs := vs.writeAtP_wsim m seeks peek h.2.2
    cases v with
    | variant i x =>
      simp only [Ty.writeP]
      refine (magicWrite_wsim _ _).bind fun _ => hvs _ id ?_ _ (h.2.1 i) _ _
      cases id with
      | ctx e => trivial
      | typed sz c => exact h.1.2
    | _ => simp only [Ty.writeP]; exact .panic

theorem Fields.writeP_wsim (m : Machine) (seeks peek : Bool) : (fs : Fields) → fs.Bytewise seeks peek → ∀ env all v,
    WSim (fs.writeP withBits m env all v) (fs.writeP withoutBits m env all v)
  | .nil, _, env, all, v => by simp only [Fields.writeP]; exact .ite (.pure ()) .panic
  | .cons a t tl, h, env, all, v => by
    have ht := t.writeP_wsim m seeks peek h.2.1
    have htl := tl.writeP_wsim m seeks peek h.2.2
    cases v with
    | cons x xs =>
      simp only [Fields.writeP]
      exact (Attrs.writeP_wsim h.1 _ ht env x).bind fun _ => htl _ _ _
    | _ => simp only [Fields.writeP]; exact .panic
  | .temp a t f tl, h, env, all, v => by
    have ht := t.writeP_wsim m seeks peek h.2.1
    have htl := tl.writeP_wsim m seeks peek h.2.2
    cases f with
    | some f =>
      simp only [Fields.writeP]
      exact (Attrs.writeP_wsim h.1 _ ht env _).bind fun _ => htl _ _ _
    | none =>
      simp only [Fields.writeP]
      exact (Attrs.writeP_wsim h.1 _ (fun _ _ => .pure ()) env _).bind fun _ => htl _ _ _

theorem Fields.writeStoredP_wsim (m : Machine) (seeks peek : Bool) {store : Env → Val → M Writer Unit}
    (hs : ∀ env v, WSim (store env v) (store env v)) : (fs : Fields) → fs.Bytewise seeks peek → ∀ env v,
    WSim (fs.writeStoredP withBits m store env v) (fs.writeStoredP withoutBits m store env v)
  | .nil, _, env, v => by simp only [Fields.writeStoredP]; exact .ite (.pure ()) .panic
  | .cons a t tl, h, env, v => by
    have htl := tl.writeP_wsim m seeks peek h.2.2
    cases v with
    | cons x xs => simp only [Fields.writeStoredP]; exact (hs _ _).bind fun _ => htl _ _ _
    | _ => simp only [Fields.writeStoredP]; exact .panic
  | .temp a t _ tl, h, env, v => by simp only [Fields.writeStoredP]; exact .panic

theorem Variants.writeAtP_wsim (m : Machine) (seeks peek : Bool) : (vs : Variants) → vs.Bytewise seeks peek →
    ∀ env (id : IdSrc), (match id with | .ctx _ => True | .typed _ c => ∀ env v, WSim ((c env).write v) ((c env).write v)) →
    ∀ store, (∀ env v, WSim (store env v) (store env v)) → ∀ i v,
    WSim (vs.writeAtP withBits m env id store i v) (vs.writeAtP withoutBits m env id store i v)
  | .nil, _, env, id, _, store, _, i, v => by simp only [Variants.writeAtP]; exact .panic
  | .cons a fs tl, h, env, id, hid, store, hs, i, v => by
    cases i with
    | succ i => simp only [Variants.writeAtP]; exact tl.writeAtP_wsim m seeks peek h.2 _ id hid store hs i v
    | zero =>
      simp only [Variants.writeAtP]
      have hf := WSim.ite (c := a.idPat = true) (fs.writeStoredP_wsim m seeks peek hs h.1 env v)
        (fs.writeP_wsim m seeks peek h.1 env v v)
      cases id with
      | ctx e => exact hf
      | typed sz c =>
        cases a.id with
        | none => exact hf
        | some x => exact (hid env x).bind fun _ => hf

end

/-! ## Whole runs -/

theorem toBytes_noBits {f g : M Writer Unit} (h : WSim f g) : toBytesNoBits g = toBytes f := by
  have h0 : Writer.Level (Writer.new {}) (Writer.new {}) := ⟨rfl, rfl, rfl, ⟨rfl, rfl⟩, ⟨rfl, rfl⟩, rfl, rfl⟩
  obtain ⟨x, w, s, e1, e2, hx⟩ := h _ _ h0
  have hfin : ∀ w : Writer, w.Healthy → w.leftover = [] → ∃ w', Writer.finalize w = (.ok (), w') ∧ w'.inner.data = w.inner.data := by
    intro w hh hl
    simp only [Writer.finalize, M.get_bind_run, hl, List.length_nil, Nat.zero_lt_succ, decide_true, M.assert_true_bind_run]
    obtain ⟨c, t, e⟩ := Writer.writeBitsOrder_zeros hh hl 0 w.tag
    exact ⟨_, e, rfl⟩
  unfold toBytesNoBits toBytes
  rw [e2]
  cases x with
  | ok a =>
    obtain ⟨w', e3, e4⟩ := hfin w (hx a rfl).healthy (hx a rfl).empty
    rw [M.bind_ok e1, e3]
    simp only [e4, (hx a rfl).data]
  | err e => rw [M.bind_err e1]
  | panic => rw [M.bind_panic e1]

theorem Reader.Level.start (d : List Byte) : Reader.Level d (Reader.new { data := d }) (Reader.new { data := d }) :=
  ⟨rfl, rfl, rfl, rfl, rfl, rfl, rfl, fun l h => by simp [Reader.new] at h, rfl⟩

theorem fromReader_noBits {f g : M Reader α} (h : RSim seeks false f g) (d : List Byte) :
    fromReaderNoBits g { data := d } 0 = fromReader f { data := d } 0 ∨
    ((∃ n, fromReaderNoBits g { data := d } 0 = .err (.incomplete n)) ∧
      (seeks = false → ∀ n a, fromReader f { data := d } 0 = .ok (n, a) → ∃ k, n = 8 * k ∧ d.length < k)) := by
  have e1 : readFrom f 0 = f := rfl
  have e2 : readFromNoBits g 0 = g := rfl
  unfold fromReaderNoBits fromReader
  rw [e1, e2]
  rcases h.step d _ _ (Reader.Level.start d) (.inr fun b h => by simp [Reader.new] at h) with
    ⟨x, r, s, e1, e2, hx⟩ | ⟨⟨n, hn⟩, hb⟩
  · left
    rw [e1, e2]
    cases x with
    | ok a => simp only [(hx a rfl).1.bitsRead]
    | err e => rfl
    | panic => rfl
  · right
    refine ⟨⟨n, ?_⟩, fun hs k a he => ?_⟩
    · cases hq : g (Reader.new { data := d }) with
      | mk x s => rw [hq] at hn; simp only at hn; subst hn; rfl
    · cases hq : f (Reader.new { data := d }) with
      | mk x r =>
        rw [hq] at he
        cases x with
        | ok b =>
          simp only [Res.ok.injEq, Prod.mk.injEq] at he
          have := hb hs b r hq
          exact ⟨_, he.1.symm.trans this.counted, this.beyond⟩
        | err e => simp at he
        | panic => simp at he

theorem fromBytes_fromReader (f : M Reader α) (d : List Byte) (off : Nat) : fromBytes f d off =
    match fromReader f { data := d } off with
    | .ok (n, a) => if n / 8 ≤ d.length then .ok ((d.drop (n / 8), n % 8), a) else .err (.incomplete (8 * (n / 8 - d.length)))
    | .err e => .err e
    | .panic => .panic := by
  unfold fromBytes fromReader
  cases readFrom f off (Reader.new { data := d }) with
  | mk x r => cases x <;> rfl

theorem fromBytesNoBits_fromReader (f : M Reader α) (d : List Byte) (off : Nat) : fromBytesNoBits f d off =
    match fromReaderNoBits f { data := d } off with
    | .ok (n, a) => if n / 8 ≤ d.length then .ok ((d.drop (n / 8), n % 8), a) else .err (.incomplete (8 * (n / 8 - d.length)))
    | .err e => .err e
    | .panic => .panic := by
  unfold fromBytesNoBits fromReaderNoBits
  cases readFromNoBits f off (Reader.new { data := d }) with
  | mk x r => cases x <;> rfl

theorem fromBytes_noBits {f g : M Reader α} (h : RSim seeks false f g) (d : List Byte) :
    fromBytesNoBits g d 0 = fromBytes f d 0 ∨
    ((∃ n, fromBytesNoBits g d 0 = .err (.incomplete n)) ∧ (seeks = false → ∀ x, fromBytes f d 0 ≠ .ok x)) := by
  rw [fromBytes_fromReader, fromBytesNoBits_fromReader]
  rcases fromReader_noBits h d with h1 | ⟨⟨n, hn⟩, hb⟩
  · left; rw [h1]
  · right
    rw [hn]
    refine ⟨⟨n, rfl⟩, fun hs x => ?_⟩
    cases hq : fromReader f { data := d } 0 with
    | ok p =>
      obtain ⟨k, a⟩ := p
      obtain ⟨k, rfl, hk⟩ := hb hs k a hq
      simp only [if_neg (show ¬ 8 * k / 8 ≤ d.length by omega)]
      simp
    | err e => simp
    | panic => simp

theorem tryFrom_noBits {f g : M Reader α} (h : RSim seeks false f g) (d : List Byte) :
    tryFromNoBits g d = tryFrom f d ∨
    ((∃ n, tryFromNoBits g d = .err (.incomplete n)) ∧ (seeks = false → ∀ x, tryFrom f d ≠ .ok x)) := by
  unfold tryFromNoBits tryFrom
  rcases fromReader_noBits h d with h1 | ⟨⟨n, hn⟩, hb⟩
  · left; rw [h1]; rfl
  · right
    rw [hn]
    refine ⟨⟨n, rfl⟩, fun hs x => ?_⟩
    cases hq : fromReader f { data := d } 0 with
    | ok p =>
      obtain ⟨k, a⟩ := p
      obtain ⟨k, rfl, hk⟩ := hb hs k a hq
      simp only [if_neg (show ¬ 8 * k / 8 < d.length by omega), if_pos (show 8 * k / 8 > d.length by omega)]
      simp
    | err e => simp
    | panic => simp

end Deku
