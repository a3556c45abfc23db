import Verif.Lemmas.Bits
import Verif.Lemmas.Monad
import Verif.Spec.Quiet

/-!
# Writing does not panic
-/

namespace Deku

variable {α β : Type}

/-- From this state there is no panic, and a condition on the number of pending bits afterwards. -/
def Leaves (w : Writer) (f : M Writer α) (Q : α → Nat → Prop) : Prop :=
  (f w).1 ≠ .panic ∧ ∀ a w', f w = (.ok a, w') → Q a w'.leftover.length

namespace Leaves

variable {w : Writer} {Q : α → Nat → Prop} {R : β → Nat → Prop}

theorem bind {f : M Writer α} {g : α → M Writer β} (h : Leaves w f Q)
    (h' : ∀ a w', Q a w'.leftover.length → Leaves w' (g a) R) : Leaves w (f >>= g) R := by
  rcases hf : f w with ⟨a | e | _, w'⟩
  · unfold Leaves
    rw [M.bind_ok hf]
    exact h' a w' (h.2 a w' hf)
  · unfold Leaves
    rw [M.bind_err hf]
    exact ⟨nofun, nofun⟩
  · exact absurd (by rw [hf]) h.1

theorem get {g : Writer → M Writer β} (h : Leaves w (g w) R) : Leaves w (M.get >>= g) R := h

theorem pure {a : α} (h : Q a w.leftover.length) : Leaves w (Pure.pure a) Q :=
  ⟨nofun, fun _ _ e => by cases e; exact h⟩

theorem throw {e : DekuError} : Leaves w (M.throw e) Q := ⟨nofun, nofun⟩

theorem assert {b : Bool} (h : b = true) : Leaves w (M.assert b) (fun _ n => n = w.leftover.length) := by
  subst h
  exact pure (Q := fun _ n => n = w.leftover.length) rfl

theorem modify {f : Writer → Writer} : Leaves w (M.modify f) (fun _ n => n = (f w).leftover.length) :=
  ⟨nofun, fun _ _ e => by cases e; rfl⟩

theorem mono {f : M Writer α} {Q' : α → Nat → Prop} (h : Leaves w f Q) (hq : ∀ a n, Q a n → Q' a n) :
    Leaves w f Q' := ⟨h.1, fun a w' e => hq a _ (h.2 a w' e)⟩

end Leaves

theorem Quiet.leaves {f : M Writer α} (h : Quiet f) {w : Writer} (hw : w.leftover.length < 8) :
    Leaves w f (fun _ n => n < 8) := h w hw

theorem Quiet.of {f : M Writer α} (h : ∀ w, w.leftover.length < 8 → Leaves w f (fun _ n => n < 8)) : Quiet f := h

namespace Quiet

theorem pure (a : α) : Quiet (Pure.pure a) := .of fun _ h => .pure h

theorem throw (e : DekuError) : Quiet (M.throw e : M Writer α) := .of fun _ _ => .throw

theorem bind {f : M Writer α} {g : α → M Writer β} (h : Quiet f) (h' : ∀ a, Quiet (g a)) : Quiet (f >>= g) :=
  .of fun _ hw => .bind (h.leaves hw) fun a _ hw' => (h' a).leaves hw'

theorem get {g : Writer → M Writer β} (h : ∀ w, Quiet (g w)) : Quiet (M.get >>= g) :=
  .of fun w hw => .get ((h w).leaves hw)

theorem modify {f : Writer → Writer} (h : ∀ w, (f w).leftover = w.leftover) : Quiet (M.modify f) :=
  .of fun w hw => Leaves.modify.mono fun _ n e => by rw [h] at e; omega

end Quiet

namespace Writer

variable {w : Writer}

theorem writeAll_leaves (bs : List Byte) : Leaves w (writeAll bs) (fun _ n => n = w.leftover.length) := by
  unfold Leaves writeAll
  rcases w.inner.writeAll bs with ⟨_ | _, s⟩
  · exact ⟨nofun, nofun⟩
  · exact ⟨nofun, fun _ _ e => by cases e; rfl⟩

theorem extend_leaves {bits : List Bool} (h : w.leftover.length + bits.length ≤ 8) :
    Leaves w (extend bits) (fun _ n => n = w.leftover.length + bits.length) := by
  unfold extend
  refine .get (.bind (.assert (by simpa using h)) fun _ w' h' => ?_)
  exact Leaves.modify.mono fun _ n e => by rw [e]; simp [h']

theorem flushFull_leaves (h : w.leftover.length ≤ 8) :
    Leaves w flushFull (fun _ n => n = if w.leftover.length = 8 then 0 else w.leftover.length) := by
  unfold flushFull
  refine .get ?_
  split
  · exact .bind (writeAll_leaves _) fun _ w' h' => Leaves.modify
  · exact .pure rfl

theorem writeChunks_leaves : ∀ (l : List (List Bool)) (w : Writer),
    Leaves w (writeChunks l) (fun _ n => n = w.leftover.length)
  | [], _ => .pure (Q := fun _ n => n = _) rfl
  | c :: cs, w => .bind (writeAll_leaves _) fun _ w' h =>
    (writeChunks_leaves cs w').mono fun _ n e => e.trans h

theorem writeBulk_leaves (l : List (List Bool)) (n : Nat) :
    Leaves w (writeBulk l n) (fun _ n => n = w.leftover.length) :=
  .bind (writeChunks_leaves l w) fun _ w' h => Leaves.modify.mono fun _ n e => e.trans h

theorem takeLeftover_leaves : Leaves w takeLeftover (fun a n => a = w.leftover ∧ n = 0) :=
  .get (.bind .modify fun _ w' h => .pure ⟨rfl, h⟩)

theorem length_fwdRemainder (l : List Bool) : (fwdRemainder l).length = l.length % 8 := by
  simp only [fwdRemainder, List.length_drop]; omega

theorem length_bwdRemainder (l : List Bool) : (bwdRemainder l).length = l.length % 8 := by
  simp only [bwdRemainder, List.length_take]; omega

theorem msbMsb_quiet (bits : List Bool) : Quiet (msbMsb bits) := .of fun w hw => by
  unfold msbMsb
  refine .get (.bind (.assert (by simpa using hw)) fun _ w1 h1 => .bind takeLeftover_leaves fun lo w2 h2 => ?_)
  obtain ⟨rfl, h2⟩ := h2
  have tail : ∀ (rest : List Bool) (w3 : Writer), w3.leftover.length + rest.length % 8 < 8 → Leaves w3 (do
      writeBulk (chunks8 (rest.length / 8) rest) (rest.length - (fwdRemainder rest).length)
      extend (fwdRemainder rest)
      M.modify (fun w => { w with tag := .msb0 })) (fun _ n => n < 8) := by
    intro rest w3 h3
    refine .bind (writeBulk_leaves _ _) fun _ w4 h4 => .bind (extend_leaves (by rw [length_fwdRemainder]; omega)) fun _ w5 h5 => ?_
    rw [length_fwdRemainder] at h5
    exact Leaves.modify.mono fun _ n e => by rw [e]; simp only; omega
  split
  · exact .bind (.pure (Q := fun a n => n = 0 ∧ a = bits) ⟨h2, rfl⟩) fun _ w3 h3 => tail _ _ (by omega)
  · refine .bind (extend_leaves (by omega)) fun _ w3 h3 => .bind (extend_leaves (by simp; omega)) fun _ w4 h4 => ?_
    simp only [List.length_take] at h4
    refine .get (.bind (.assert ?_) fun _ w5 h5 => .bind (flushFull_leaves (by omega)) fun _ w6 h6 =>
    .bind (.pure (Q := fun a n => n = w6.leftover.length ∧ a = bits.drop (min (8 - w1.leftover.length) bits.length)) ⟨rfl, rfl⟩) fun _ w7 h7 => tail _ _ ?_)
    · simp only [Bool.or_eq_true, decide_eq_true_eq, List.isEmpty_iff, List.drop_eq_nil_iff]
      omega
    · rw [h7.2, List.length_drop]
      split at h6 <;> omega

theorem lsbLsb_quiet (bits : List Bool) : Quiet (lsbLsb bits) := .of fun w hw => by
  unfold lsbLsb
  refine .get (.bind (.assert (by simpa using hw)) fun _ w1 h1 => .bind takeLeftover_leaves fun lo w2 h2 => ?_)
  obtain ⟨rfl, h2⟩ := h2
  have tail : ∀ (rest : List Bool) (w3 : Writer), w3.leftover.length + rest.length % 8 < 8 → Leaves w3 (do
      writeBulk (rchunks8 (rest.length / 8) rest) (rest.length - (bwdRemainder rest).length)
      extend (bwdRemainder rest)
      M.modify (fun w => { w with tag := .lsb0 })) (fun _ n => n < 8) := by
    intro rest w3 h3
    refine .bind (writeBulk_leaves _ _) fun _ w4 h4 => .bind (extend_leaves (by rw [length_bwdRemainder]; omega)) fun _ w5 h5 => ?_
    rw [length_bwdRemainder] at h5
    exact Leaves.modify.mono fun _ n e => by rw [e]; simp only; omega
  split
  · exact .bind (.pure (Q := fun a n => n = 0 ∧ a = bits) ⟨h2, rfl⟩) fun _ w3 h3 => tail _ _ (by omega)
  · refine .bind (extend_leaves (by simp; omega)) fun _ w3 h3 => .bind (extend_leaves (by simp at h3 ⊢; omega)) fun _ w4 h4 => ?_
    simp only [List.length_drop] at h3 h4
    refine .get (.bind (.assert ?_) fun _ w5 h5 => .bind (flushFull_leaves (by omega)) fun _ w6 h6 =>
    .bind (.pure (Q := fun a n => n = w6.leftover.length ∧ a = bits.take (bits.length - min (8 - w1.leftover.length) bits.length)) ⟨rfl, rfl⟩) fun _ w7 h7 => tail _ _ ?_)
    · simp only [Bool.or_eq_true, decide_eq_true_eq, List.isEmpty_iff, List.take_eq_nil_iff]
      rcases Nat.eq_zero_or_pos (bits.length - min (8 - w1.leftover.length) bits.length) with h | h
      · exact .inr (.inl h)
      · left; omega
    · rw [h7.2, List.length_take]
      split at h6 <;> omega

theorem lsbMsb_quiet (bits : List Bool) : Quiet (lsbMsb bits) := .of fun w hw => by
  unfold lsbMsb
  refine .get (.bind (.assert (by simpa using hw)) fun _ w1 h1 => .bind takeLeftover_leaves fun lo w2 h2 => ?_)
  obtain ⟨rfl, h2⟩ := h2
  obtain ⟨x, hx⟩ : ∃ x : List Bool × List Bool, x = (if w1.leftover.isEmpty then (([] : List Bool), ([] : List Bool)) else
    (w1.leftover.take (min (8 - bits.length % 8) w1.leftover.length), w1.leftover.drop (min (8 - bits.length % 8) w1.leftover.length))) := ⟨_, rfl⟩
  have hl : bits.length % 8 + x.1.length ≤ 8 ∧ (bits.length % 8 + x.1.length = 8 ∨ x.2 = []) ∧ x.2.length < 8 := by
    rw [hx]
    split
    · simp; omega
    · simp only [List.length_take, List.length_drop, List.drop_eq_nil_iff]
      omega
  simp only
  rw [← hx]
  obtain ⟨c, rest⟩ := x
  simp only at hl ⊢
  refine .bind (writeBulk_leaves _ _) fun _ w3 h3 => .bind (extend_leaves (by rw [length_bwdRemainder]; omega)) fun _ w4 h4 => ?_
  rw [length_bwdRemainder] at h4
  refine .bind (extend_leaves (by omega)) fun _ w5 h5 => .bind .modify fun _ w6 h6 => ?_
  simp only at h6
  refine .get (.bind (.assert ?_) fun _ w7 h7 => .bind (flushFull_leaves (by omega)) fun _ w8 h8 => ?_)
  · simp only [Bool.or_eq_true, decide_eq_true_eq, List.isEmpty_iff]
    rcases hl.2.1 with h | h
    · left; omega
    · exact .inr h
  · have hz : rest = [] → rest.length = 0 := by rintro rfl; rfl
    have hb : w8.leftover.length + rest.length < 8 := by
      rcases hl.2.1 with h | h
      · split at h8 <;> omega
      · have := hz h
        split at h8 <;> omega
    exact (extend_leaves (by omega)).mono fun _ n e => by omega

theorem msbLsb_quiet (bits : List Bool) : Quiet (msbLsb bits) := .of fun w hw => by
  unfold msbLsb
  refine .get (.bind (.assert (by simpa using hw)) fun _ w1 h1 => .bind takeLeftover_leaves fun lo w2 h2 => ?_)
  obtain ⟨rfl, h2⟩ := h2
  obtain ⟨x, hx⟩ : ∃ x : List Bool × List Bool × List Bool × List Bool, x = (if w1.leftover.isEmpty then (([] : List Bool), ([] : List Bool), bits, ([] : List Bool)) else
    (w1.leftover.take (min (8 - bits.length % 8) w1.leftover.length),
     bits.take (min bits.length (8 - min (8 - bits.length % 8) w1.leftover.length)),
     bits.drop (min bits.length (8 - min (8 - bits.length % 8) w1.leftover.length)),
     w1.leftover.drop (min (8 - bits.length % 8) w1.leftover.length))) := ⟨_, rfl⟩
  have hl : x.1.length + x.2.1.length ≤ 8 ∧
      (if x.1.length + x.2.1.length = 8 then 0 else x.1.length + x.2.1.length) + x.2.2.1.length % 8 ≤ 8 ∧ x.2.2.2.length < 8 ∧
      (if x.1.length + x.2.1.length = 8 then 0 else x.1.length + x.2.1.length) + x.2.2.1.length % 8 +
        min (8 - x.2.2.1.length % 8) x.2.2.2.length ≤ 8 ∧
      ((if x.1.length + x.2.1.length = 8 then 0 else x.1.length + x.2.1.length) + x.2.2.1.length % 8 +
        min (8 - x.2.2.1.length % 8) x.2.2.2.length = 8 ∨ x.2.2.2.length ≤ min (8 - x.2.2.1.length % 8) x.2.2.2.length) := by
    rw [hx]
    split
    · simp; omega
    · simp only [List.length_take, List.length_drop]
      split <;> omega
  simp only
  rw [← hx]
  obtain ⟨f, c, b, l⟩ := x
  simp only at hl ⊢
  refine .bind (extend_leaves (by omega)) fun _ w3 h3 => .bind (extend_leaves (by omega)) fun _ w4 h4 =>
    .bind (flushFull_leaves (by omega)) fun _ w5 h5 => .bind (writeBulk_leaves _ _) fun _ w6 h6 => ?_
  have e4 : w4.leftover.length = f.length + c.length := by omega
  rw [e4] at h5
  rw [← h5, ← h6] at hl
  refine .get (.bind (.assert (by rw [length_fwdRemainder]; simpa using hl.2.1)) fun _ w7 h7 => ?_)
  simp only [length_fwdRemainder]
  refine .bind (extend_leaves (by rw [length_fwdRemainder]; omega)) fun _ w8 h8 => ?_
  rw [length_fwdRemainder] at h8
  refine .bind (extend_leaves (by rw [List.length_take]; omega)) fun _ w9 h9 => ?_
  rw [List.length_take] at h9
  refine .get (.bind (.assert ?_) fun _ w10 h10 => .bind (flushFull_leaves (by omega)) fun _ w11 h11 =>
    .bind (extend_leaves (by rw [List.length_drop]; split at h11 <;> omega)) fun _ w12 h12 => ?_)
  · simp only [Bool.or_eq_true, decide_eq_true_eq, List.isEmpty_iff, List.drop_eq_nil_iff]
    omega
  · rw [List.length_drop] at h12
    refine Leaves.modify.mono fun _ n e => ?_
    simp only at e
    split at h11 <;> omega

theorem writeBitsOrder_quiet (bits : List Bool) (o : Order) : Quiet (writeBitsOrder bits o) := by
  unfold writeBitsOrder
  refine .get fun w => ?_
  split
  · exact msbMsb_quiet bits
  · exact msbLsb_quiet bits
  · exact lsbMsb_quiet bits
  · exact lsbLsb_quiet bits

theorem writeAll_quiet (bs : List Byte) : Quiet (writeAll bs) := .of fun _ hw =>
  (writeAll_leaves bs).mono fun _ _ e => by omega

theorem writeBytes_quiet (bs : List Byte) : Quiet (writeBytes bs) := by
  unfold writeBytes writeBits
  refine .get fun w => ?_
  split
  · exact (writeAll_quiet bs).bind fun _ => .modify fun _ => rfl
  · exact writeBitsOrder_quiet _ _

theorem finalize_quiet : Quiet finalize := .of fun w hw => by
  unfold finalize
  exact .get (.bind (.assert (by simpa using hw)) fun _ w' h' => (writeBitsOrder_quiet _ _).leaves (by omega))

theorem seek_quiet (p : SeekFrom) : Quiet (seek p) := fun w _ => by
  unfold seek
  exact ⟨nofun, fun _ _ e => by cases e; exact Nat.zero_lt_succ 7⟩

/-- The fast path is taken only in Msb0 order. -/
theorem writeBitsUintMsb0_leaves {w : Writer} {v n : Nat} (h1 : 1 ≤ n) (h2 : n ≤ 64) (ht : w.tag = .msb0) :
    Leaves w (writeBitsUintMsb0 v n) (fun _ n => n < 8) := by
  unfold writeBitsUintMsb0
  refine .get (.bind (.assert (by simp [h1, h2])) fun _ w1 _ => .bind (.assert (by simp [ht])) fun _ w2 _ => ?_)
  have hm : ∀ w' : Writer, Leaves w' (M.modify fun w' => { w' with leftover := bitsBE ((w.leftover.length + n) % 8) (ofBits w.leftover * 2 ^ n + v % 2 ^ n), tag := .msb0 })
      (fun _ n => n < 8) := fun w' => Leaves.modify.mono fun _ k e => by
    rw [e]; simp only [length_bitsBE]; omega
  simp only
  split
  · exact .bind (writeAll_leaves _) fun _ _ _ => .bind .modify fun _ w' _ => hm w'
  · exact hm w2

end Writer

namespace Quiet

theorem ite {c : Prop} [Decidable c] {f g : M Writer α} (hf : c → Quiet f) (hg : ¬ c → Quiet g) :
    Quiet (if c then f else g) := by
  split
  · exact hf ‹_›
  · exact hg ‹_›

end Quiet

namespace Prim

open Writer

theorem checkFirst_quiet (k : Nat) (x : Option Nat) : Quiet (checkFirst k x) := by
  unfold checkFirst
  split
  · exact .ite (fun _ => .throw _) fun _ => .pure _
  · exact .pure _

theorem checkLast_quiet (e k : Nat) (x : Option Nat) : Quiet (checkLast e k x) := by
  unfold checkLast
  split
  · exact .ite (fun _ => .throw _) fun _ => .pure _
  · exact .pure _

theorem writeLoop_quiet (o : Order) : ∀ bs n, Quiet (writeLoop o bs n)
  | [], _ => .pure _
  | c :: cs, n => by
    unfold writeLoop
    exact .ite (fun _ => writeBitsOrder_quiet _ _) fun _ => (writeBitsOrder_quiet _ _).bind fun _ => writeLoop_quiet o cs _

theorem writeBitsOrd_quiet (W : Nat) (e : Endian) {n : Nat} (hn : n ≠ 0) (o : Order) (v : Nat) :
    Quiet (writeBitsOrd W e n o v) := by
  unfold writeBitsOrd
  refine .ite (fun _ => .throw _) fun _ => ?_
  split
  · exact (checkLast_quiet _ _ _).bind fun _ => writeLoop_quiet _ _ _
  · exact (checkFirst_quiet _ _).bind fun _ => .ite (fun _ => writeBitsOrder_quiet _ _) fun _ => writeLoop_quiet _ _ _
  · refine .of fun w hw => .get ?_
    split
    · rename_i h
      split
      · exact .throw
      · exact writeBitsUintMsb0_leaves (by omega) h.1 h.2
    · exact ((checkFirst_quiet _ _).bind fun _ => writeBitsOrder_quiet _ _).leaves hw

theorem writeU8BitsOrd_quiet {n : Nat} (hn : n ≠ 0) (o : Order) (v : Nat) : Quiet (writeU8BitsOrd n o v) := by
  unfold writeU8BitsOrd
  refine .of fun w hw => .get ?_
  split
  · rename_i h
    split
    · exact .throw
    · exact writeBitsUintMsb0_leaves (by omega) (by omega) h.2.1
  · exact (Quiet.ite (fun _ => .throw _) fun _ => (checkFirst_quiet _ _).bind fun _ => writeBitsOrder_quiet _ _).leaves hw

theorem writeBits_quiet (W : Nat) (e : Endian) (n v : Nat) : Quiet (writeBits W e n v) := by
  unfold writeBits
  refine .ite (fun _ => .throw _) fun _ => ?_
  cases e
  · exact (checkLast_quiet _ _ _).bind fun _ => writeLoop_quiet _ _ _
  · exact (checkFirst_quiet _ _).bind fun _ => writeBitsOrder_quiet _ _

theorem writeSignedBits_quiet (W : Nat) (e : Endian) (n : Nat) (v : Int) : Quiet (writeSignedBits W e n v) := by
  unfold writeSignedBits
  refine .ite (fun _ => .throw _) fun _ => ?_
  cases e
  · exact (checkLast_quiet _ _ _).bind fun _ => writeLoop_quiet _ _ _
  · exact (checkFirst_quiet _ _).bind fun _ => writeBitsOrder_quiet _ _

theorem writeBytes_quiet (W : Nat) (e : Endian) (k v : Nat) : Quiet (writeBytes W e k v) := by
  unfold writeBytes
  refine .ite (fun _ => .throw _) fun _ => ?_
  cases e <;> exact Writer.writeBytes_quiet _

end Prim

namespace Prim

theorem writeUnsigned_quiet (nat : Endian) (W : Nat) {ctx : IntCtx} (h : ctx.SomeBits) (v : Nat) :
    Quiet (writeUnsigned nat W ctx v) := by
  cases ctx <;> simp only [IntCtx.SomeBits] at h <;>
  simp only [writeUnsigned, writeWhole, writeUBits, writeUBytes, writeUBitsOrd, writeU8Bytes] <;>
  first
  | exact Writer.writeBytes_quiet _
  | exact .ite (fun _ => writeU8BitsOrd_quiet h _ _) fun _ => writeBitsOrd_quiet _ _ h _ _
  | exact .ite (fun _ => writeU8BitsOrd_quiet h _ _) fun _ => writeBits_quiet _ _ _ _
  | exact .ite (fun _ => Writer.writeBytes_quiet _) fun _ => writeBytes_quiet _ _ _ _

theorem writeSigned_quiet (nat : Endian) (W : Nat) {ctx : IntCtx} (h : ctx.SomeBits) (v : Int) :
    Quiet (writeSigned nat W ctx v) := by
  cases ctx <;> simp only [IntCtx.SomeBits] at h <;>
  simp only [writeSigned, writeWhole] <;>
  first
  | exact Writer.writeBytes_quiet _
  | exact writeSignedBits_quiet _ _ _ _
  | exact writeBitsOrd_quiet _ _ h _ _
  | exact writeBytes_quiet _ _ _ _

end Prim

theorem uintCodec_quiet (nat : Endian) (W : Nat) {ctx : IntCtx} (h : ctx.SomeBits) {n : Int} (h0 : 0 ≤ n) (hn : n < 256 ^ W) :
    Quiet ((uintCodec nat W ctx).write (.num n)) := by
  show Quiet (if 0 ≤ n ∧ n < 256 ^ W then _ else _)
  rw [if_pos ⟨h0, hn⟩]
  exact Prim.writeUnsigned_quiet nat W h _

namespace Coll

theorem writeAll_quiet {f : α → M Writer Unit} : ∀ (l : List α), (∀ x ∈ l, Quiet (f x)) → Quiet (Coll.writeAll f l)
  | [], _ => .pure _
  | x :: l, h => (h x (List.mem_cons_self)).bind fun _ => writeAll_quiet l fun y hy => h y (List.mem_cons_of_mem _ hy)

theorem u8Write_quiet (nat : Endian) {ctx : IntCtx} (h : ctx.SomeBits) (b : Byte) : Quiet (u8Write nat ctx b) :=
  Prim.writeUnsigned_quiet nat 1 h _

end Coll

theorem magicWrite_quiet (nat : Endian) (magic : List Byte) : Quiet (magicWrite nat magic) :=
  Coll.writeAll_quiet _ fun _ _ => Coll.u8Write_quiet nat (ctx := .unit) trivial _

theorem padLoop_quiet (o : Order) : ∀ k n, Quiet (padLoop o k n)
  | 0, _ => .pure _
  | k + 1, n => by
    unfold padLoop
    exact .ite (fun _ => .pure _) fun _ => (Writer.writeBitsOrder_quiet _ _).bind fun _ => padLoop_quiet o k _

theorem padWrite_quiet (o : Option Order) (pad : Option (Env → Int)) (env : Env) : Quiet (padWrite o pad env) := by
  unfold padWrite padSize
  split
  · exact .pure _
  · exact .bind (.ite (fun _ => .pure _) fun _ => .throw _) fun _ => padLoop_quiet _ _ _

theorem seekWrite_quiet {s : Option (Env → Option SeekFrom)} {env : Env} (h : ∀ f, s = some f → f env ≠ none) :
    Quiet (seekWrite s env) := by
  unfold seekWrite
  split
  · exact .pure _
  · rename_i f
    split
    · exact absurd ‹_› (h f rfl)
    · refine (Writer.seek_quiet _).bind fun x => ?_
      cases x
      · exact .throw _
      · exact .pure _

theorem Attrs.write_quiet {a : Attrs} (nat : Endian) {wr : Env → Val → M Writer Unit} {ty : Env → Val → Prop}
    (hw : ∀ env v, ty env v → Quiet (wr env v)) {env : Env} {v : Val} (h : a.Writes ty env v) :
    Quiet (a.write nat wr env v) := by
  unfold Attrs.write
  refine (seekWrite_quiet h.1).bind fun _ => (magicWrite_quiet _ _).bind fun _ => (padWrite_quiet _ _ _).bind fun _ =>
    .get fun w => .bind ?_ fun _ => .bind ?_ fun _ => padWrite_quiet _ _ _
  · unfold Attrs.check
    refine .ite (fun _ => .throw _) fun _ => ?_
    split
    · exact .pure _
    · exact .ite (fun _ => .throw _) fun _ => .pure _
  · exact .ite (fun hc => hw _ _ (h.2 _ hc)) fun _ => .pure _

mutual

theorem Ty.write_quiet (m : Machine) : ∀ (t : Ty) {env : Env} {v : Val}, t.Writes m env v → Quiet (t.write m env v)
  | .prim _ c, env, v, h => by simp only [Ty.write]; exact h
  | .option t, env, v, h => by
    simp only [Ty.write]
    rcases h with rfl | ⟨x, rfl, h⟩
    · exact .pure _
    · exact t.write_quiet m h
  | .array n t, env, v, h => by
    simp only [Ty.write]
    rw [if_pos ⟨h.1, h.2.1⟩]
    exact Coll.writeAll_quiet _ fun x hx => t.write_quiet m (h.2.2 x hx)
  | .pair a b, env, v, h => by
    obtain ⟨x, y, rfl, hx, hy⟩ := h
    simp only [Ty.write]
    exact (a.write_quiet m hx).bind fun _ => b.write_quiet m hy
  | .vec _ _ t, env, v, h => by
    simp only [Ty.write]
    rw [if_pos h.1]
    exact Coll.writeAll_quiet _ fun x hx => t.write_quiet m (h.2 x hx)
  | .bytes _ ctx, env, v, h => by
    simp only [Ty.write]
    rw [if_pos h.1]
    exact Coll.writeAll_quiet _ fun x _ => h.2 x
  | .struct args sk magic fs, env, v, h => by
    simp only [Ty.write]
    exact (seekWrite_quiet h.1).bind fun _ => (magicWrite_quiet _ _).bind fun _ => fs.write_quiet m h.2
  | .enum args magic id store vs, env, v, h => by
    obtain ⟨i, fs, rfl, h⟩ := h
    simp only [Ty.write]
    exact (magicWrite_quiet _ _).bind fun _ => vs.writeAt_quiet m h

theorem Fields.write_quiet (m : Machine) : ∀ (fs : Fields) {env : Env} {all v : Val}, fs.Writes m env all v →
    Quiet (fs.write m env all v)
  | .nil, env, all, v, h => by
    have h : v = .nil := h
    subst h
    simp only [Fields.write, if_true]
    exact .pure _
  | .cons a t tl, env, all, v, h => by
    obtain ⟨x, xs, rfl, ha, hr⟩ := h
    simp only [Fields.write]
    exact (a.write_quiet m.native (fun env v h => t.write_quiet m h) ha).bind fun _ => tl.write_quiet m hr
  | .temp a t value tl, env, all, v, h => by
    cases value with
    | some f =>
      obtain ⟨ha, hr⟩ := h
      simp only [Fields.write]
      exact (a.write_quiet m.native (fun env v h => t.write_quiet m h) ha).bind fun _ => tl.write_quiet m hr
    | none =>
      obtain ⟨ha, hr⟩ := h
      simp only [Fields.write]
      exact (a.write_quiet m.native (fun env v _ => .pure _) ha).bind fun _ => tl.write_quiet m hr

theorem Fields.writeStored_quiet (m : Machine) {store : Env → Val → M Writer Unit} : ∀ (fs : Fields) {env : Env} {v : Val},
    fs.WritesStored m store env v → Quiet (fs.writeStored m store env v)
  | .nil, env, v, h => by
    have h : v = .nil := h
    subst h
    simp only [Fields.writeStored, if_true]
    exact .pure _
  | .cons a t tl, env, v, h => by
    obtain ⟨x, xs, rfl, ha, hr⟩ := h
    simp only [Fields.writeStored]
    exact Quiet.bind ha fun _ => tl.write_quiet m hr
  | .temp _ _ _ _, _, _, h => h.elim

theorem Variants.writeAt_quiet (m : Machine) {id : IdSrc} {store : Env → Val → M Writer Unit} :
    ∀ (vs : Variants) {env : Env} {i : Nat} {v : Val}, vs.WritesAt m env id store i v → Quiet (vs.writeAt m env id store i v)
  | .nil, _, _, _, h => h.elim
  | .cons a fs tl, env, 0, v, h => by
    obtain ⟨h1, h2⟩ := h
    have hb : Quiet (if a.idPat then fs.writeStored m store env v else fs.write m env v v) := by
      split
      · rw [if_pos ‹_›] at h2
        exact fs.writeStored_quiet m h2
      · rw [if_neg ‹_›] at h2
        exact fs.write_quiet m h2
    simp only [Variants.writeAt]
    cases id with
    | ctx e => exact Quiet.bind (f := (pure () : M Writer Unit)) (.pure ()) fun _ => hb
    | typed size c =>
      rcases hi : a.id with _ | x
      · exact Quiet.bind (f := (pure () : M Writer Unit)) (.pure ()) fun _ => hb
      · rw [hi] at h1
        exact Quiet.bind h1 fun _ => hb
  | .cons a fs tl, env, i + 1, v, h => by
    simp only [Variants.writeAt]
    exact tl.writeAt_quiet m h

end

end Deku
