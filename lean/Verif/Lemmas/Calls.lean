import Verif.Spec.Calls
import Verif.Spec.Weight
import Verif.Lemmas.CoreSafe
import Verif.Lemmas.FromBytes

/-! # How often a parser calls its source -/

namespace Deku

open Reader

variable {α β σ : Type}

/-- At most `k` calls, whatever comes out. -/
def Calls (k : Nat) (f : M Reader α) : Prop := ∀ r, (f r).2.inner.calls ≤ r.inner.calls + k

namespace Calls

theorem pure {k : Nat} (v : α) : Calls k (Pure.pure v : M Reader α) := fun _ => Nat.le_add_right _ _
theorem throw {k : Nat} (e : DekuError) : Calls k (M.throw e : M Reader α) := fun _ => Nat.le_add_right _ _
theorem panic {k : Nat} : Calls k (M.panic : M Reader α) := fun _ => Nat.le_add_right _ _

theorem bind {j k : Nat} {f : M Reader α} {g : α → M Reader β} (hf : Calls j f) (hg : ∀ v, Calls k (g v)) :
    Calls (j + k) (f >>= g) := by
  intro r
  have h1 := hf r
  rw [M.bind_def]
  rcases hx : f r with ⟨(a | e | _), r1⟩ <;> rw [hx] at h1
  · have h2 := hg a r1
    dsimp only at h1 h2 ⊢
    omega
  · dsimp only at h1 ⊢
    omega
  · dsimp only at h1 ⊢
    omega

theorem mono {j k : Nat} {f : M Reader α} (h : Calls j f) (hk : j ≤ k) : Calls k f :=
  fun r => Nat.le_trans (h r) (Nat.add_le_add_left hk _)

theorem bind0 {k : Nat} {f : M Reader α} {g : α → M Reader β} (hf : Calls 0 f) (hg : ∀ v, Calls k (g v)) :
    Calls k (f >>= g) := Nat.zero_add k ▸ hf.bind hg

theorem map {k : Nat} {f : M Reader α} {g : α → M Reader β} (hf : Calls k f) (hg : ∀ v, Calls 0 (g v)) :
    Calls k (f >>= g) := hf.bind hg

theorem get : Calls 0 (M.get : M Reader Reader) := fun _ => Nat.le_refl _

theorem modify (f : Reader → Reader) (h : ∀ r, (f r).inner = r.inner) : Calls 0 (M.modify f) := by
  intro r
  show (f r).inner.calls ≤ _
  rw [h]
  exact Nat.le_refl _

theorem assert (b : Bool) : Calls 0 (M.assert b : M Reader Unit) := by
  cases b
  · exact panic
  · exact pure ()

theorem ioRead (n : Nat) : Calls 1 (Reader.ioRead n) := by
  intro r
  unfold Reader.ioRead Src.readExact
  rcases r.inner.faults r.inner.calls with _ | ⟨k, e⟩
  · dsimp only
    split <;> exact Nat.le_refl _
  · exact Nat.le_refl _

theorem seek (p : SeekFrom) : Calls 1 (Reader.seek p) := by
  intro r
  have h : (r.inner.seek p).2.calls ≤ r.inner.calls + 1 := by
    unfold Src.seek
    split
    · split <;> exact Nat.le_add_right _ _
    · split
      · exact Nat.le_refl _
      · split <;> exact Nat.le_refl _
  unfold Reader.seek
  rcases hx : r.inner.seek p with ⟨(e | n), s⟩ <;> rw [hx] at h <;> exact h

theorem srcCall (f : Src → Except IoKind Nat × Src) (h : ∀ s, (f s).2.calls ≤ s.calls + 1) : Calls 1 (Coll.srcCall f) := by
  intro r
  have := h r.inner
  unfold Coll.srcCall
  rcases hx : f r.inner with ⟨(e | n), s⟩ <;> rw [hx] at this <;> exact this

theorem readSlots (len : Nat) : ∀ k, Calls k (Reader.readSlots len k)
  | 0 => pure _
  | k + 1 => by
    unfold Reader.readSlots
    rw [Nat.add_comm]
    refine bind (map (ioRead 1) fun x => ?_) fun _ => map (readSlots len k) fun _ => pure _
    split
    · exact throw _
    · exact pure _
    · exact pure _

theorem readPartial (len : Nat) : Calls 1 (Reader.readPartial len) := by
  unfold Reader.readPartial
  refine map (ioRead 1) fun x => ?_
  split
  · exact throw _
  · exact throw _
  · exact pure _

/-- What is pending is not read again. -/
theorem readBitsInto_run (n : Nat) (o : Order) (r : Reader) :
    (Reader.readBitsInto n o r).2.inner.calls ≤ r.inner.calls + (n - (leftoverBits r.leftover).length + 7) / 8 := by
  unfold Reader.readBitsInto
  split
  · exact Nat.le_add_right _ _
  · rw [M.get_bind_run]
    dsimp only
    rw [M.modify_bind_run]
    have tail : ∀ dst : List Bool, Calls 0 (do M.modify (fun r => { r with bitsRead := r.bitsRead + n }); Pure.pure dst : M Reader (List Bool)) :=
      fun dst => bind0 (modify _ fun _ => rfl) fun _ => pure _
    split
    · refine Calls.mono (j := 0) ?_ (Nat.zero_le _) { r with leftover := none }
      cases o <;> exact bind0 (modify _ fun _ => rfl) fun _ => bind0 (pure _) fun _ => tail _
    · split
      · exact Calls.mono (j := 0) (bind0 (pure _) fun _ => tail _) (Nat.zero_le _) { r with leftover := none }
      · refine (?_ : Calls _ _) { r with leftover := none }
        cases o
        all_goals
          dsimp only
          by_cases h8 : (n - (leftoverBits r.leftover).length) % 8 = 0
          · refine Calls.mono (map (readSlots _ _) fun _ => ?_) (by omega)
            rw [if_pos h8]
            exact bind0 (pure _) fun _ => tail _
          · refine Calls.mono (bind (k := 1) (readSlots _ _) fun _ => ?_) (by omega)
            rw [if_neg h8]
            exact map (readPartial _) fun _ => bind0 (modify _ fun _ => rfl) fun _ => bind0 (pure _) fun _ => tail _

theorem readBitsInto (n : Nat) (o : Order) : Calls ((n + 7) / 8) (Reader.readBitsInto n o) := fun r =>
  Nat.le_trans (readBitsInto_run n o r) (by omega)

theorem uintLoop (amt : Nat) : ∀ fuel acc have_, Calls ((amt - have_ + 7) / 8) (Reader.uintLoop amt fuel acc have_)
  | 0, _, _ => pure _
  | fuel + 1, acc, have_ => by
    unfold Reader.uintLoop
    split
    · rename_i h
      refine mono (bind (k := (amt - (have_ + 8) + 7) / 8) (ioRead 1) fun x => ?_) (by omega)
      split
      · exact throw _
      · exact throw _
      · exact uintLoop amt fuel _ _
    · exact pure _

theorem readBitsUintMsb0 (n : Nat) : Calls ((n + 7) / 8) (Reader.readBitsUintMsb0 n) := by
  unfold Reader.readBitsUintMsb0
  refine bind0 (assert _) fun _ => bind0 get fun r => bind0 (modify _ fun _ => rfl) fun _ =>
    map ((uintLoop _ _ _ _).mono (by omega)) fun x => ?_
  dsimp only
  split
  · exact bind0 (modify _ fun _ => rfl) fun _ => bind0 (modify _ fun _ => rfl) fun _ => pure _
  · exact bind0 (modify _ fun _ => rfl) fun _ => pure _

theorem readBytesLeftover (b : Byte) (n : Nat) : Calls 1 (Reader.readBytesLeftover b n) := by
  unfold Reader.readBytesLeftover
  split
  · exact panic
  · refine bind0 (modify _ fun _ => rfl) fun _ => ?_
    dsimp only
    split
    · exact mono (bind0 (modify _ fun _ => rfl) fun _ => pure _) (Nat.zero_le 1)
    · refine map (ioRead _) fun x => ?_
      split
      · exact throw _
      · exact throw _
      · exact bind0 (modify _ fun _ => rfl) fun _ => pure _

theorem readBytes (n : Nat) (o : Order) : Calls (n + 1) (Reader.readBytes n o) := by
  unfold Reader.readBytes
  refine bind0 get fun r => ?_
  split
  · refine mono (map (ioRead _) fun x => ?_) (Nat.le_add_left 1 n)
    split
    · exact throw _
    · exact throw _
    · exact bind0 (modify _ fun _ => rfl) fun _ => pure _
  · exact (readBytesLeftover _ _).mono (Nat.le_add_left 1 n)
  · refine mono (map (readBitsInto _ _) fun _ => ?_) (by omega)
    cases o <;> exact pure _

theorem readBytesConstInto (n : Nat) (o : Order) : Calls (n + 1) (Reader.readBytesConstInto n o) := readBytes n o

theorem insertZeros (cap i : Nat) : ∀ k l, Calls 0 (Prim.insertZeros cap i k l)
  | 0, _ => pure _
  | k + 1, l => by
    unfold Prim.insertZeros
    exact bind0 (assert _) fun _ => bind0 (assert _) fun _ => insertZeros cap i k _

theorem readSlice (W : Nat) (e : Endian) (bits : List Bool) : Calls 0 (Prim.readSlice W e bits) := by
  unfold Prim.readSlice
  dsimp only
  split
  · exact pure _
  · split
    · exact pure _
    · cases e
      · dsimp only
        split
        · exact bind0 panic fun _ => bind0 (insertZeros _ _ _ _) fun _ => bind0 (pure _) fun _ => pure _
        · exact bind0 (pure _) fun _ => bind0 (insertZeros _ _ _ _) fun _ => bind0 (pure _) fun _ => pure _
      · exact bind0 (pure _) fun _ => bind0 (insertZeros _ _ _ _) fun _ => bind0 (insertZeros _ _ _ _) fun _ => pure _

theorem readSliceOrd (W : Nat) (e : Endian) (o : Order) (bits : List Bool) : Calls 0 (Prim.readSliceOrd W e o bits) := by
  unfold Prim.readSliceOrd
  dsimp only
  refine bind0 (assert _) fun _ => ?_
  split
  · exact pure _
  · split
    · exact pure _
    · cases o
      case lsb0 => exact bind0 (insertZeros _ _ _ _) fun _ => pure _
      case msb0 =>
        cases e
        · dsimp only
          split
          · exact bind0 panic fun _ => bind0 (insertZeros _ _ _ _) fun _ => bind0 (pure _) fun _ => pure _
          · exact bind0 (pure _) fun _ => bind0 (insertZeros _ _ _ _) fun _ => bind0 (pure _) fun _ => pure _
        · exact bind0 (pure _) fun _ => bind0 (insertZeros _ _ _ _) fun _ => bind0 (insertZeros _ _ _ _) fun _ => pure _

theorem readBits (W : Nat) (e : Endian) (n : Nat) : Calls (W + 1) (Prim.readBits W e n) := by
  unfold Prim.readBits
  split
  · exact throw _
  · split
    · exact mono ((readBitsUintMsb0 n).map fun _ => pure _) (by omega)
    · exact mono ((readBitsInto n _).map fun _ => readSlice _ _ _) (by omega)

theorem readBitsOrd (W : Nat) (e : Endian) (n : Nat) (o : Order) : Calls (W + 1) (Prim.readBitsOrd W e n o) := by
  unfold Prim.readBitsOrd
  split
  · exact throw _
  · split
    · exact mono ((readBitsUintMsb0 n).map fun _ => pure _) (by omega)
    · exact mono ((readBitsInto n _).map fun _ => readSliceOrd _ _ _ _) (by omega)

theorem readUBytesOrd (W : Nat) (e : Endian) (k : Nat) (o : Order) : Calls (W + 1) (Prim.readUBytesOrd W e k o) := by
  unfold Prim.readUBytesOrd
  split
  · rename_i h
    unfold Prim.readU8Bytes
    exact mono ((readBytesConstInto 1 o).map fun _ => pure _) (by omega)
  · unfold Prim.readBytesOrd
    split
    · exact throw _
    · exact mono ((readBytes k o).map fun _ => pure _) (by omega)

theorem readWhole (W : Nat) (e : Endian) : Calls (W + 1) (Prim.readWhole W e) := by
  unfold Prim.readWhole
  exact (readBytesConstInto W _).map fun _ => pure _

theorem readUnsigned (native : Endian) (W : Nat) (ctx : IntCtx) : Calls (W + 1) (Prim.readUnsigned native W ctx) := by
  cases ctx <;> simp only [Prim.readUnsigned]
  · exact readWhole _ _
  · exact readWhole _ _
  · split
    · exact readUBytesOrd _ _ _ _
    · exact readBits _ _ _
  · exact readUBytesOrd _ _ _ _
  · exact readUBytesOrd _ _ _ _
  · exact readUBytesOrd _ _ _ _
  · exact readBits _ _ _
  · exact readUBytesOrd _ _ _ _
  · split
    · exact readUBytesOrd _ _ _ _
    · exact readBitsOrd _ _ _ _
  · exact readBitsOrd _ _ _ _
  · exact readUBytesOrd _ _ _ _

theorem readSignedBitsOrd (W : Nat) (e : Endian) (n : Nat) (o : Order) : Calls (W + 1) (Prim.readSignedBitsOrd W e n o) := by
  unfold Prim.readSignedBitsOrd
  split
  · exact throw _
  · refine mono ((readBitsInto n _).map fun _ => ?_) (by omega)
    unfold Prim.readSliceSigned
    refine bind0 (readSliceOrd _ _ _ _) fun _ => ?_
    split
    · exact panic
    · exact pure _

theorem readSignedBytesOrd (W : Nat) (e : Endian) (k : Nat) (o : Order) : Calls (W + 1) (Prim.readSignedBytesOrd W e k o) := by
  unfold Prim.readSignedBytesOrd
  split
  · exact throw _
  · exact mono ((readBytes k o).map fun _ => pure _) (by omega)

theorem readSignedWhole (W : Nat) (e : Endian) : Calls (W + 1) (Prim.readSignedWhole W e) := by
  unfold Prim.readSignedWhole
  exact (readBytesConstInto W _).map fun _ => pure _

theorem readSigned (native : Endian) (W : Nat) (ctx : IntCtx) : Calls (W + 1) (Prim.readSigned native W ctx) := by
  cases ctx <;> simp only [Prim.readSigned, Prim.readSignedBits]
  · exact readSignedWhole _ _
  · exact readSignedWhole _ _
  · split
    · exact readSignedBytesOrd _ _ _ _
    · exact readSignedBitsOrd _ _ _ _
  · exact readSignedBytesOrd _ _ _ _
  · exact readSignedBytesOrd _ _ _ _
  · exact readSignedBytesOrd _ _ _ _
  · exact readSignedBitsOrd _ _ _ _
  · exact readSignedBytesOrd _ _ _ _
  · split
    · exact readSignedBytesOrd _ _ _ _
    · exact readSignedBitsOrd _ _ _ _
  · exact readSignedBitsOrd _ _ _ _
  · exact readSignedBytesOrd _ _ _ _

theorem skipTail (n : Nat) (o : Order) : Calls 2 (Reader.skipTail n o) := by
  rw [skipTail_eq]
  refine bind (j := 1) (k := 1) ?_ fun _ => mono ((readBitsInto _ _).map fun _ => pure _) (by omega)
  split
  · unfold skipSeek
    refine bind0 get fun _ => bind0 (assert _) fun _ => map (seek _) fun x => ?_
    split
    · exact throw _
    · exact pure _
  · exact pure _

theorem skipBits (n : Nat) (o : Order) : Calls 2 (Reader.skipBits n o) := by
  intro r
  rcases hl : r.leftover with _ | (b | l)
  · rw [skipBits_other (by simp [hl])]
    exact skipTail n o r
  · rw [skipBits_other (by simp [hl])]
    exact skipTail n o r
  · rw [skipBits_bits hl, M.bind_def]
    have h0 := readBitsInto_run (min n l.length) o r
    rw [hl] at h0
    simp only [leftoverBits] at h0
    rcases hr : Reader.readBitsInto (min n l.length) o r with ⟨(a | e | _), r1⟩ <;> rw [hr] at h0 <;> dsimp only at h0 ⊢
    · have := skipTail (n - min n l.length) o r1
      omega
    · omega
    · omega

theorem u8Read (native : Endian) : Calls 2 (Coll.u8Read native) := (readUnsigned native 1 .unit).map fun _ => pure _

theorem magicRead (native : Endian) : ∀ magic, Calls (2 * magic.length) (Deku.magicRead native magic)
  | [] => pure _
  | b :: bs => by
    unfold Deku.magicRead
    rw [List.length_cons, Nat.mul_add, Nat.add_comm]
    refine bind (u8Read native) fun v => ?_
    split
    · exact throw _
    · exact magicRead native bs

theorem padSize {k : Nat} (n : Int) : Calls k (Deku.padSize n : M Reader Nat) := by
  unfold Deku.padSize
  split
  · exact pure _
  · exact throw _

theorem toUsize {k : Nat} (n : Int) : Calls k (Deku.toUsize n : M Reader Nat) := by
  unfold Deku.toUsize
  split
  · exact pure _
  · exact throw _

theorem usize {k : Nat} (n : Nat) : Calls k (Deku.usize n) := by
  unfold Deku.usize
  split
  · exact pure _
  · exact panic

theorem padRead (order : Option Order) (pad : Option (Env → Int)) (env : Env) :
    Calls (if pad.isSome then 2 else 0) (Deku.padRead order pad env) := by
  cases pad with
  | none => exact pure _
  | some f => exact bind0 (padSize _) fun n => skipBits n _

theorem check (a : Attrs) (env : Env) (v : Val) : Calls 0 (a.check env v : M Reader Unit) := by
  unfold Attrs.check
  split
  · exact throw _
  · split
    · exact pure _
    · split
      · exact throw _
      · exact pure _

theorem limitEval (l : LimitE) (env : Env) : Calls 0 (l.eval env) := by
  cases l with
  | count n => exact (toUsize _).map fun _ => pure _
  | «until» p => exact pure _
  | bytes n => exact (toUsize _).map fun _ => pure _
  | bits n => exact (toUsize _).map fun _ => pure _
  | «end» => exact pure _

theorem «end» : Calls 1 Reader.end := by
  unfold Reader.end
  refine bind0 get fun r => ?_
  split
  · exact pure _
  · refine map (ioRead 1) fun x => ?_
    split
    · exact pure _
    · exact bind0 (modify _ fun _ => rfl) fun _ => pure _
    · exact bind0 (modify _ fun _ => rfl) fun _ => pure _

theorem withCapacity (mem : Nat) (cap : Option Nat) : Calls 0 (Coll.withCapacity mem cap) := by
  cases cap with
  | none => exact pure _
  | some n => exact assert _

end Calls

end Deku
