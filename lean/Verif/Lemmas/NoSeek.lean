import Verif.Lemmas.Monad
import Verif.Model.Toplevel
import Verif.Spec.Position

/-!
# Reading and writing without seeking
-/

namespace Deku

namespace Commutes

variable {σ α β : Type} {φ : σ → σ}

theorem pure (a : α) : Commutes φ (Pure.pure a : M σ α) := fun _ => rfl

theorem throw (e : DekuError) : Commutes φ (M.throw e : M σ α) := fun _ => rfl

theorem panic : Commutes φ (M.panic : M σ α) := fun _ => rfl

theorem assert (b : Bool) : Commutes φ (M.assert b : M σ Unit) := by
  cases b
  · exact fun _ => rfl
  · exact fun _ => rfl

theorem modify {g : σ → σ} (h : ∀ s, g (φ s) = φ (g s)) : Commutes φ (M.modify g) := fun s => by
  simp [M.modify, h]

theorem bind {f : M σ α} {g : α → M σ β} (hf : Commutes φ f) (hg : ∀ a, Commutes φ (g a)) :
    Commutes φ (f >>= g) := fun s => by
  have h := hf s
  rcases hx : f s with ⟨x, s'⟩
  rw [hx] at h
  cases x with
  | ok a => rw [M.bind_ok h, M.bind_ok hx]; exact hg a s'
  | err e => rw [M.bind_err h, M.bind_err hx]
  | panic => rw [M.bind_panic h, M.bind_panic hx]

theorem get {g : σ → M σ β} (h : ∀ s, g (φ s) = g s) (hg : ∀ s, Commutes φ (g s)) :
    Commutes φ (M.get >>= g) := fun s => by
  rw [M.get_bind_run, M.get_bind_run, h]
  exact hg s s

theorem ite {c : Prop} [Decidable c] {f g : M σ α} (hf : c → Commutes φ f) (hg : ¬ c → Commutes φ g) :
    Commutes φ (if c then f else g) := by
  split
  · exact hf ‹_›
  · exact hg ‹_›

end Commutes

/-- Closes goals of the form `Commutes φ f` by following the structure of `f`, with the given lemmas for
the calls in it. -/
macro "commute" "[" ts:term,* "]" : tactic => do
  let ts := ts.getElems
  `(tactic| repeat' with_reducible (first
    $[| apply $ts]* | assumption | exact Commutes.pure _ | exact Commutes.throw _ | exact Commutes.panic
    | exact Commutes.assert _ | exact Commutes.modify (by with_unfolding_all exact fun _ => rfl)
    | refine Commutes.get (by with_unfolding_all exact fun _ => rfl) (fun _ => ?_)
    | refine Commutes.bind ?_ (fun _ => ?_) | split | dsimp only))

section Reading

/-! ### Reading -/

/-- `read_exact` does not notice the change of the source. -/
def ReadsAlike (ψ : Src → Src) : Prop := ∀ n, Commutes (Reader.onSrc ψ) (Reader.ioRead n)

/-- `ReadExact` does not notice it. -/
def ListsAlike (ψ : Src → Src) (lists : Bool) : Prop :=
  lists = true → ∀ n, Commutes (Reader.onSrc ψ) (Coll.readExact n)

variable {ψ : Src → Src}

namespace Reader

theorem ioRead_onSrc (hψ : ReadsAlike ψ) (n : Nat) : Commutes (Reader.onSrc ψ) (ioRead n) := hψ n

theorem end_onSrc (hψ : ReadsAlike ψ) : Commutes (Reader.onSrc ψ) Reader.end := by
  unfold «end»; commute [ioRead_onSrc hψ]

theorem readSlots_onSrc (hψ : ReadsAlike ψ) (d : Nat) : ∀ k, Commutes (Reader.onSrc ψ) (readSlots d k)
  | 0 => .pure _
  | k + 1 => by have := readSlots_onSrc hψ d k; unfold readSlots; commute [ioRead_onSrc hψ]

theorem readPartial_onSrc (hψ : ReadsAlike ψ) (d : Nat) : Commutes (Reader.onSrc ψ) (readPartial d) := by
  unfold readPartial; commute [ioRead_onSrc hψ]

theorem readBitsInto_onSrc (hψ : ReadsAlike ψ) (n : Nat) (o : Order) : Commutes (Reader.onSrc ψ) (readBitsInto n o) := by
  unfold readBitsInto; commute [readSlots_onSrc hψ, readPartial_onSrc hψ]

theorem uintLoop_onSrc (hψ : ReadsAlike ψ) (amt : Nat) : ∀ fuel acc h, Commutes (Reader.onSrc ψ) (uintLoop amt fuel acc h)
  | 0, _, _ => .pure _
  | fuel + 1, acc, h => by unfold uintLoop; commute [uintLoop_onSrc hψ amt fuel, ioRead_onSrc hψ]

theorem readBitsUintMsb0_onSrc (hψ : ReadsAlike ψ) (n : Nat) : Commutes (Reader.onSrc ψ) (readBitsUintMsb0 n) := by
  unfold readBitsUintMsb0; commute [uintLoop_onSrc hψ]

theorem readBytesLeftover_onSrc (hψ : ReadsAlike ψ) (b : Byte) (n : Nat) : Commutes (Reader.onSrc ψ) (readBytesLeftover b n) := by
  unfold readBytesLeftover; commute [ioRead_onSrc hψ]

theorem readBytes_onSrc (hψ : ReadsAlike ψ) (n : Nat) (o : Order) : Commutes (Reader.onSrc ψ) (readBytes n o) := by
  unfold readBytes; commute [ioRead_onSrc hψ, readBytesLeftover_onSrc hψ, readBitsInto_onSrc hψ]

theorem readBytesConstInto_onSrc (hψ : ReadsAlike ψ) (n : Nat) (o : Order) : Commutes (Reader.onSrc ψ) (readBytesConstInto n o) := by
  unfold readBytesConstInto; commute [ioRead_onSrc hψ, readBytesLeftover_onSrc hψ, readBitsInto_onSrc hψ]

theorem skipBits_onSrc (hψ : ReadsAlike ψ) {n : Nat} (hn : n < 8) (o : Order) : Commutes (Reader.onSrc ψ) (skipBits n o) := by
  unfold skipBits
  refine .get (fun _ => rfl) fun r => ?_
  have key : ∀ k < 8, Commutes (Reader.onSrc ψ) (do
      if k / 8 ≠ 0 then
        let r ← M.get
        M.assert (decide (r.bitsRead % 8 = 0))
        match ← seek (.current ((k / 8 : Nat) : Int)) with
        | .error e => M.throw (.io e)
        | .ok _ => pure ()
      let _ ← readBitsInto (k % 8) o
      pure () : M Reader Unit) := by
    intro k hk
    have : k / 8 = 0 := by omega
    simp only [this, ne_eq, not_true_eq_false, if_false]
    commute [readBitsInto_onSrc hψ]
  split
  · rename_i l _
    exact .bind (readBitsInto_onSrc hψ _ _) fun _ => key _ (by omega)
  · exact key _ hn

end Reader

namespace Prim

theorem insertZeros_onSrc (cap i : Nat) : ∀ k l, Commutes (Reader.onSrc ψ) (insertZeros cap i k l)
  | 0, _ => .pure _
  | k + 1, l => by unfold insertZeros; commute [insertZeros_onSrc cap i k]

theorem readSliceOrd_onSrc (W : Nat) (e : Endian) (o : Order) (l : List Bool) :
    Commutes (Reader.onSrc ψ) (readSliceOrd W e o l) := by
  unfold readSliceOrd; commute [insertZeros_onSrc]

theorem readSlice_onSrc (W : Nat) (e : Endian) (l : List Bool) :
    Commutes (Reader.onSrc ψ) (readSlice W e l) := by
  unfold readSlice; commute [insertZeros_onSrc]

theorem readUnsigned_onSrc (hψ : ReadsAlike ψ) (nat : Endian) (W : Nat) (ctx : IntCtx) :
    Commutes (Reader.onSrc ψ) (readUnsigned nat W ctx) := by
  cases ctx <;> simp only [readUnsigned, readUBytesOrd, readWhole, readBits, readBitsOrd, readBytesOrd, readU8Bytes] <;>
  commute [Reader.readBytesConstInto_onSrc hψ, Reader.readBytes_onSrc hψ, Reader.readBitsInto_onSrc hψ, Reader.readBitsUintMsb0_onSrc hψ, readSlice_onSrc, readSliceOrd_onSrc]

theorem readSigned_onSrc (hψ : ReadsAlike ψ) (nat : Endian) (W : Nat) (ctx : IntCtx) :
    Commutes (Reader.onSrc ψ) (readSigned nat W ctx) := by
  cases ctx <;> simp only [readSigned, readSignedWhole, readSignedBits, readSignedBitsOrd, readSignedBytesOrd, readSliceSigned] <;>
  commute [Reader.readBytesConstInto_onSrc hψ, Reader.readBytes_onSrc hψ, Reader.readBitsInto_onSrc hψ, readSliceOrd_onSrc]

end Prim

namespace Coll

variable {α σ : Type}

theorem vecLoop_onSrc (hψ : ReadsAlike ψ) {read : M Reader α} (h : Commutes (Reader.onSrc ψ) read) (pred : Nat → α → σ → Bool × σ)
    (start : Nat) : ∀ mem st, Commutes (Reader.onSrc ψ) (vecLoop read pred start mem st)
  | 0, _ => by unfold vecLoop; commute []
  | mem + 1, st => by unfold vecLoop; commute [vecLoop_onSrc hψ h pred start mem]

theorem vecEndLoop_onSrc (hψ : ReadsAlike ψ) {read : M Reader α} (h : Commutes (Reader.onSrc ψ) read) :
    ∀ mem, Commutes (Reader.onSrc ψ) (vecEndLoop read mem)
  | 0 => by unfold vecEndLoop; commute [Reader.end_onSrc hψ]
  | mem + 1 => by have := vecEndLoop_onSrc hψ h mem; unfold vecEndLoop; commute [Reader.end_onSrc hψ]

theorem vecRead_onSrc (hψ : ReadsAlike ψ) {read : M Reader α} (h : Commutes (Reader.onSrc ψ) read) (mem size : Nat)
    (l : Limit α σ) : Commutes (Reader.onSrc ψ) (vecRead mem size read l) := by
  cases l <;> simp only [vecRead, vecWithPredicate, vecToEnd, usize, withCapacity] <;>
  commute [vecLoop_onSrc hψ h, vecEndLoop_onSrc hψ h]

theorem arrayRead_onSrc (hψ : ReadsAlike ψ) {read : M Reader α} (h : Commutes (Reader.onSrc ψ) read) :
    ∀ n, Commutes (Reader.onSrc ψ) (arrayRead read n)
  | 0 => .pure _
  | n + 1 => by have := arrayRead_onSrc hψ h n; unfold arrayRead; commute []

theorem u8Read_onSrc (hψ : ReadsAlike ψ) (nat : Endian) : Commutes (Reader.onSrc ψ) (u8Read nat) := by
  unfold u8Read; commute [Prim.readUnsigned_onSrc hψ]

end Coll

theorem magicRead_onSrc (hψ : ReadsAlike ψ) (nat : Endian) : ∀ l, Commutes (Reader.onSrc ψ) (magicRead nat l)
  | [] => .pure _
  | b :: l => by have := magicRead_onSrc hψ nat l; unfold magicRead; commute [Coll.u8Read_onSrc hψ]

theorem padRead_onSrc (hψ : ReadsAlike ψ) (o : Option Order) {pad : Option (Env → Int)} (h : ShortPad pad) (env : Env) :
    Commutes (Reader.onSrc ψ) (padRead o pad env) := by
  cases pad with
  | none => exact .pure _
  | some f =>
    have h8 := h f rfl env
    unfold padRead padSize
    by_cases hn : 0 ≤ f env ∧ f env < 2 ^ 64
    · simp only [if_pos hn]
      exact fun s => Reader.skipBits_onSrc hψ (by omega) _ s
    · simp only [if_neg hn]
      exact fun _ => rfl

theorem Attrs.read_onSrc (hψ : ReadsAlike ψ) {a : Attrs} (ha : a.Pipes) (nat : Endian) {rd : Env → M Reader Val}
    (hrd : ∀ env, Commutes (Reader.onSrc ψ) (rd env)) (env : Env) :
    Commutes (Reader.onSrc ψ) (a.read nat rd env) := by
  obtain ⟨hs, hb, hf⟩ := ha
  unfold Attrs.read Attrs.value Attrs.check Attrs.applyMap seekRead
  rw [hs]
  commute [magicRead_onSrc hψ, padRead_onSrc hψ, hrd]

theorem LimitE.eval_onSrc (l : LimitE) (env : Env) : Commutes (Reader.onSrc ψ) (l.eval env) := by
  cases l <;> simp only [LimitE.eval, toUsize] <;> commute []

mutual

theorem Ty.read_onSrc (hψ : ReadsAlike ψ) {lists : Bool} (hl : ListsAlike ψ lists) (m : Machine) : ∀ (t : Ty), t.Pipes ψ lists → ∀ env, Commutes (Reader.onSrc ψ) (t.read m env)
  | .prim _ c, h, env => by simpa [Ty.read] using h env
  | .option t, h, env => by
    have := t.read_onSrc hψ hl m h env
    simp only [Ty.read]; commute []
  | .array n t, h, env => by
    have ht := t.read_onSrc hψ hl m h env
    simp only [Ty.read]; commute [Coll.arrayRead_onSrc hψ ht]
  | .pair a b, h, env => by
    have h1 := a.read_onSrc hψ hl m h.1 env
    have h2 := b.read_onSrc hψ hl m h.2 env
    simp only [Ty.read]; commute []
  | .vec size l t, h, env => by
    have ht := t.read_onSrc hψ hl m h env
    simp only [Ty.read]; commute [LimitE.eval_onSrc, Coll.vecRead_onSrc hψ ht]
  | .bytes n _, h, env => by
    have := hl h
    simp only [Ty.read, toUsize]; commute [this]
  | .struct args sk magic fs, h, env => by
    obtain ⟨hs, hf⟩ := h
    simp only [Ty.read, hs, seekRead]
    commute [magicRead_onSrc hψ, fs.read_onSrc hψ hl m hf]
  | .enum args magic id store vs, h, env => by
    obtain ⟨hid, hv⟩ := h
    cases id with
    | ctx e =>
      simp only [Ty.read, dispatch]
      commute [magicRead_onSrc hψ, vs.readAt_onSrc hψ hl m hv]
    | typed size c =>
      have hc := hid size c rfl
      simp only [Ty.read, dispatch]
      commute [magicRead_onSrc hψ, vs.readAt_onSrc hψ hl m hv, hc]

theorem Fields.read_onSrc (hψ : ReadsAlike ψ) {lists : Bool} (hl : ListsAlike ψ lists) (m : Machine) : ∀ (fs : Fields), fs.Pipes ψ lists → ∀ env, Commutes (Reader.onSrc ψ) (fs.read m env)
  | .nil, _, _ => by simp only [Fields.read]; exact .pure _
  | .cons a t tl, h, env => by
    obtain ⟨ha, ht, hr⟩ := h
    simp only [Fields.read]
    commute [Attrs.read_onSrc hψ ha m.native (t.read_onSrc hψ hl m ht), tl.read_onSrc hψ hl m hr]
  | .temp a t _ tl, h, env => by
    obtain ⟨ha, ht, hr⟩ := h
    simp only [Fields.read]
    commute [Attrs.read_onSrc hψ ha m.native (t.read_onSrc hψ hl m ht), tl.read_onSrc hψ hl m hr]

theorem Fields.readStored_onSrc (hψ : ReadsAlike ψ) {lists : Bool} (hl : ListsAlike ψ lists) (m : Machine) : ∀ (fs : Fields), fs.Pipes ψ lists → ∀ env v,
    Commutes (Reader.onSrc ψ) (fs.readStored m env v)
  | .nil, _, _, _ => by simp only [Fields.readStored]; exact .pure _
  | .cons a t tl, h, env, v => by
    have hr := tl.read_onSrc hψ hl m h.2.2
    simp only [Fields.readStored]; commute [hr]
  | .temp a t _ tl, h, env, v => by
    have hr := tl.read_onSrc hψ hl m h.2.2
    simp only [Fields.readStored]; commute [hr]

theorem Variants.readAt_onSrc (hψ : ReadsAlike ψ) {lists : Bool} (hl : ListsAlike ψ lists) (m : Machine) : ∀ (vs : Variants), vs.Pipes ψ lists → ∀ env v b i,
    Commutes (Reader.onSrc ψ) (vs.readAt m env v b i)
  | .nil, _, _, _, _, _ => by simp only [Variants.readAt]; exact .panic
  | .cons a fs tl, h, env, v, b, 0 => by
    have h1 := fs.readStored_onSrc hψ hl m h.1
    have h2 := fs.read_onSrc hψ hl m h.1
    simp only [Variants.readAt]; commute [h1, h2]
  | .cons a fs tl, h, env, v, b, i + 1 => by
    simp only [Variants.readAt]; exact tl.readAt_onSrc hψ hl m h.2 env v b i

end

end Reading

section Writing

/-! ### Writing -/

variable {ψ : Sink → Sink}

namespace Writer

theorem writeAll_onSink (hψ : WritesAlike ψ) (bs : List Byte) : Commutes (Writer.onSink ψ) (writeAll bs) := hψ bs

theorem extend_onSink (l : List Bool) : Commutes (Writer.onSink ψ) (extend l) := by
  unfold extend; commute []

theorem flushFull_onSink (hψ : WritesAlike ψ) : Commutes (Writer.onSink ψ) flushFull := by
  unfold flushFull; commute [writeAll_onSink hψ]

theorem writeChunks_onSink (hψ : WritesAlike ψ) : ∀ l, Commutes (Writer.onSink ψ) (writeChunks l)
  | [] => .pure _
  | c :: l => by have := writeChunks_onSink hψ l; unfold writeChunks; commute [writeAll_onSink hψ]

theorem writeBulk_onSink (hψ : WritesAlike ψ) (l : List (List Bool)) (n : Nat) : Commutes (Writer.onSink ψ) (writeBulk l n) := by
  unfold writeBulk; commute [writeChunks_onSink hψ]

theorem takeLeftover_onSink : Commutes (Writer.onSink ψ) takeLeftover := by
  unfold takeLeftover; commute []

theorem msbMsb_onSink (hψ : WritesAlike ψ) (l : List Bool) : Commutes (Writer.onSink ψ) (msbMsb l) := by
  unfold msbMsb; commute [extend_onSink, flushFull_onSink hψ, writeBulk_onSink hψ, takeLeftover_onSink]

theorem msbLsb_onSink (hψ : WritesAlike ψ) (l : List Bool) : Commutes (Writer.onSink ψ) (msbLsb l) := by
  unfold msbLsb; commute [extend_onSink, flushFull_onSink hψ, writeBulk_onSink hψ, takeLeftover_onSink]

theorem lsbMsb_onSink (hψ : WritesAlike ψ) (l : List Bool) : Commutes (Writer.onSink ψ) (lsbMsb l) := by
  unfold lsbMsb; commute [extend_onSink, flushFull_onSink hψ, writeBulk_onSink hψ, takeLeftover_onSink]

theorem lsbLsb_onSink (hψ : WritesAlike ψ) (l : List Bool) : Commutes (Writer.onSink ψ) (lsbLsb l) := by
  unfold lsbLsb; commute [extend_onSink, flushFull_onSink hψ, writeBulk_onSink hψ, takeLeftover_onSink]

theorem writeBitsOrder_onSink (hψ : WritesAlike ψ) (l : List Bool) (o : Order) : Commutes (Writer.onSink ψ) (writeBitsOrder l o) := by
  unfold writeBitsOrder; commute [msbMsb_onSink hψ, msbLsb_onSink hψ, lsbMsb_onSink hψ, lsbLsb_onSink hψ]

theorem writeBytes_onSink (hψ : WritesAlike ψ) (bs : List Byte) : Commutes (Writer.onSink ψ) (writeBytes bs) := by
  unfold writeBytes writeBits; commute [writeAll_onSink hψ, writeBitsOrder_onSink hψ]

theorem writeBitsUintMsb0_onSink (hψ : WritesAlike ψ) (v n : Nat) : Commutes (Writer.onSink ψ) (writeBitsUintMsb0 v n) := by
  unfold writeBitsUintMsb0; commute [writeAll_onSink hψ]

theorem finalize_onSink (hψ : WritesAlike ψ) : Commutes (Writer.onSink ψ) finalize := by
  unfold finalize; commute [writeBitsOrder_onSink hψ]

end Writer

namespace Prim

theorem writeLoop_onSink (hψ : WritesAlike ψ) (o : Order) : ∀ l n, Commutes (Writer.onSink ψ) (writeLoop o l n)
  | [], _ => .pure _
  | c :: l, n => by unfold writeLoop; commute [Writer.writeBitsOrder_onSink hψ, writeLoop_onSink hψ o l]

theorem checkFirst_onSink (n : Nat) (x : Option Nat) : Commutes (Writer.onSink ψ) (checkFirst n x) := by
  unfold checkFirst; commute []

theorem checkLast_onSink (k n : Nat) (x : Option Nat) : Commutes (Writer.onSink ψ) (checkLast k n x) := by
  unfold checkLast; commute []

theorem writeUnsigned_onSink (hψ : WritesAlike ψ) (nat : Endian) (W : Nat) (ctx : IntCtx) (v : Nat) :
    Commutes (Writer.onSink ψ) (writeUnsigned nat W ctx v) := by
  cases ctx <;> simp only [writeUnsigned, writeWhole, writeUBits, writeUBytes, writeUBitsOrd, writeU8BitsOrd, writeBits, writeBitsOrd, writeBytes, writeU8Bytes, Writer.writeBits] <;>
  commute [Writer.writeBytes_onSink hψ, Writer.writeBitsOrder_onSink hψ, Writer.writeBitsUintMsb0_onSink hψ, writeLoop_onSink hψ, checkFirst_onSink, checkLast_onSink]

theorem writeSigned_onSink (hψ : WritesAlike ψ) (nat : Endian) (W : Nat) (ctx : IntCtx) (v : Int) :
    Commutes (Writer.onSink ψ) (writeSigned nat W ctx v) := by
  cases ctx <;> simp only [writeSigned, writeWhole, writeSignedBits, writeBitsOrd, writeBytes, Writer.writeBits] <;>
  commute [Writer.writeBytes_onSink hψ, Writer.writeBitsOrder_onSink hψ, Writer.writeBitsUintMsb0_onSink hψ, writeLoop_onSink hψ, checkFirst_onSink, checkLast_onSink]

end Prim

theorem Coll.writeAll_onSink (hψ : WritesAlike ψ) {α : Type} {write : α → M Writer Unit} (h : ∀ v, Commutes (Writer.onSink ψ) (write v)) :
    ∀ l, Commutes (Writer.onSink ψ) (Coll.writeAll write l)
  | [] => .pure _
  | v :: l => by unfold Coll.writeAll; commute [h, Coll.writeAll_onSink hψ h l]

theorem Coll.u8Write_onSink (hψ : WritesAlike ψ) (nat : Endian) (ctx : IntCtx) (b : Byte) : Commutes (Writer.onSink ψ) (Coll.u8Write nat ctx b) :=
  Prim.writeUnsigned_onSink hψ _ _ _ _

theorem magicWrite_onSink (hψ : WritesAlike ψ) (nat : Endian) (l : List Byte) : Commutes (Writer.onSink ψ) (magicWrite nat l) :=
  Coll.writeAll_onSink hψ (Coll.u8Write_onSink hψ nat .unit) l

theorem padLoop_onSink (hψ : WritesAlike ψ) (o : Order) : ∀ fuel n, Commutes (Writer.onSink ψ) (padLoop o fuel n)
  | 0, _ => .pure _
  | fuel + 1, n => by unfold padLoop; commute [Writer.writeBitsOrder_onSink hψ, padLoop_onSink hψ o fuel]

theorem padWrite_onSink (hψ : WritesAlike ψ) (o : Option Order) (pad : Option (Env → Int)) (env : Env) :
    Commutes (Writer.onSink ψ) (padWrite o pad env) := by
  unfold padWrite padSize; commute [padLoop_onSink hψ]

theorem Attrs.write_onSink (hψ : WritesAlike ψ) {a : Attrs} (ha : a.seek = none) (nat : Endian) {wr : Env → Val → M Writer Unit}
    (hwr : ∀ env v, Commutes (Writer.onSink ψ) (wr env v)) (env : Env) (v : Val) :
    Commutes (Writer.onSink ψ) (a.write nat wr env v) := by
  unfold Attrs.write Attrs.put Attrs.check seekWrite
  rw [ha]
  commute [magicWrite_onSink hψ, padWrite_onSink hψ, hwr]

mutual

theorem Ty.write_onSink (hψ : WritesAlike ψ) (m : Machine) : ∀ (t : Ty), t.Unsought ψ → ∀ env v, Commutes (Writer.onSink ψ) (t.write m env v)
  | .prim _ c, h, env, v => by simpa [Ty.write] using h env v
  | .option t, h, env, v => by
    have ht := t.write_onSink hψ m h
    simp only [Ty.write]; commute [ht]
  | .array n t, h, env, v => by
    have ht := t.write_onSink hψ m h env
    simp only [Ty.write]; commute [Coll.writeAll_onSink hψ ht]
  | .pair a b, h, env, v => by
    have h1 := a.write_onSink hψ m h.1
    have h2 := b.write_onSink hψ m h.2
    simp only [Ty.write]; commute [h1, h2]
  | .vec size l t, h, env, v => by
    have ht := t.write_onSink hψ m h env
    simp only [Ty.write]; commute [Coll.writeAll_onSink hψ ht]
  | .bytes _ c, _, env, v => by
    simp only [Ty.write]; commute [Coll.writeAll_onSink hψ (Coll.u8Write_onSink hψ m.native (c env))]
  | .struct args sk magic fs, h, env, v => by
    obtain ⟨hs, hf⟩ := h
    simp only [Ty.write, hs, seekWrite]
    commute [magicWrite_onSink hψ, fs.write_onSink hψ m hf]
  | .enum args magic id store vs, h, env, v => by
    obtain ⟨hid, hst, hv⟩ := h
    simp only [Ty.write]
    commute [magicWrite_onSink hψ, vs.writeAt_onSink hψ m hv id hid _ (hst _)]

theorem Fields.write_onSink (hψ : WritesAlike ψ) (m : Machine) : ∀ (fs : Fields), fs.Unsought ψ → ∀ env all v,
    Commutes (Writer.onSink ψ) (fs.write m env all v)
  | .nil, _, _, _, _ => by simp only [Fields.write]; commute []
  | .cons a t tl, h, env, all, v => by
    obtain ⟨ha, ht, hr⟩ := h
    simp only [Fields.write]
    commute [Attrs.write_onSink hψ ha m.native (t.write_onSink hψ m ht), tl.write_onSink hψ m hr]
  | .temp a t _ tl, h, env, all, v => by
    obtain ⟨ha, ht, hr⟩ := h
    simp only [Fields.write]
    commute [Attrs.write_onSink hψ ha m.native (t.write_onSink hψ m ht), Attrs.write_onSink hψ ha m.native (fun _ _ => .pure ()), tl.write_onSink hψ m hr]

theorem Fields.writeStored_onSink (hψ : WritesAlike ψ) (m : Machine) {store : Env → Val → M Writer Unit}
    (hst : ∀ env v, Commutes (Writer.onSink ψ) (store env v)) : ∀ (fs : Fields), fs.Unsought ψ → ∀ env v,
    Commutes (Writer.onSink ψ) (fs.writeStored m store env v)
  | .nil, _, _, _ => by simp only [Fields.writeStored]; commute []
  | .cons a t tl, h, env, v => by
    have hr := tl.write_onSink hψ m h.2.2
    simp only [Fields.writeStored]; commute [hst, hr]
  | .temp a t _ tl, h, env, v => by
    simp only [Fields.writeStored]; exact .panic

theorem Variants.writeAt_onSink (hψ : WritesAlike ψ) (m : Machine) : ∀ (vs : Variants), vs.Unsought ψ → ∀ (id : IdSrc),
    (∀ size c, id = .typed size c → ∀ env v, Commutes (Writer.onSink ψ) ((c env).write v)) →
    ∀ (store : Env → Val → M Writer Unit), (∀ env v, Commutes (Writer.onSink ψ) (store env v)) → ∀ env i v,
    Commutes (Writer.onSink ψ) (vs.writeAt m env id store i v)
  | .nil, _, _, _, _, _, _, _, _ => by simp only [Variants.writeAt]; exact .panic
  | .cons a fs tl, h, id, hid, store, hst, env, 0, v => by
    have h1 := fs.writeStored_onSink hψ m hst h.1
    have h2 := fs.write_onSink hψ m h.1
    simp only [Variants.writeAt]
    commute [h1, h2, hid]
  | .cons a fs tl, h, id, hid, store, hst, env, i + 1, v => by
    simp only [Variants.writeAt]; exact tl.writeAt_onSink hψ m h.2 id hid store hst env i v

end

theorem uintCodec_write_onSink (hψ : WritesAlike ψ) (nat : Endian) (W : Nat) (ctx : IntCtx) (v : Val) :
    Commutes (Writer.onSink ψ) ((uintCodec nat W ctx).write v) := by
  unfold uintCodec; commute [Prim.writeUnsigned_onSink hψ]

end Writing

theorem uintCodec_read_onSrc {ψ : Src → Src} (hψ : ReadsAlike ψ) (nat : Endian) (W : Nat) (ctx : IntCtx) :
    Commutes (Reader.onSrc ψ) (uintCodec nat W ctx).read := by
  unfold uintCodec; commute [Prim.readUnsigned_onSrc hψ]

theorem readFrom_onSrc {α : Type} {ψ : Src → Src} (hψ : ReadsAlike ψ) {read : M Reader α}
    (h : Commutes (Reader.onSrc ψ) read) {off : Nat} (ho : off < 8) :
    Commutes (Reader.onSrc ψ) (readFrom read off) := by
  have := Reader.skipBits_onSrc hψ ho .msb0
  unfold readFrom
  commute []

/-! ### A stream that cannot seek -/

theorem noSeek_readsAlike : ReadsAlike Src.noSeek := fun n r => by
  simp only [Reader.ioRead, Reader.onSrc, Src.noSeek, Src.readExact]
  rcases r.inner.faults.fails r.inner.calls with _ | ⟨k, e⟩
  · simp only
    by_cases h : n ≤ r.inner.data.length - r.inner.pos
    · simp only [h, if_true]
    · simp only [h, if_false]
  · rfl

theorem noSeek_listsAlike : ListsAlike Src.noSeek false := fun h => nomatch h

theorem noSeek_writesAlike : WritesAlike Sink.noSeek := fun bs w => by
  simp only [Writer.writeAll, Writer.onSink, Sink.noSeek, Sink.writeAll]
  rcases w.inner.faults.fails w.inner.calls with _ | ⟨k, e⟩
  · rcases w.inner.cap with _ | c
    · rfl
    · simp only
      by_cases h : bs.length ≤ c - w.inner.pos
      · simp only [h, if_true]
      · simp only [h, if_false]
  · rfl

end Deku
