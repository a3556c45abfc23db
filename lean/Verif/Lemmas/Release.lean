import Verif.Spec.Release
import Verif.Lemmas.Monad

/-! # A release build does what a debug build does -/

namespace Deku

variable {α β σ τ : Type}

namespace M.Follows

theorem refl (f : M σ α) : Follows f f := fun _ _ => rfl

theorem panic (g : M σ α) : Follows M.panic g := fun _ h => (h rfl).elim

theorem bind {f g : M σ α} {k l : α → M σ β} (h : Follows f g) (hk : ∀ a, Follows (k a) (l a)) :
    Follows (f >>= k) (g >>= l) := by
  intro s hs
  rw [M.bind_def] at hs ⊢
  rw [M.bind_def]
  rcases he : f s with ⟨x, s'⟩
  have hg : x ≠ .panic → g s = (x, s') := by
    intro hx
    rw [h s (by rw [he]; exact hx), he]
  rw [he] at hs
  cases x with
  | ok a => rw [hg (fun e => nomatch e)]; exact hk a s' hs
  | err e => rw [hg (fun e => nomatch e)]
  | panic => exact (hs rfl).elim

theorem then_ (f : M σ α) {k l : α → M σ β} (hk : ∀ a, Follows (k a) (l a)) :
    Follows (f >>= k) (f >>= l) := bind (refl f) hk

/-- A `debug_assert!` is left out. -/
theorem drop (c : Bool) {k : Unit → M σ β} {l : M σ β} (h : Follows (k ()) l) : Follows (M.assert c >>= k) l := by
  intro s hs
  cases c with
  | true => exact h s hs
  | false => exact (hs rfl).elim

/-- A `debug_assert!` about the state is left out. -/
theorem dropGet {k : σ → M σ β} {l : M σ β} (h : ∀ s, Follows (k s) l) : Follows (M.get >>= k) l :=
  fun s hs => h s s hs

theorem ite {c : Prop} [Decidable c] {f g f' g' : M σ α} (h : c → Follows f f') (h' : ¬c → Follows g g') :
    Follows (if c then f else g) (if c then f' else g') := by
  by_cases hc : c
  · rw [if_pos hc, if_pos hc]; exact h hc
  · rw [if_neg hc, if_neg hc]; exact h' hc

end M.Follows

open M (Follows)

/-! ## Reader -/

theorem skipBits_release (n : Nat) (o : Order) : Follows (Reader.skipBits n o) (Rel.skipBits n o) := by
  unfold Reader.skipBits Rel.skipBits
  refine .then_ _ fun r => ?_
  dsimp only
  rcases r.leftover with _ | ⟨byte⟩ | ⟨bits⟩
  · refine .ite (fun _ => .dropGet fun r => ?_) fun _ => .refl _
    refine .drop _ ?_
    exact .refl _
  · refine .ite (fun _ => .dropGet fun r => ?_) fun _ => .refl _
    refine .drop _ ?_
    exact .refl _
  · refine .then_ _ fun _ => .then_ _ fun _ => .ite (fun _ => .dropGet fun r => ?_) fun _ => .refl _
    refine .drop _ ?_
    exact .refl _

/-! ## Writer -/

theorem msbMsb_release (bits : List Bool) : Follows (Writer.msbMsb bits) (Rel.msbMsb bits) := by
  unfold Writer.msbMsb Rel.msbMsb
  refine .dropGet fun w => .drop _ (.then_ _ fun lo => ?_)
  dsimp only
  refine .ite (fun _ => .refl _) fun _ => ?_
  exact .then_ _ fun _ => .then_ _ fun _ => .dropGet fun w => .drop _ (.refl _)

theorem msbLsb_release (bits : List Bool) : Follows (Writer.msbLsb bits) (Rel.msbLsb bits) := by
  unfold Writer.msbLsb Rel.msbLsb
  refine .dropGet fun w => .drop _ (.then_ _ fun lo => ?_)
  dsimp only
  generalize (if lo.isEmpty = true then _ else _ : List Bool × List Bool × List Bool × List Bool) = x
  obtain ⟨a, b, c, d⟩ := x
  dsimp only
  refine .then_ _ fun _ => .then_ _ fun _ => .then_ _ fun _ => .then_ _ fun _ => ?_
  refine .dropGet fun w => .drop _ (.then_ _ fun _ => .then_ _ fun _ => ?_)
  exact .dropGet fun w => .drop _ (.refl _)

theorem lsbMsb_release (bits : List Bool) : Follows (Writer.lsbMsb bits) (Rel.lsbMsb bits) := by
  unfold Writer.lsbMsb Rel.lsbMsb
  refine .dropGet fun w => .drop _ (.then_ _ fun lo => ?_)
  dsimp only
  generalize (if lo.isEmpty = true then _ else _ : List Bool × List Bool) = x
  obtain ⟨a, b⟩ := x
  dsimp only
  refine .then_ _ fun _ => .then_ _ fun _ => .then_ _ fun _ => .then_ _ fun _ => ?_
  exact .dropGet fun w => .drop _ (.refl _)

theorem lsbLsb_release (bits : List Bool) : Follows (Writer.lsbLsb bits) (Rel.lsbLsb bits) := by
  unfold Writer.lsbLsb Rel.lsbLsb
  refine .dropGet fun w => .drop _ (.then_ _ fun lo => ?_)
  dsimp only
  refine .ite (fun _ => .refl _) fun _ => ?_
  exact .then_ _ fun _ => .then_ _ fun _ => .dropGet fun w => .drop _ (.refl _)

theorem writeBitsOrder_release (bits : List Bool) (o : Order) :
    Follows (Writer.writeBitsOrder bits o) (Rel.writeBitsOrder bits o) := by
  unfold Writer.writeBitsOrder Rel.writeBitsOrder
  refine .then_ _ fun w => ?_
  rcases w.tag <;> rcases o
  · exact msbMsb_release bits
  · exact msbLsb_release bits
  · exact lsbMsb_release bits
  · exact lsbLsb_release bits

theorem writerBytes_release (bs : List Byte) : Follows (Writer.writeBytes bs) (Rel.writerBytes bs) := by
  unfold Writer.writeBytes Rel.writerBytes
  exact .then_ _ fun w => .ite (fun _ => .refl _) fun _ => writeBitsOrder_release _ _

theorem writeBitsUintMsb0_release (v n : Nat) :
    Follows (Writer.writeBitsUintMsb0 v n) (Rel.writeBitsUintMsb0 v n) := by
  unfold Writer.writeBitsUintMsb0 Rel.writeBitsUintMsb0
  refine .then_ _ fun w => ?_
  intro s hs
  by_cases hn : n = 0
  · subst hn; exact (hs rfl).elim
  · simp only [if_neg hn]
    exact Follows.drop _ (.drop _ (.refl _)) s hs

theorem finalize_release : Follows Writer.finalize Rel.finalize := by
  unfold Writer.finalize Rel.finalize
  exact .then_ _ fun w => .drop _ (writeBitsOrder_release _ _)

/-! ## Integers -/

theorem readSliceOrd_release (W : Nat) (e : Endian) (o : Order) (bits : List Bool) :
    Follows (Prim.readSliceOrd W e o bits) (Rel.readSliceOrd W e o bits) := by
  unfold Prim.readSliceOrd Rel.readSliceOrd
  dsimp only
  refine .drop _ (.ite (fun _ => .refl _) fun _ => .ite (fun _ => .refl _) fun _ => ?_)
  cases o with
  | lsb0 => exact .refl _
  | msb0 =>
    cases e with
    | big => exact .refl _
    | little =>
      dsimp only
      split
      · exact .panic _
      · exact .refl _

theorem readSlice_release (W : Nat) (e : Endian) (bits : List Bool) :
    Follows (Prim.readSlice W e bits) (Rel.readSlice W e bits) := by
  unfold Prim.readSlice Rel.readSlice
  dsimp only
  refine .ite (fun _ => .refl _) fun _ => .ite (fun _ => .refl _) fun _ => ?_
  cases e with
  | big => exact .refl _
  | little =>
    dsimp only
    split
    · exact .panic _
    · exact .refl _

theorem readBits_release (W : Nat) (e : Endian) (n : Nat) : Follows (Prim.readBits W e n) (Rel.readBits W e n) := by
  unfold Prim.readBits Rel.readBits
  refine .ite (fun _ => .refl _) fun _ => .ite (fun _ => .refl _) fun _ => ?_
  exact .then_ _ fun bits => readSlice_release W e bits

theorem readBitsOrd_release (W : Nat) (e : Endian) (n : Nat) (o : Order) :
    Follows (Prim.readBitsOrd W e n o) (Rel.readBitsOrd W e n o) := by
  unfold Prim.readBitsOrd Rel.readBitsOrd
  refine .ite (fun _ => .refl _) fun _ => .ite (fun _ => .refl _) fun _ => ?_
  exact .then_ _ fun bits => readSliceOrd_release W e o bits

theorem readSignedBitsOrd_release (W : Nat) (e : Endian) (n : Nat) (o : Order) :
    Follows (Prim.readSignedBitsOrd W e n o) (Rel.readSignedBitsOrd W e n o) := by
  unfold Prim.readSignedBitsOrd Rel.readSignedBitsOrd
  refine .ite (fun _ => .refl _) fun _ => .then_ _ fun bits => ?_
  unfold Prim.readSliceSigned Rel.readSliceSigned
  refine .bind (readSliceOrd_release W e o bits) fun p => ?_
  exact .ite (fun _ => .panic _) fun _ => .refl _

theorem readUnsigned_release (e : Endian) (W : Nat) (ctx : IntCtx) :
    Follows (Prim.readUnsigned e W ctx) (Rel.readUnsigned e W ctx) := by
  cases ctx with
  | bits n => exact .ite (fun _ => .refl _) fun _ => readBits_release _ _ _
  | endianBits e n => exact readBits_release _ _ _
  | bitsOrder n o => exact .ite (fun _ => .refl _) fun _ => readBitsOrd_release _ _ _ _
  | endianBitsOrder e n o => exact readBitsOrd_release _ _ _ _
  | _ => exact .refl _

theorem readSigned_release (e : Endian) (W : Nat) (ctx : IntCtx) :
    Follows (Prim.readSigned e W ctx) (Rel.readSigned e W ctx) := by
  cases ctx with
  | bits n => exact .ite (fun _ => .refl _) fun _ => readSignedBitsOrd_release _ _ _ _
  | endianBits e n => exact readSignedBitsOrd_release _ _ _ _
  | bitsOrder n o => exact .ite (fun _ => .refl _) fun _ => readSignedBitsOrd_release _ _ _ _
  | endianBitsOrder e n o => exact readSignedBitsOrd_release _ _ _ _
  | _ => exact .refl _

theorem writeLoop_release (o : Order) (bs : List Byte) (n : Nat) :
    Follows (Prim.writeLoop o bs n) (Rel.writeLoop o bs n) := by
  induction bs generalizing n with
  | nil => exact .refl _
  | cons b bs ih =>
    unfold Prim.writeLoop Rel.writeLoop
    refine .ite (fun _ => writeBitsOrder_release _ _) fun _ => ?_
    exact .bind (writeBitsOrder_release _ _) fun _ => ih _

theorem writeBitsOrd_release (W : Nat) (e : Endian) (n : Nat) (o : Order) (v : Nat) :
    Follows (Prim.writeBitsOrd W e n o v) (Rel.writeBitsOrd W e n o v) := by
  unfold Prim.writeBitsOrd Rel.writeBitsOrd
  dsimp only
  refine .ite (fun _ => .refl _) fun _ => ?_
  rcases e <;> rcases o <;> dsimp only
  · exact .then_ _ fun _ => writeLoop_release _ _ _
  · exact .then_ _ fun _ => writeLoop_release _ _ _
  · refine .then_ _ fun w => .ite (fun _ => .ite (fun _ => .refl _) fun _ => writeBitsUintMsb0_release _ _) fun _ => ?_
    exact .then_ _ fun _ => writeBitsOrder_release _ _
  · exact .then_ _ fun _ => .ite (fun _ => writeBitsOrder_release _ _) fun _ => writeLoop_release _ _ _

theorem writeU8BitsOrd_release (n : Nat) (o : Order) (v : Nat) :
    Follows (Prim.writeU8BitsOrd n o v) (Rel.writeU8BitsOrd n o v) := by
  unfold Prim.writeU8BitsOrd Rel.writeU8BitsOrd
  refine .then_ _ fun w => .ite (fun _ => .ite (fun _ => .refl _) fun _ => writeBitsUintMsb0_release _ _) fun _ => ?_
  exact .ite (fun _ => .refl _) fun _ => .then_ _ fun _ => writeBitsOrder_release _ _

theorem writeBits_release (W : Nat) (e : Endian) (n v : Nat) :
    Follows (Prim.writeBits W e n v) (Rel.writeBits W e n v) := by
  unfold Prim.writeBits Rel.writeBits
  refine .ite (fun _ => .refl _) fun _ => ?_
  cases e with
  | little => exact .then_ _ fun _ => writeLoop_release _ _ _
  | big => exact .then_ _ fun _ => writeBitsOrder_release _ _

theorem writeSignedBits_release (W : Nat) (e : Endian) (n : Nat) (v : Int) :
    Follows (Prim.writeSignedBits W e n v) (Rel.writeSignedBits W e n v) := by
  unfold Prim.writeSignedBits Rel.writeSignedBits
  refine .ite (fun _ => .refl _) fun _ => ?_
  cases e with
  | little => exact .then_ _ fun _ => writeLoop_release _ _ _
  | big => exact .then_ _ fun _ => writeBitsOrder_release _ _

theorem writeBytes_release (W : Nat) (e : Endian) (k v : Nat) :
    Follows (Prim.writeBytes W e k v) (Rel.writeBytes W e k v) := by
  unfold Prim.writeBytes Rel.writeBytes
  refine .ite (fun _ => .refl _) fun _ => ?_
  cases e <;> exact writerBytes_release _

theorem writeUBytes_release (W : Nat) (e : Endian) (k v : Nat) :
    Follows (Prim.writeUBytes W e k v) (Rel.writeUBytes W e k v) :=
  .ite (fun _ => writerBytes_release _) fun _ => writeBytes_release _ _ _ _

theorem writeUBits_release (W : Nat) (e : Endian) (k v : Nat) :
    Follows (Prim.writeUBits W e k v) (Rel.writeUBits W e k v) :=
  .ite (fun _ => writeU8BitsOrd_release _ _ _) fun _ => writeBits_release _ _ _ _

theorem writeUBitsOrd_release (W : Nat) (e : Endian) (n : Nat) (o : Order) (v : Nat) :
    Follows (Prim.writeUBitsOrd W e n o v) (Rel.writeUBitsOrd W e n o v) :=
  .ite (fun _ => writeU8BitsOrd_release _ _ _) fun _ => writeBitsOrd_release _ _ _ _ _

theorem writeUnsigned_release (e : Endian) (W : Nat) (ctx : IntCtx) (v : Nat) :
    Follows (Prim.writeUnsigned e W ctx v) (Rel.writeUnsigned e W ctx v) := by
  cases ctx with
  | unit => exact writerBytes_release _
  | endian => exact writerBytes_release _
  | bits => exact writeUBits_release _ _ _ _
  | endianBits => exact writeUBits_release _ _ _ _
  | bitsOrder => exact writeUBitsOrd_release _ _ _ _ _
  | endianBitsOrder => exact writeUBitsOrd_release _ _ _ _ _
  | _ => exact writeUBytes_release _ _ _ _

theorem writeSigned_release (e : Endian) (W : Nat) (ctx : IntCtx) (v : Int) :
    Follows (Prim.writeSigned e W ctx v) (Rel.writeSigned e W ctx v) := by
  cases ctx with
  | unit => exact writerBytes_release _
  | endian => exact writerBytes_release _
  | bits => exact writeSignedBits_release _ _ _ _
  | endianBits => exact writeSignedBits_release _ _ _ _
  | bitsOrder => exact writeBitsOrd_release _ _ _ _ _
  | endianBitsOrder => exact writeBitsOrd_release _ _ _ _ _
  | _ => exact writeBytes_release _ _ _ _

/-! ## Collections -/

theorem arrayRead_release {f g : M Reader α} (h : Follows f g) (n : Nat) :
    Follows (Coll.arrayRead f n) (Coll.arrayRead g n) := by
  induction n with
  | zero => exact .refl _
  | succ n ih => exact .bind h fun _ => .bind ih fun _ => .refl _

theorem writeAll_release {f g : α → M Writer Unit} (h : ∀ v, Follows (f v) (g v)) (vs : List α) :
    Follows (Coll.writeAll f vs) (Coll.writeAll g vs) := by
  induction vs with
  | nil => exact .refl _
  | cons v vs ih => exact .bind (h v) fun _ => ih

theorem vecLoop_release {f g : M Reader α} (h : Follows f g) (pred : Nat → α → τ → Bool × τ) (start mem : Nat) (st : τ) :
    Follows (Coll.vecLoop f pred start mem st) (Rel.vecLoop g pred start mem st) := by
  induction mem generalizing st with
  | zero => exact .bind h fun _ => .refl _
  | succ n ih =>
    unfold Coll.vecLoop Rel.vecLoop
    refine .bind h fun v => .then_ _ fun r => ?_
    intro s hs
    by_cases hc : start ≤ r.bitsRead
    · have e : Rel.bitsSince start r.bitsRead = r.bitsRead - start := if_pos hc
      rw [e]
      exact Follows.drop _ (.ite (fun _ => .refl _) fun _ => .bind (ih _) fun _ => .refl _) s hs
    · simp [hc] at hs

theorem vecEndLoop_release {f g : M Reader α} (h : Follows f g) (mem : Nat) :
    Follows (Coll.vecEndLoop f mem) (Coll.vecEndLoop g mem) := by
  induction mem with
  | zero =>
    unfold Coll.vecEndLoop
    exact .then_ _ fun e => .ite (fun _ => .refl _) fun _ => .bind h fun _ => .refl _
  | succ n ih =>
    unfold Coll.vecEndLoop
    exact .then_ _ fun e => .ite (fun _ => .refl _) fun _ => .bind h fun _ => .bind ih fun _ => .refl _

theorem vecWithPredicate_release {f g : M Reader α} (h : Follows f g) (mem size : Nat) (cap : Option Nat)
    (pred : Nat → α → τ → Bool × τ) (st : τ) :
    Follows (Coll.vecWithPredicate mem size cap f pred st) (Rel.vecWithPredicate mem size cap g pred st) := by
  unfold Coll.vecWithPredicate Rel.vecWithPredicate
  exact .ite (fun _ => .refl _) fun _ => .then_ _ fun _ => .then_ _ fun r => vecLoop_release h _ _ _ _

theorem vecRead_release {f g : M Reader α} (h : Follows f g) (mem size : Nat) (l : Limit α τ) :
    Follows (Coll.vecRead mem size f l) (Rel.vecRead mem size g l) := by
  cases l with
  | count n => exact .ite (fun _ => .refl _) fun _ => vecWithPredicate_release h _ _ _ _ _
  | «until» p i => exact vecWithPredicate_release h _ _ _ _ _
  | bits n => exact .ite (fun _ => .refl _) fun _ => vecWithPredicate_release h _ _ _ _ _
  | «end» => exact .ite (fun _ => .refl _) fun _ => vecEndLoop_release h _
  | bytes n =>
    unfold Coll.vecRead Rel.vecRead usize
    dsimp only
    by_cases hn : n * 8 < 2 ^ 64
    · rw [if_pos hn, Nat.mod_eq_of_lt hn]
      intro s hs
      exact Follows.ite (fun _ => .refl _) (fun _ => vecWithPredicate_release h _ _ _ _ _) s hs
    · rw [if_neg hn]
      exact fun s hs => (hs rfl).elim

theorem readExact_release (mem n : Nat) : Follows (Coll.readExact n) (Rel.readExact mem n) := by
  unfold Coll.readExact Rel.readExact
  refine .then_ _ fun pos => .then_ _ fun stop => .then_ _ fun _ => ?_
  intro s hs
  by_cases hc : pos ≤ stop
  · have e : Rel.bitsSince pos stop = stop - pos := if_pos hc
    rw [e]
    refine Follows.drop _ (.ite (fun _ => ?_) fun _ => ?_) s hs
    · unfold usize
      by_cases hn : n * 8 < 2 ^ 64
      · rw [if_pos hn, Nat.mod_eq_of_lt hn]; exact .refl _
      · rw [if_neg hn]; exact fun s hs => (hs rfl).elim
    · simp only [hc, decide_true, Bool.true_or]
      exact .refl _
  · simp [hc] at hs

theorem u8Write_release (e : Endian) (ctx : IntCtx) (b : Byte) : Follows (Coll.u8Write e ctx b) (Rel.u8Write e ctx b) :=
  writeUnsigned_release _ _ _ _

/-! ## Leaves -/

theorem uintCodec_release (e : Endian) (W : Nat) (ctx : IntCtx) : (uintCodec e W ctx).Follows (Rel.uintCodec e W ctx) := by
  refine ⟨.bind (readUnsigned_release _ _ _) fun _ => .refl _, fun v => ?_⟩
  cases v with
  | num n => exact .ite (fun _ => writeUnsigned_release _ _ _ _) fun _ => .refl _
  | _ => exact .refl _

theorem sintCodec_release (e : Endian) (W : Nat) (ctx : IntCtx) : (sintCodec e W ctx).Follows (Rel.sintCodec e W ctx) := by
  refine ⟨.bind (readSigned_release _ _ _) fun _ => .refl _, fun v => ?_⟩
  cases v with
  | num n => exact .ite (fun _ => writeSigned_release _ _ _ _) fun _ => .refl _
  | _ => exact .refl _

theorem codec_release (m : Machine) (l : Leaf) : (l.codec m).Follows (Rel.codec m l) := by
  cases l with
  | uint W ctx => exact uintCodec_release ..
  | sint W ctx => exact sintCodec_release ..
  | nonzero W ctx =>
    refine ⟨.bind (.bind (readUnsigned_release _ _ _) fun _ => .refl _) fun _ => .refl _, fun v => ?_⟩
    exact .ite (fun _ => .refl _) fun _ => (uintCodec_release ..).2 v
  | nonzeroSigned W ctx =>
    refine ⟨.bind (.bind (readSigned_release _ _ _) fun _ => .refl _) fun _ => .refl _, fun v => ?_⟩
    exact .ite (fun _ => .refl _) fun _ => (sintCodec_release ..).2 v
  | bool ctx =>
    refine ⟨.bind (.bind (readUnsigned_release _ _ _) fun _ => .refl _) fun _ => .refl _, fun v => ?_⟩
    exact .ite (fun _ => writeUnsigned_release _ _ _ _) fun _ => .ite (fun _ => writeUnsigned_release _ _ _ _) fun _ => .refl _
  | cstring =>
    refine ⟨?_, fun v => .ite (fun _ => writeAll_release (fun b => u8Write_release _ _ _) _) fun _ => .refl _⟩
    intro s hs
    show _ = ((Coll.vecRead _ _ _ _ >>= Coll.cstringOf) >>= _) s
    rw [M.bind_assoc_run]
    change (((Coll.vecRead _ _ _ _ >>= Coll.cstringOf) >>= _) s).1 ≠ _ at hs
    rw [M.bind_assoc_run] at hs
    exact Follows.bind (vecRead_release (.refl _) _ _ _) (fun _ => .refl _) s hs
  | cstringSized n =>
    refine ⟨?_, fun v => .ite (fun _ => writeAll_release (fun b => u8Write_release _ _ _) _) fun _ => .refl _⟩
    intro s hs
    show _ = ((Coll.vecRead _ _ _ _ >>= Coll.cstringOf) >>= _) s
    rw [M.bind_assoc_run]
    change (((Coll.vecRead _ _ _ _ >>= Coll.cstringOf) >>= _) s).1 ≠ _ at hs
    rw [M.bind_assoc_run] at hs
    exact Follows.bind (vecRead_release (.refl _) _ _ _) (fun _ => .refl _) s hs
  | unit => exact ⟨.refl _, fun _ => .refl _⟩

/-! ## Derived code -/

theorem magicWrite_release (e : Endian) (bs : List Byte) : Follows (magicWrite e bs) (Rel.magicWrite e bs) :=
  writeAll_release (fun _ => u8Write_release _ _ _) bs

theorem padRead_release (o : Option Order) (p : Option (Env → Int)) (env : Env) :
    Follows (padRead o p env) (Rel.padRead o p env) := by
  cases p with
  | none => exact .refl _
  | some f => exact .then_ _ fun n => skipBits_release _ _

theorem padLoop_release (o : Order) (fuel n : Nat) : Follows (padLoop o fuel n) (Rel.padLoop o fuel n) := by
  induction fuel generalizing n with
  | zero => exact .refl _
  | succ k ih =>
    unfold padLoop Rel.padLoop
    exact .ite (fun _ => .refl _) fun _ => .bind (writeBitsOrder_release _ _) fun _ => ih _

theorem padWrite_release (o : Option Order) (p : Option (Env → Int)) (env : Env) :
    Follows (padWrite o p env) (Rel.padWrite o p env) := by
  cases p with
  | none => exact .refl _
  | some f => exact .then_ _ fun n => padLoop_release _ _ _

theorem attrsRead_release (a : Attrs) (e : Endian) {f g : Env → M Reader Val} (h : ∀ env, Follows (f env) (g env))
    (env : Env) : Follows (a.read e f env) (Rel.attrsRead a e g env) := by
  unfold Attrs.read Rel.attrsRead
  refine .then_ _ fun _ => .then_ _ fun _ => .bind (padRead_release _ _ _) fun _ => .then_ _ fun r => ?_
  refine .bind ?_ fun v => .then_ _ fun _ => .bind (padRead_release _ _ _) fun _ => .refl _
  exact .ite (fun _ => .bind (h _) fun _ => .refl _) fun _ => .refl _

theorem attrsWrite_release (a : Attrs) (e : Endian) {f g : Env → Val → M Writer Unit}
    (h : ∀ env v, Follows (f env v) (g env v)) (env : Env) (v : Val) :
    Follows (a.write e f env v) (Rel.attrsWrite a e g env v) := by
  unfold Attrs.write Rel.attrsWrite
  refine .then_ _ fun _ => .bind (magicWrite_release _ _) fun _ => .bind (padWrite_release _ _ _) fun _ => .then_ _ fun w => ?_
  refine .then_ _ fun _ => .bind ?_ fun _ => padWrite_release _ _ _
  exact .ite (fun _ => h _ _) fun _ => .refl _

theorem firstMatch_release (env : Env) (id : Val) : ∀ (vs ws : Variants), vs.Follows ws → ∀ i,
    ws.firstMatch env id i = vs.firstMatch env id i
  | .nil, ws, h, i => by
    unfold Variants.Follows at h
    subst h
    rfl
  | .cons a fs rest, ws, h, i => by
    unfold Variants.Follows at h
    obtain ⟨gs, ws, rfl, _, h⟩ := h
    simp only [Variants.firstMatch, firstMatch_release env id rest ws h]

theorem defaultAt_release : ∀ (vs ws : Variants), vs.Follows ws → ∀ i, ws.defaultAt i = vs.defaultAt i
  | .nil, ws, h, i => by
    unfold Variants.Follows at h
    subst h
    rfl
  | .cons a fs rest, ws, h, i => by
    unfold Variants.Follows at h
    obtain ⟨gs, ws, rfl, _, h⟩ := h
    simp only [Variants.defaultAt, defaultAt_release rest ws h]

theorem select_release {vs ws : Variants} (h : vs.Follows ws) (env : Env) (id : Val) :
    ws.select env id = vs.select env id := by
  unfold Variants.select
  rw [firstMatch_release env id vs ws h, defaultAt_release vs ws h]

theorem dispatch_release {f g : Nat → M Reader Val} (h : ∀ i, Follows (f i) (g i)) (sel : Option Nat) :
    Follows (dispatch sel f) (dispatch sel g) := by
  cases sel with
  | none => exact .refl _
  | some i => exact .bind (h i) fun _ => .refl _

mutual

theorem Ty.read_release (m : Machine) : ∀ (t u : Ty), t.Follows u → ∀ env, Follows (t.read m env) (Rel.read m u env)
  | .prim n c, u, h, env => by
    unfold Ty.Follows at h
    obtain ⟨n', c', rfl, h⟩ := h
    exact (h env).1
  | .option t, u, h, env => by
    unfold Ty.Follows at h
    obtain ⟨u, rfl, h⟩ := h
    exact .bind (Ty.read_release m t u h env) fun _ => .refl _
  | .array n t, u, h, env => by
    unfold Ty.Follows at h
    obtain ⟨u, rfl, h⟩ := h
    exact .bind (arrayRead_release (Ty.read_release m t u h env) n) fun _ => .refl _
  | .pair a b, u, h, env => by
    unfold Ty.Follows at h
    obtain ⟨u, v, rfl, h1, h2⟩ := h
    exact .bind (Ty.read_release m a u h1 env) fun _ => .bind (Ty.read_release m b v h2 env) fun _ => .refl _
  | .vec n l t, u, h, env => by
    unfold Ty.Follows at h
    obtain ⟨u, rfl, h⟩ := h
    exact .then_ _ fun lim => .bind (vecRead_release (Ty.read_release m t u h env) _ _ _) fun _ => .refl _
  | .bytes n ctx, u, h, env => by
    unfold Ty.Follows at h
    subst h
    exact .then_ _ fun k => .bind (readExact_release _ _) fun _ => .refl _
  | .struct args seek magic fs, u, h, env => by
    unfold Ty.Follows at h
    obtain ⟨gs, rfl, h⟩ := h
    exact .then_ _ fun _ => .then_ _ fun _ => Fields.read_release m fs gs h _
  | .enum args magic id store vs, u, h, env => by
    unfold Ty.Follows at h
    obtain ⟨id', store', ws, rfl, h1, h2, h3⟩ := h
    rcases id with e | ⟨n, c⟩ <;> rcases id' with e' | ⟨n', c'⟩ <;> unfold IdSrc.Follows at h1
    · subst h1
      rw [Ty.read, Rel.read]
      refine .then_ _ fun _ => ?_
      rw [select_release h3]
      exact dispatch_release (Variants.readAt_release m vs ws h3 _ _ _) _
    · exact h1.elim
    · exact h1.elim
    · rw [Ty.read, Rel.read]
      refine .then_ _ fun _ => .bind (h1.2 _).1 fun x => ?_
      rw [select_release h3]
      exact dispatch_release (Variants.readAt_release m vs ws h3 _ _ _) _

theorem Fields.read_release (m : Machine) : ∀ (fs gs : Fields), fs.Follows gs →
    ∀ env, Follows (fs.read m env) (Rel.readFields m gs env)
  | .nil, gs, h, env => by
    unfold Fields.Follows at h
    subst h
    exact .refl _
  | .cons a t rest, gs, h, env => by
    unfold Fields.Follows at h
    obtain ⟨u, gs, rfl, h1, h2⟩ := h
    refine .bind (attrsRead_release a _ (Ty.read_release m t u h1) env) fun v => ?_
    exact .bind (Fields.read_release m rest gs h2 _) fun _ => .refl _
  | .temp a t value rest, gs, h, env => by
    unfold Fields.Follows at h
    obtain ⟨u, gs, rfl, h1, h2⟩ := h
    exact .bind (attrsRead_release a _ (Ty.read_release m t u h1) env) fun v => Fields.read_release m rest gs h2 _

theorem Fields.readStored_release (m : Machine) : ∀ (fs gs : Fields), fs.Follows gs →
    ∀ env id, Follows (fs.readStored m env id) (Rel.readStored m gs env id)
  | .nil, gs, h, env, id => by
    unfold Fields.Follows at h
    subst h
    exact .refl _
  | .cons a t rest, gs, h, env, id => by
    unfold Fields.Follows at h
    obtain ⟨u, gs, rfl, h1, h2⟩ := h
    exact .bind (Fields.read_release m rest gs h2 _) fun _ => .refl _
  | .temp a t value rest, gs, h, env, id => by
    unfold Fields.Follows at h
    obtain ⟨u, gs, rfl, h1, h2⟩ := h
    exact Fields.read_release m rest gs h2 _

theorem Variants.readAt_release (m : Machine) : ∀ (vs ws : Variants), vs.Follows ws →
    ∀ env id typed i, Follows (vs.readAt m env id typed i) (Rel.readAt m ws env id typed i)
  | .nil, ws, h, env, id, typed, i => by
    unfold Variants.Follows at h
    subst h
    exact .refl _
  | .cons a fs rest, ws, h, env, id, typed, i => by
    unfold Variants.Follows at h
    obtain ⟨gs, ws, rfl, h1, h2⟩ := h
    cases i with
    | zero =>
      exact .ite (fun _ => Fields.readStored_release m fs gs h1 _ _) fun _ => Fields.read_release m fs gs h1 _
    | succ i => exact Variants.readAt_release m rest ws h2 _ _ _ i

end

mutual

theorem Ty.write_release (m : Machine) : ∀ (t u : Ty), t.Follows u →
    ∀ env v, Follows (t.write m env v) (Rel.write m u env v)
  | .prim n c, u, h, env, v => by
    unfold Ty.Follows at h
    obtain ⟨n', c', rfl, h⟩ := h
    exact (h env).2 v
  | .option t, u, h, env, v => by
    unfold Ty.Follows at h
    obtain ⟨u, rfl, h⟩ := h
    cases v with
    | some x => exact Ty.write_release m t u h env x
    | _ => exact .refl _
  | .array n t, u, h, env, v => by
    unfold Ty.Follows at h
    obtain ⟨u, rfl, h⟩ := h
    rw [Ty.write, Rel.write]
    exact .ite (fun _ => writeAll_release (Ty.write_release m t u h env) _) fun _ => .refl _
  | .pair a b, u, h, env, v => by
    unfold Ty.Follows at h
    obtain ⟨u, v', rfl, h1, h2⟩ := h
    rw [Ty.write.eq_def, Rel.write.eq_def]
    dsimp only
    split
    · exact .bind (Ty.write_release m a u h1 env _) fun _ => Ty.write_release m b v' h2 env _
    · exact .panic _
  | .vec n l t, u, h, env, v => by
    unfold Ty.Follows at h
    obtain ⟨u, rfl, h⟩ := h
    rw [Ty.write, Rel.write]
    exact .ite (fun _ => writeAll_release (Ty.write_release m t u h env) _) fun _ => .refl _
  | .bytes n ctx, u, h, env, v => by
    unfold Ty.Follows at h
    subst h
    rw [Ty.write, Rel.write]
    exact .ite (fun _ => writeAll_release (fun _ => u8Write_release _ _ _) _) fun _ => .refl _
  | .struct args seek magic fs, u, h, env, v => by
    unfold Ty.Follows at h
    obtain ⟨gs, rfl, h⟩ := h
    rw [Ty.write, Rel.write]
    exact .then_ _ fun _ => .bind (magicWrite_release _ _) fun _ => Fields.write_release m fs gs h _ _ _
  | .enum args magic id store vs, u, h, env, v => by
    unfold Ty.Follows at h
    obtain ⟨id', store', ws, rfl, h1, h2, h3⟩ := h
    cases v with
    | variant i fs =>
      rw [Ty.write, Rel.write]
      exact .bind (magicWrite_release _ _) fun _ => Variants.writeAt_release m vs ws h3 _ _ _ h1 _ _ (h2 i) i fs
    | _ => exact .refl _

theorem Fields.write_release (m : Machine) : ∀ (fs gs : Fields), fs.Follows gs →
    ∀ env all v, Follows (fs.write m env all v) (Rel.writeFields m gs env all v)
  | .nil, gs, h, env, all, v => by
    unfold Fields.Follows at h
    subst h
    rw [Fields.write, Rel.writeFields]
    exact .refl _
  | .cons a t rest, gs, h, env, all, v => by
    unfold Fields.Follows at h
    obtain ⟨u, gs, rfl, h1, h2⟩ := h
    cases v with
    | cons x xs =>
      rw [Fields.write, Rel.writeFields]
      refine .bind (attrsWrite_release a _ (Ty.write_release m t u h1) env x) fun _ => ?_
      exact Fields.write_release m rest gs h2 _ _ _
    | _ => exact .panic _
  | .temp a t value rest, gs, h, env, all, v => by
    unfold Fields.Follows at h
    obtain ⟨u, gs, rfl, h1, h2⟩ := h
    cases value with
    | some f =>
      rw [Fields.write, Rel.writeFields]
      refine .bind (attrsWrite_release a _ (Ty.write_release m t u h1) env _) fun _ => ?_
      exact Fields.write_release m rest gs h2 _ _ _
    | none =>
      rw [Fields.write, Rel.writeFields]
      refine .bind (attrsWrite_release a _ (fun _ _ => .refl _) env _) fun _ => ?_
      exact Fields.write_release m rest gs h2 _ _ _

theorem Fields.writeStored_release (m : Machine) : ∀ (fs gs : Fields), fs.Follows gs →
    ∀ (st st' : Env → Val → M Writer Unit), (∀ env v, Follows (st env v) (st' env v)) →
    ∀ env v, Follows (fs.writeStored m st env v) (Rel.writeStored m st' gs env v)
  | .nil, gs, h, st, st', hs, env, v => by
    unfold Fields.Follows at h
    subst h
    rw [Fields.writeStored, Rel.writeStored]
    exact .refl _
  | .cons a t rest, gs, h, st, st', hs, env, v => by
    unfold Fields.Follows at h
    obtain ⟨u, gs, rfl, h1, h2⟩ := h
    cases v with
    | cons x xs =>
      rw [Fields.writeStored, Rel.writeStored]
      exact .bind (hs _ _) fun _ => Fields.write_release m rest gs h2 _ _ _
    | _ => exact .panic _
  | .temp a t value rest, gs, h, st, st', hs, env, v => by
    unfold Fields.Follows at h
    obtain ⟨u, gs, rfl, h1, h2⟩ := h
    exact .panic _

theorem Variants.writeAt_release (m : Machine) : ∀ (vs ws : Variants), vs.Follows ws →
    ∀ env (id id' : IdSrc), id.Follows id' →
    ∀ (st st' : Env → Val → M Writer Unit), (∀ env v, Follows (st env v) (st' env v)) →
    ∀ i v, Follows (vs.writeAt m env id st i v) (Rel.writeAt m ws env id' st' i v)
  | .nil, ws, h, env, id, id', hi, st, st', hs, i, v => by
    unfold Variants.Follows at h
    subst h
    exact .panic _
  | .cons a fs rest, ws, h, env, id, id', hi, st, st', hs, i, v => by
    unfold Variants.Follows at h
    obtain ⟨gs, ws, rfl, h1, h2⟩ := h
    cases i with
    | zero =>
      rw [Variants.writeAt.eq_def, Rel.writeAt.eq_def]
      dsimp only
      have tail : Follows
          (if a.idPat = true then Fields.writeStored m st fs env v else Fields.write m fs env v v)
          (if a.idPat = true then Rel.writeStored m st' gs env v else Rel.writeFields m gs env v v) :=
        .ite (fun _ => Fields.writeStored_release m fs gs h1 _ _ hs _ _) fun _ => Fields.write_release m fs gs h1 _ _ _
      rcases id with e | ⟨n, c⟩ <;> rcases id' with e' | ⟨n', c'⟩ <;> unfold IdSrc.Follows at hi
      · exact tail
      · exact hi.elim
      · exact hi.elim
      · cases a.id with
        | none => exact tail
        | some x => exact .bind ((hi.2 _).2 x) fun _ => tail
    | succ i => exact Variants.writeAt_release m rest ws h2 _ _ _ hi _ _ hs i v

end

/-! ## Definitions -/

theorem toSrc_release (m : Machine) (id : DId) : (id.toSrc m).Follows (Rel.toSrc m id) := by
  cases id with
  | typed n W ctx st => exact ⟨rfl, fun _ => uintCodec_release ..⟩
  | arg e => rfl

theorem store_release (m : Machine) (id : DId) (env : Env) (v : Val) : Follows (id.store m env v) (Rel.store m id env v) := by
  cases id with
  | typed n W ctx st => exact (uintCodec_release ..).2 v
  | arg e => exact .refl _

mutual

theorem Def.toTy_release (m : Machine) : ∀ d : Def, (d.toTy m).Follows (Rel.toTy m d)
  | .leaf n l => by rw [Def.toTy, Rel.toTy, Ty.Follows]; exact ⟨_, _, rfl, fun _ => codec_release m l⟩
  | .option t => by rw [Def.toTy, Rel.toTy, Ty.Follows]; exact ⟨_, rfl, Def.toTy_release m t⟩
  | .array n t => by rw [Def.toTy, Rel.toTy, Ty.Follows]; exact ⟨_, rfl, Def.toTy_release m t⟩
  | .pair a b => by
    rw [Def.toTy, Rel.toTy, Ty.Follows]; exact ⟨_, _, rfl, Def.toTy_release m a, Def.toTy_release m b⟩
  | .vec z l t => by rw [Def.toTy, Rel.toTy, Ty.Follows]; exact ⟨_, rfl, Def.toTy_release m t⟩
  | .bytes n ctx => by rw [Def.toTy, Rel.toTy, Ty.Follows]
  | .struct args magic fs => by
    rw [Def.toTy, Rel.toTy, Ty.Follows]; exact ⟨_, rfl, DFields.toFields_release m fs⟩
  | .enum args magic id vs => by
    rw [Def.toTy, Rel.toTy, Ty.Follows]
    exact ⟨_, _, _, rfl, toSrc_release m id, fun _ => store_release m id, DVariants.toVariants_release m vs⟩

theorem DFields.toFields_release (m : Machine) : ∀ fs : DFields, (fs.toFields m).Follows (Rel.toFields m fs)
  | .nil => by rw [DFields.toFields, Rel.toFields, Fields.Follows]
  | .cons a t rest => by
    rw [DFields.toFields, Rel.toFields, Fields.Follows]
    exact ⟨_, _, rfl, Def.toTy_release m t, DFields.toFields_release m rest⟩
  | .temp a t v rest => by
    rw [DFields.toFields, Rel.toFields, Fields.Follows]
    exact ⟨_, _, rfl, Def.toTy_release m t, DFields.toFields_release m rest⟩

theorem DVariants.toVariants_release (m : Machine) : ∀ vs : DVariants, (vs.toVariants m).Follows (Rel.toVariants m vs)
  | .nil => by rw [DVariants.toVariants, Rel.toVariants, Variants.Follows]
  | .cons a fs rest => by
    rw [DVariants.toVariants, Rel.toVariants, Variants.Follows]
    exact ⟨_, _, rfl, DFields.toFields_release m fs, DVariants.toVariants_release m rest⟩

end

/-! ## Whole values -/

theorem readFrom_release {f g : M Reader α} (h : Follows f g) (off : Nat) : Follows (readFrom f off) (Rel.readFrom g off) := by
  unfold readFrom Rel.readFrom
  by_cases ho : off ≠ 0
  · rw [if_pos ho, if_pos ho]
    exact .bind (skipBits_release _ _) fun _ => h
  · rw [if_neg ho, if_neg ho]
    exact h

theorem fromBytes_release {f g : M Reader α} (h : Follows f g) (data : List Byte) (off : Nat)
    (hp : fromBytes f data off ≠ .panic) : Rel.fromBytes g data off = fromBytes f data off := by
  unfold fromBytes at hp
  unfold fromBytes Rel.fromBytes
  have hr : (readFrom f off (Reader.new { data := data })).1 ≠ .panic := by
    intro he
    rcases hx : readFrom f off (Reader.new { data := data }) with ⟨x, r⟩
    rw [hx] at hp he
    rw [show x = .panic from he] at hp
    exact hp rfl
  rw [readFrom_release h off _ hr]
  rfl

theorem fromReaderOn_release {f g : M Reader α} (h : Follows f g) (src : Src) (off : Nat)
    (hp : (fromReaderOn f src off).1 ≠ .panic) : Rel.fromReaderOn g src off = fromReaderOn f src off := by
  unfold fromReaderOn at hp
  unfold fromReaderOn Rel.fromReaderOn
  have hr : (readFrom f off (Reader.new src)).1 ≠ .panic := by
    intro he
    rcases hx : readFrom f off (Reader.new src) with ⟨x, r⟩
    rw [hx] at hp he
    rw [show x = .panic from he] at hp
    exact hp rfl
  rw [readFrom_release h off _ hr]
  rfl

theorem fromReader_eq (f : M Reader α) (src : Src) (off : Nat) : fromReader f src off = (fromReaderOn f src off).1 := by
  unfold fromReader fromReaderOn
  rcases readFrom f off (Reader.new src) with ⟨x, r⟩
  cases x <;> rfl

theorem tryFrom_release {f g : M Reader α} (h : Follows f g) (data : List Byte)
    (hp : tryFrom f data ≠ .panic) : Rel.tryFrom g data = tryFrom f data := by
  unfold tryFrom at *
  unfold Rel.tryFrom
  rw [fromReader_eq] at *
  have hr : (fromReaderOn f { data := data } 0).1 ≠ .panic := by
    intro he
    rw [he] at hp
    exact hp rfl
  rw [fromReaderOn_release h _ _ hr]
  rfl

theorem writeTo_release {f g : M Writer Unit} (h : Follows f g) (sink : Sink)
    (hp : (writeTo f sink).1 ≠ .panic) : Rel.writeTo g sink = writeTo f sink := by
  unfold writeTo at hp
  unfold writeTo Rel.writeTo
  have e : (g >>= fun _ => Rel.finalize) (Writer.new sink) = (f >>= fun _ => Writer.finalize) (Writer.new sink) :=
    Follows.bind h (fun _ => finalize_release) _ hp
  rw [e]

theorem toBytes_release {f g : M Writer Unit} (h : Follows f g) (hp : toBytes f ≠ .panic) :
    Rel.toBytes g = toBytes f := by
  unfold toBytes at hp
  unfold toBytes Rel.toBytes
  have hr : ((f >>= fun _ => Writer.finalize) (Writer.new {})).1 ≠ .panic := by
    intro he
    rcases hx : (f >>= fun _ => Writer.finalize) (Writer.new {}) with ⟨x, w⟩
    rw [hx] at hp he
    rw [show x = .panic from he] at hp
    exact hp rfl
  have e : (g >>= fun _ => Rel.finalize) (Writer.new {}) = (f >>= fun _ => Writer.finalize) (Writer.new {}) :=
    Follows.bind h (fun _ => finalize_release) _ hr
  rw [e]
  rfl

theorem toSlice_release {f g : M Writer Unit} (h : Follows f g) (buf : List Byte) (hp : (toSlice f buf).1 ≠ .panic) :
    Rel.toSlice g buf = toSlice f buf := by
  unfold toSlice at hp
  unfold toSlice Rel.toSlice
  have hr : ((f >>= fun _ => Writer.finalize) (Writer.new { data := buf, cap := some buf.length })).1 ≠ .panic := by
    intro he
    rcases hx : (f >>= fun _ => Writer.finalize) (Writer.new { data := buf, cap := some buf.length }) with ⟨x, w⟩
    rw [hx] at hp he
    rw [show x = .panic from he] at hp
    exact hp rfl
  have e := Follows.bind h (fun _ => finalize_release) _ hr
  rw [e]
  rfl

end Deku
