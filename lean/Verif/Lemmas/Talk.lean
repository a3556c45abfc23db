import Verif.Lemmas.Monad
import Verif.Spec.Talk
import Verif.Model.Leaves
import Verif.Model.Core

/-!
# Reading uses the stream only by calling it
-/

namespace Deku

variable {α β : Type}

namespace Talk

variable {C : Type} {A : C → Type} {S : Type}

/-- One program after the other. -/
def bind : Talk C A α → (α → Talk C A β) → Talk C A β
  | .done a, f => f a
  | .call c k, f => .call c fun x => (k x).bind f

theorem run_bind (impl : Impl C A S) : ∀ (t : Talk C A α) (f : α → Talk C A β) (s : S),
    (t.bind f).run impl s = (f (t.run impl s).1).run impl (t.run impl s).2
  | .done _, _, _ => rfl
  | .call c k, f, s => by simp only [bind, run]; exact run_bind impl (k _) f _

end Talk

namespace Asks

theorem mk {f : M Reader α} (t : ReadTalk α)
    (h : ∀ (s : Src) (h : ReadState), f { inner := s, leftover := h.1, bitsRead := h.2 } =
      ((((t h).run Src.impl s).1).1, { inner := ((t h).run Src.impl s).2, leftover := ((t h).run Src.impl s).1.2.1, bitsRead := ((t h).run Src.impl s).1.2.2 })) :
    Asks f := ⟨t, fun r => h r.inner (r.leftover, r.bitsRead)⟩

theorem pure (a : α) : Asks (Pure.pure a : M Reader α) := .mk (fun h => .done (.ok a, h)) fun _ _ => rfl

theorem throw (e : DekuError) : Asks (M.throw e : M Reader α) := .mk (fun h => .done (.err e, h)) fun _ _ => rfl

theorem panic : Asks (M.panic : M Reader α) := .mk (fun h => .done (.panic, h)) fun _ _ => rfl

theorem assert (b : Bool) : Asks (M.assert b : M Reader Unit) := by
  cases b
  · exact .mk (fun h => .done (.panic, h)) fun _ _ => rfl
  · exact .mk (fun h => .done (.ok (), h)) fun _ _ => rfl

theorem modify {g : Reader → Reader}
    (h : ∀ (s s' : Src) (h : ReadState), g { inner := s, leftover := h.1, bitsRead := h.2 } =
      { g { inner := s', leftover := h.1, bitsRead := h.2 } with inner := s }) : Asks (M.modify g) :=
  .mk (fun hd => .done (.ok (), ((g { inner := { data := [] }, leftover := hd.1, bitsRead := hd.2 }).leftover,
    (g { inner := { data := [] }, leftover := hd.1, bitsRead := hd.2 }).bitsRead))) fun s hd => by
    rw [M.modify_run, h s { data := [] } hd]; rfl

theorem bind {f : M Reader α} {g : α → M Reader β} (hf : Asks f) (hg : ∀ a, Asks (g a)) : Asks (f >>= g) := by
  obtain ⟨tf, hf⟩ := hf
  obtain ⟨tg, hg⟩ := Classical.axiomOfChoice hg
  refine .mk (fun h => (tf h).bind fun y => match y with
    | (.ok a, h') => tg a h'
    | (.err e, h') => .done (.err e, h')
    | (.panic, h') => .done (.panic, h')) fun s h => ?_
  have e := hf { inner := s, leftover := h.1, bitsRead := h.2 }
  simp only [ReadTalk.run] at e
  rw [M.bind_def, e]
  simp only [Talk.run_bind]
  rcases (tf h).run Src.impl s with ⟨⟨x, h'⟩, s'⟩
  cases x with
  | ok a => exact hg a _
  | err e => rfl
  | panic => rfl

theorem get {g : Reader → M Reader β} (h : ∀ (s s' : Src) (h : ReadState),
      g { inner := s, leftover := h.1, bitsRead := h.2 } = g { inner := s', leftover := h.1, bitsRead := h.2 })
    (hg : ∀ r, Asks (g r)) : Asks (M.get >>= g) := by
  obtain ⟨tg, hg⟩ := Classical.axiomOfChoice hg
  refine .mk (fun hd => tg { inner := { data := [] }, leftover := hd.1, bitsRead := hd.2 } hd) fun s hd => ?_
  rw [M.get_bind_run, h s { data := [] } hd]
  exact hg _ _

end Asks

/-- Closes goals of the form `Asks f` by following the structure of `f`, with the given lemmas for
the calls in it. -/
macro "asks" "[" ts:term,* "]" : tactic => do
  let ts := ts.getElems
  `(tactic| repeat' with_reducible (first
    $[| apply $ts]* | assumption | exact Asks.pure _ | exact Asks.throw _ | exact Asks.panic
    | exact Asks.assert _ | exact Asks.modify (by with_unfolding_all exact fun _ _ _ => rfl)
    | refine Asks.get (by with_unfolding_all exact fun _ _ _ => rfl) (fun _ => ?_)
    | refine Asks.bind ?_ (fun _ => ?_) | split | dsimp only))

namespace Reader

theorem ioRead_asks (n : Nat) : Asks (ioRead n) :=
  .mk (fun h => .call (.readExact n) fun x => .done (.ok x, h)) fun _ _ => rfl

theorem seek_asks (p : SeekFrom) : Asks (Reader.seek p) :=
  .mk (fun h => .call (.seek p) fun x => match x with
    | .ok n => .done (.ok (.ok n), (none, n * 8))
    | .error e => .done (.ok (.error e), (none, h.2))) fun s h => by
    simp only [seek, Talk.run, Src.impl]
    rcases s.seek p with ⟨x, s'⟩
    cases x <;> rfl

theorem end_asks : Asks Reader.end := by
  unfold «end»; asks [ioRead_asks]

theorem readSlots_asks (d : Nat) : ∀ k, Asks (readSlots d k)
  | 0 => .pure _
  | k + 1 => by have := readSlots_asks d k; unfold readSlots; asks [ioRead_asks]

theorem readPartial_asks (d : Nat) : Asks (readPartial d) := by
  unfold readPartial; asks [ioRead_asks]

theorem readBitsInto_asks (n : Nat) (o : Order) : Asks (readBitsInto n o) := by
  unfold readBitsInto; asks [readSlots_asks, readPartial_asks]

theorem uintLoop_asks (amt : Nat) : ∀ fuel acc h, Asks (uintLoop amt fuel acc h)
  | 0, _, _ => .pure _
  | fuel + 1, acc, h => by unfold uintLoop; asks [uintLoop_asks amt fuel, ioRead_asks]

theorem readBitsUintMsb0_asks (n : Nat) : Asks (readBitsUintMsb0 n) := by
  unfold readBitsUintMsb0; asks [uintLoop_asks]

theorem readBytesLeftover_asks (b : Byte) (n : Nat) : Asks (readBytesLeftover b n) := by
  unfold readBytesLeftover; asks [ioRead_asks]

theorem readBytes_asks (n : Nat) (o : Order) : Asks (readBytes n o) := by
  unfold readBytes; asks [ioRead_asks, readBytesLeftover_asks, readBitsInto_asks]

theorem readBytesConst_asks (n : Nat) (o : Order) : Asks (readBytesConst n o) := by
  unfold readBytesConst; asks [ioRead_asks, readBytesLeftover_asks, readBitsInto_asks]

theorem readBytesConstInto_asks (n : Nat) (o : Order) : Asks (readBytesConstInto n o) := by
  unfold readBytesConstInto; asks [ioRead_asks, readBytesLeftover_asks, readBitsInto_asks]

theorem skipBits_asks (n : Nat) (o : Order) : Asks (skipBits n o) := by
  unfold skipBits; asks [seek_asks, readBitsInto_asks]

end Reader

namespace Prim

theorem insertZeros_asks (cap i : Nat) : ∀ k l, Asks (insertZeros cap i k l : M Reader _)
  | 0, _ => .pure _
  | k + 1, l => by unfold insertZeros; asks [insertZeros_asks cap i k]

theorem readSliceOrd_asks (W : Nat) (e : Endian) (o : Order) (l : List Bool) : Asks (readSliceOrd W e o l) := by
  unfold readSliceOrd; asks [insertZeros_asks]

theorem readSlice_asks (W : Nat) (e : Endian) (l : List Bool) : Asks (readSlice W e l) := by
  unfold readSlice; asks [insertZeros_asks]

theorem readUnsigned_asks (nat : Endian) (W : Nat) (ctx : IntCtx) : Asks (readUnsigned nat W ctx) := by
  cases ctx <;> simp only [readUnsigned, readUBytesOrd, readWhole, readBits, readBitsOrd, readBytesOrd, readU8Bytes] <;>
  asks [Reader.readBytesConstInto_asks, Reader.readBytes_asks, Reader.readBitsInto_asks, Reader.readBitsUintMsb0_asks, readSlice_asks, readSliceOrd_asks]

theorem readSigned_asks (nat : Endian) (W : Nat) (ctx : IntCtx) : Asks (readSigned nat W ctx) := by
  cases ctx <;> simp only [readSigned, readSignedWhole, readSignedBits, readSignedBitsOrd, readSignedBytesOrd, readSliceSigned] <;>
  asks [Reader.readBytesConstInto_asks, Reader.readBytes_asks, Reader.readBitsInto_asks, readSliceOrd_asks]

end Prim

namespace Coll

variable {σ : Type}

theorem srcPosition_asks : Asks (srcCall Src.streamPosition) :=
  .mk (fun h => .call .position fun x => match x with
    | .ok n => .done (.ok n, h)
    | .error e => .done (.err (.io e), h)) fun s h => by
    simp only [srcCall, Talk.run, Src.impl]
    rcases s.streamPosition with ⟨x, s'⟩
    cases x <;> rfl

theorem srcSeek_asks (p : SeekFrom) : Asks (srcCall fun s => s.seek p) :=
  .mk (fun h => .call (.seek p) fun x => match x with
    | .ok n => .done (.ok n, h)
    | .error e => .done (.err (.io e), h)) fun s h => by
    simp only [srcCall, Talk.run, Src.impl]
    rcases s.seek p with ⟨x, s'⟩
    cases x <;> rfl

theorem readExact_asks (n : Nat) : Asks (readExact n) := by
  unfold readExact usize; asks [srcPosition_asks, srcSeek_asks, Reader.readBytes_asks]

theorem vecLoop_asks {read : M Reader α} (h : Asks read) (pred : Nat → α → σ → Bool × σ)
    (start : Nat) : ∀ mem st, Asks (vecLoop read pred start mem st)
  | 0, _ => by unfold vecLoop; asks []
  | mem + 1, st => by unfold vecLoop; asks [vecLoop_asks h pred start mem]

theorem vecEndLoop_asks {read : M Reader α} (h : Asks read) : ∀ mem, Asks (vecEndLoop read mem)
  | 0 => by unfold vecEndLoop; asks [Reader.end_asks]
  | mem + 1 => by have := vecEndLoop_asks h mem; unfold vecEndLoop; asks [Reader.end_asks]

theorem vecRead_asks {read : M Reader α} (h : Asks read) (mem size : Nat)
    (l : Limit α σ) : Asks (vecRead mem size read l) := by
  cases l <;> simp only [vecRead, vecWithPredicate, vecToEnd, usize, withCapacity] <;>
  asks [vecLoop_asks h, vecEndLoop_asks h]

theorem arrayRead_asks {read : M Reader α} (h : Asks read) : ∀ n, Asks (arrayRead read n)
  | 0 => .pure _
  | n + 1 => by have := arrayRead_asks h n; unfold arrayRead; asks []

theorem u8Read_asks (nat : Endian) : Asks (u8Read nat) := by
  unfold u8Read; asks [Prim.readUnsigned_asks]

theorem cstringOf_asks (bs : List Byte) : Asks (cstringOf bs) := by
  unfold cstringOf; asks []

theorem mapLoop_asks [DecidableEq α] {read : M Reader (α × β)} (h : Asks read) (pred : Nat → α × β → σ → Bool × σ)
    (start : Nat) : ∀ mem st res, Asks (mapLoop read pred start mem st res)
  | 0, _, _ => by unfold mapLoop; asks []
  | mem + 1, st, res => by unfold mapLoop; asks [mapLoop_asks h pred start mem]

theorem mapEndLoop_asks [DecidableEq α] {read : M Reader (α × β)} (h : Asks read) : ∀ mem res, Asks (mapEndLoop read mem res)
  | 0, _ => by unfold mapEndLoop; asks [Reader.end_asks]
  | mem + 1, _ => by unfold mapEndLoop; asks [Reader.end_asks, mapEndLoop_asks h mem]

theorem mapRead_asks [DecidableEq α] {read : M Reader (α × β)} (h : Asks read) (mem : Nat)
    (l : Limit (α × β) σ) : Asks (mapRead mem read l) := by
  cases l <;> simp only [mapRead, mapWithPredicate, usize, withCapacity] <;>
  asks [mapLoop_asks h, mapEndLoop_asks h]

theorem setLoop_asks [DecidableEq α] {read : M Reader α} (h : Asks read) (pred : Nat → α → σ → Bool × σ)
    (start : Nat) : ∀ mem st res, Asks (setLoop read pred start mem st res)
  | 0, _, _ => by unfold setLoop; asks []
  | mem + 1, st, res => by unfold setLoop; asks [setLoop_asks h pred start mem]

theorem setEndLoop_asks [DecidableEq α] {read : M Reader α} (h : Asks read) : ∀ mem res, Asks (setEndLoop read mem res)
  | 0, _ => by unfold setEndLoop; asks [Reader.end_asks]
  | mem + 1, _ => by unfold setEndLoop; asks [Reader.end_asks, setEndLoop_asks h mem]

theorem setRead_asks [DecidableEq α] {read : M Reader α} (h : Asks read) (mem : Nat)
    (l : Limit α σ) : Asks (setRead mem read l) := by
  cases l <;> simp only [setRead, setWithPredicate, usize, withCapacity] <;>
  asks [setLoop_asks h, setEndLoop_asks h]

end Coll

theorem magicRead_asks (nat : Endian) : ∀ l, Asks (magicRead nat l)
  | [] => .pure _
  | b :: l => by have := magicRead_asks nat l; unfold magicRead; asks [Coll.u8Read_asks]

theorem padRead_asks (o : Option Order) (pad : Option (Env → Int)) (env : Env) : Asks (padRead o pad env) := by
  unfold padRead padSize; asks [Reader.skipBits_asks]

theorem seekRead_asks (s : Option (Env → Option SeekFrom)) (env : Env) : Asks (seekRead s env) := by
  unfold seekRead; asks [Reader.seek_asks]

theorem Attrs.read_asks (a : Attrs) (nat : Endian) {rd : Env → M Reader Val}
    (hrd : ∀ env, Asks (rd env)) (env : Env) : Asks (a.read nat rd env) := by
  unfold Attrs.read Attrs.value Attrs.check Attrs.applyMap
  asks [seekRead_asks, magicRead_asks, padRead_asks, hrd]

theorem LimitE.eval_asks (l : LimitE) (env : Env) : Asks (l.eval env) := by
  cases l <;> simp only [LimitE.eval, toUsize] <;> asks []

mutual

theorem Ty.read_asks (m : Machine) : ∀ (t : Ty), t.Asks → ∀ env, Asks (t.read m env)
  | .prim _ c, h, env => by simpa [Ty.read] using h env
  | .option t, h, env => by
    have := t.read_asks m h env
    simp only [Ty.read]; asks []
  | .array n t, h, env => by
    have ht := t.read_asks m h env
    simp only [Ty.read]; asks [Coll.arrayRead_asks ht]
  | .pair a b, h, env => by
    have h1 := a.read_asks m h.1 env
    have h2 := b.read_asks m h.2 env
    simp only [Ty.read]; asks []
  | .vec size l t, h, env => by
    have ht := t.read_asks m h env
    simp only [Ty.read]; asks [LimitE.eval_asks, Coll.vecRead_asks ht]
  | .bytes n _, _, env => by
    simp only [Ty.read, toUsize]; asks [Coll.readExact_asks]
  | .struct args sk magic fs, h, env => by
    have hf := fs.read_asks m h
    simp only [Ty.read]
    asks [seekRead_asks, magicRead_asks, hf]
  | .enum args magic id store vs, h, env => by
    obtain ⟨hid, hv⟩ := h
    cases id with
    | ctx e =>
      simp only [Ty.read, dispatch]
      asks [magicRead_asks, vs.readAt_asks m hv]
    | typed size c =>
      have hc := hid size c rfl
      simp only [Ty.read, dispatch]
      asks [magicRead_asks, vs.readAt_asks m hv, hc]

theorem Fields.read_asks (m : Machine) : ∀ (fs : Fields), fs.Asks → ∀ env, Asks (fs.read m env)
  | .nil, _, _ => by simp only [Fields.read]; exact .pure _
  | .cons a t tl, h, env => by
    obtain ⟨ht, hr⟩ := h
    simp only [Fields.read]
    asks [Attrs.read_asks a m.native (t.read_asks m ht), tl.read_asks m hr]
  | .temp a t _ tl, h, env => by
    obtain ⟨ht, hr⟩ := h
    simp only [Fields.read]
    asks [Attrs.read_asks a m.native (t.read_asks m ht), tl.read_asks m hr]

theorem Fields.readStored_asks (m : Machine) : ∀ (fs : Fields), fs.Asks → ∀ env v, Asks (fs.readStored m env v)
  | .nil, _, _, _ => by simp only [Fields.readStored]; exact .pure _
  | .cons a t tl, h, env, v => by
    have hr := tl.read_asks m h.2
    simp only [Fields.readStored]; asks [hr]
  | .temp a t _ tl, h, env, v => by
    have hr := tl.read_asks m h.2
    simp only [Fields.readStored]; asks [hr]

theorem Variants.readAt_asks (m : Machine) : ∀ (vs : Variants), vs.Asks → ∀ env v b i, Asks (vs.readAt m env v b i)
  | .nil, _, _, _, _, _ => by simp only [Variants.readAt]; exact .panic
  | .cons a fs tl, h, env, v, b, 0 => by
    have h1 := fs.readStored_asks m h.1
    have h2 := fs.read_asks m h.1
    simp only [Variants.readAt]; asks [h1, h2]
  | .cons a fs tl, h, env, v, b, i + 1 => by
    simp only [Variants.readAt]; exact tl.readAt_asks m h.2 env v b i

end

theorem readFrom_asks {read : M Reader α} (h : Asks read) (off : Nat) : Asks (readFrom read off) := by
  have := Reader.skipBits_asks off .msb0
  unfold readFrom
  asks []

/-! ### definitions made of the types of `src/impls` -/

theorem uintCodec_asks (nat : Endian) (W : Nat) (ctx : IntCtx) : Asks (uintCodec nat W ctx).read := by
  unfold uintCodec; asks [Prim.readUnsigned_asks]

theorem Leaf.read_asks (m : Machine) (l : Leaf) : Asks (l.codec m).read := by
  cases l with
  | uint W ctx => exact uintCodec_asks _ W ctx
  | sint W ctx => simp only [Leaf.codec, sintCodec]; asks [Prim.readSigned_asks]
  | nonzero W ctx => simp only [Leaf.codec, nonzeroCodec, Coll.nonzeroRead]; asks [Prim.readUnsigned_asks]
  | nonzeroSigned W ctx => simp only [Leaf.codec, nonzeroSignedCodec, Coll.nonzeroRead]; asks [Prim.readSigned_asks]
  | bool ctx => simp only [Leaf.codec, boolCodec, Coll.boolRead]; asks [Prim.readUnsigned_asks]
  | cstring =>
    simp only [Leaf.codec, cstringCodec, Coll.cstringRead]
    asks [Coll.vecRead_asks (Coll.u8Read_asks m.native), Coll.cstringOf_asks]
  | cstringSized n =>
    simp only [Leaf.codec, cstringSizedCodec, Coll.cstringReadSized]
    asks [Coll.vecRead_asks (Coll.u8Read_asks m.native), Coll.cstringOf_asks]
  | unit => simp only [Leaf.codec, unitCodec]; asks []

mutual

theorem Def.toTy_asks (m : Machine) : ∀ d : Def, (d.toTy m).Asks
  | .leaf _ l => fun _ => l.read_asks m
  | .option t => by rw [Def.toTy, Ty.Asks]; exact t.toTy_asks m
  | .array _ t => by rw [Def.toTy, Ty.Asks]; exact t.toTy_asks m
  | .pair a b => by rw [Def.toTy, Ty.Asks]; exact ⟨a.toTy_asks m, b.toTy_asks m⟩
  | .vec _ _ t => by rw [Def.toTy, Ty.Asks]; exact t.toTy_asks m
  | .bytes _ _ => by rw [Def.toTy, Ty.Asks]; trivial
  | .struct _ _ fs => by rw [Def.toTy, Ty.Asks]; exact fs.toFields_asks m
  | .enum _ _ id vs => by
    rw [Def.toTy, Ty.Asks]
    refine ⟨?_, vs.toVariants_asks m⟩
    intro size c h env
    cases id with
    | typed s W ctx store => cases h; exact uintCodec_asks _ W ctx
    | arg e => cases h

theorem DFields.toFields_asks (m : Machine) : ∀ fs : DFields, (fs.toFields m).Asks
  | .nil => by rw [DFields.toFields, Fields.Asks]; trivial
  | .cons a t tl => by rw [DFields.toFields, Fields.Asks]; exact ⟨t.toTy_asks m, tl.toFields_asks m⟩
  | .temp a t _ tl => by rw [DFields.toFields, Fields.Asks]; exact ⟨t.toTy_asks m, tl.toFields_asks m⟩

theorem DVariants.toVariants_asks (m : Machine) : ∀ vs : DVariants, (vs.toVariants m).Asks
  | .nil => by rw [DVariants.toVariants, Variants.Asks]; trivial
  | .cons a fs tl => by rw [DVariants.toVariants, Variants.Asks]; exact ⟨fs.toFields_asks m, tl.toVariants_asks m⟩

end

end Deku
