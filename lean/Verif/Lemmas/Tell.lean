import Verif.Lemmas.Talk

/-!
# Writing uses the sink only by calling it
-/

namespace Deku

variable {α β : Type}

namespace Tells

theorem mk {f : M Writer α} (t : WriteTalk α)
    (h : ∀ (s : Sink) (h : WriteState), f { inner := s, leftover := h.1, tag := h.2.1, bitsWritten := h.2.2 } =
      ((((t h).run Sink.impl s).1).1, { inner := ((t h).run Sink.impl s).2, leftover := ((t h).run Sink.impl s).1.2.1, tag := ((t h).run Sink.impl s).1.2.2.1, bitsWritten := ((t h).run Sink.impl s).1.2.2.2 })) :
    Tells f := ⟨t, fun w => h w.inner (w.leftover, w.tag, w.bitsWritten)⟩

theorem pure (a : α) : Tells (Pure.pure a : M Writer α) := .mk (fun h => .done (.ok a, h)) fun _ _ => rfl

theorem throw (e : DekuError) : Tells (M.throw e : M Writer α) := .mk (fun h => .done (.err e, h)) fun _ _ => rfl

theorem panic : Tells (M.panic : M Writer α) := .mk (fun h => .done (.panic, h)) fun _ _ => rfl

theorem assert (b : Bool) : Tells (M.assert b : M Writer Unit) := by
  cases b
  · exact .mk (fun h => .done (.panic, h)) fun _ _ => rfl
  · exact .mk (fun h => .done (.ok (), h)) fun _ _ => rfl

theorem modify {g : Writer → Writer}
    (h : ∀ (s s' : Sink) (h : WriteState), g { inner := s, leftover := h.1, tag := h.2.1, bitsWritten := h.2.2 } =
      { g { inner := s', leftover := h.1, tag := h.2.1, bitsWritten := h.2.2 } with inner := s }) : Tells (M.modify g) :=
  .mk (fun hd => .done (.ok (), ((g { inner := {}, leftover := hd.1, tag := hd.2.1, bitsWritten := hd.2.2 }).leftover,
    (g { inner := {}, leftover := hd.1, tag := hd.2.1, bitsWritten := hd.2.2 }).tag,
    (g { inner := {}, leftover := hd.1, tag := hd.2.1, bitsWritten := hd.2.2 }).bitsWritten))) fun s hd => by
    rw [M.modify_run, h s {} hd]; rfl

theorem bind {f : M Writer α} {g : α → M Writer β} (hf : Tells f) (hg : ∀ a, Tells (g a)) : Tells (f >>= g) := by
  obtain ⟨tf, hf⟩ := hf
  obtain ⟨tg, hg⟩ := Classical.axiomOfChoice hg
  refine .mk (fun h => (tf h).bind fun y => match y with
    | (.ok a, h') => tg a h'
    | (.err e, h') => .done (.err e, h')
    | (.panic, h') => .done (.panic, h')) fun s h => ?_
  have e := hf { inner := s, leftover := h.1, tag := h.2.1, bitsWritten := h.2.2 }
  simp only [WriteTalk.run] at e
  rw [M.bind_def, e]
  simp only [Talk.run_bind]
  rcases (tf h).run Sink.impl s with ⟨⟨x, h'⟩, s'⟩
  cases x with
  | ok a => exact hg a _
  | err e => rfl
  | panic => rfl

theorem get {g : Writer → M Writer β} (h : ∀ (s s' : Sink) (h : WriteState),
      g { inner := s, leftover := h.1, tag := h.2.1, bitsWritten := h.2.2 } = g { inner := s', leftover := h.1, tag := h.2.1, bitsWritten := h.2.2 })
    (hg : ∀ r, Tells (g r)) : Tells (M.get >>= g) := by
  obtain ⟨tg, hg⟩ := Classical.axiomOfChoice hg
  refine .mk (fun hd => tg { inner := {}, leftover := hd.1, tag := hd.2.1, bitsWritten := hd.2.2 } hd) fun s hd => ?_
  rw [M.get_bind_run, h s {} hd]
  exact hg _ _

end Tells

/-- Closes goals of the form `Tells f` by following the structure of `f`, with the given lemmas for
the calls in it. -/
macro "tells" "[" ts:term,* "]" : tactic => do
  let ts := ts.getElems
  `(tactic| repeat' with_reducible (first
    $[| apply $ts]* | assumption | exact Tells.pure _ | exact Tells.throw _ | exact Tells.panic
    | exact Tells.assert _ | exact Tells.modify (by with_unfolding_all exact fun _ _ _ => rfl)
    | refine Tells.get (by with_unfolding_all exact fun _ _ _ => rfl) (fun _ => ?_)
    | refine Tells.bind ?_ (fun _ => ?_) | split | dsimp only))

namespace Writer

theorem writeAll_tells (bs : List Byte) : Tells (writeAll bs) :=
  .mk (fun h => .call bs fun x => match x with
    | .ok _ => .done (.ok (), h)
    | .error e => .done (.err (.io e), h)) fun s h => by
    simp only [writeAll, Talk.run, Sink.impl]
    rcases s.writeAll bs with ⟨x, s'⟩
    cases x <;> rfl

theorem extend_tells (l : List Bool) : Tells (extend l) := by
  unfold extend; tells []

theorem flushFull_tells : Tells flushFull := by
  unfold flushFull; tells [writeAll_tells]

theorem writeChunks_tells : ∀ l, Tells (writeChunks l)
  | [] => .pure _
  | c :: l => by have := writeChunks_tells l; unfold writeChunks; tells [writeAll_tells]

theorem writeBulk_tells (l : List (List Bool)) (n : Nat) : Tells (writeBulk l n) := by
  unfold writeBulk; tells [writeChunks_tells]

theorem takeLeftover_tells : Tells takeLeftover := by
  unfold takeLeftover; tells []

theorem msbMsb_tells (l : List Bool) : Tells (msbMsb l) := by
  unfold msbMsb; tells [extend_tells, flushFull_tells, writeBulk_tells, takeLeftover_tells]

theorem msbLsb_tells (l : List Bool) : Tells (msbLsb l) := by
  unfold msbLsb; tells [extend_tells, flushFull_tells, writeBulk_tells, takeLeftover_tells]

theorem lsbMsb_tells (l : List Bool) : Tells (lsbMsb l) := by
  unfold lsbMsb; tells [extend_tells, flushFull_tells, writeBulk_tells, takeLeftover_tells]

theorem lsbLsb_tells (l : List Bool) : Tells (lsbLsb l) := by
  unfold lsbLsb; tells [extend_tells, flushFull_tells, writeBulk_tells, takeLeftover_tells]

theorem writeBitsOrder_tells (l : List Bool) (o : Order) : Tells (writeBitsOrder l o) := by
  unfold writeBitsOrder; tells [msbMsb_tells, msbLsb_tells, lsbMsb_tells, lsbLsb_tells]

theorem writeBytes_tells (bs : List Byte) : Tells (writeBytes bs) := by
  unfold writeBytes writeBits; tells [writeAll_tells, writeBitsOrder_tells]

theorem writeBitsUintMsb0_tells (v n : Nat) : Tells (writeBitsUintMsb0 v n) := by
  unfold writeBitsUintMsb0; tells [writeAll_tells]

theorem finalize_tells : Tells finalize := by
  unfold finalize; tells [writeBitsOrder_tells]

end Writer

namespace Prim

theorem writeLoop_tells (o : Order) : ∀ l n, Tells (writeLoop o l n)
  | [], _ => .pure _
  | c :: l, n => by unfold writeLoop; tells [Writer.writeBitsOrder_tells, writeLoop_tells o l]

theorem checkFirst_tells (n : Nat) (x : Option Nat) : Tells (checkFirst n x) := by
  unfold checkFirst; tells []

theorem checkLast_tells (k n : Nat) (x : Option Nat) : Tells (checkLast k n x) := by
  unfold checkLast; tells []

theorem writeUnsigned_tells (nat : Endian) (W : Nat) (ctx : IntCtx) (v : Nat) :
    Tells (writeUnsigned nat W ctx v) := by
  cases ctx <;> simp only [writeUnsigned, writeWhole, writeUBits, writeUBytes, writeUBitsOrd, writeU8BitsOrd, writeBits, writeBitsOrd, writeBytes, writeU8Bytes, Writer.writeBits] <;>
  tells [Writer.writeBytes_tells, Writer.writeBitsOrder_tells, Writer.writeBitsUintMsb0_tells, writeLoop_tells, checkFirst_tells, checkLast_tells]

theorem writeSigned_tells (nat : Endian) (W : Nat) (ctx : IntCtx) (v : Int) :
    Tells (writeSigned nat W ctx v) := by
  cases ctx <;> simp only [writeSigned, writeWhole, writeSignedBits, writeBitsOrd, writeBytes, Writer.writeBits] <;>
  tells [Writer.writeBytes_tells, Writer.writeBitsOrder_tells, Writer.writeBitsUintMsb0_tells, writeLoop_tells, checkFirst_tells, checkLast_tells]

end Prim

theorem Coll.writeAll_tells {write : α → M Writer Unit} (h : ∀ v, Tells (write v)) :
    ∀ l, Tells (Coll.writeAll write l)
  | [] => .pure _
  | v :: l => by unfold Coll.writeAll; tells [h, Coll.writeAll_tells h l]

theorem Coll.u8Write_tells (nat : Endian) (ctx : IntCtx) (b : Byte) : Tells (Coll.u8Write nat ctx b) :=
  Prim.writeUnsigned_tells _ _ _ _

theorem Coll.cstringWrite_tells (nat : Endian) (ctx : IntCtx) (s : List Byte) : Tells (Coll.cstringWrite nat ctx s) := by
  unfold Coll.cstringWrite; exact Coll.writeAll_tells (Coll.u8Write_tells nat ctx) _

theorem Coll.mapWrite_tells {key : α → M Writer Unit} {val : β → M Writer Unit} (hk : ∀ v, Tells (key v))
    (hv : ∀ v, Tells (val v)) (m : List (α × β)) : Tells (Coll.mapWrite key val m) :=
  Coll.writeAll_tells (fun e => by unfold Coll.pairWrite; tells [hk, hv]) m

theorem magicWrite_tells (nat : Endian) (l : List Byte) : Tells (magicWrite nat l) :=
  Coll.writeAll_tells (Coll.u8Write_tells nat .unit) l

theorem padLoop_tells (o : Order) : ∀ fuel n, Tells (padLoop o fuel n)
  | 0, _ => .pure _
  | fuel + 1, n => by unfold padLoop; tells [Writer.writeBitsOrder_tells, padLoop_tells o fuel]

theorem padWrite_tells (o : Option Order) (pad : Option (Env → Int)) (env : Env) : Tells (padWrite o pad env) := by
  unfold padWrite padSize; tells [padLoop_tells]

theorem Attrs.write_tells {a : Attrs} (ha : a.seek = none) (nat : Endian) {wr : Env → Val → M Writer Unit}
    (hwr : ∀ env v, Tells (wr env v)) (env : Env) (v : Val) : Tells (a.write nat wr env v) := by
  unfold Attrs.write Attrs.put Attrs.check seekWrite
  rw [ha]
  tells [magicWrite_tells, padWrite_tells, hwr]

mutual

theorem Ty.write_tells (m : Machine) : ∀ (t : Ty), t.Tells → ∀ env v, Tells (t.write m env v)
  | .prim _ c, h, env, v => by simpa [Ty.write] using h env v
  | .option t, h, env, v => by
    have ht := t.write_tells m h
    simp only [Ty.write]; tells [ht]
  | .array n t, h, env, v => by
    have ht := t.write_tells m h env
    simp only [Ty.write]; tells [Coll.writeAll_tells ht]
  | .pair a b, h, env, v => by
    have h1 := a.write_tells m h.1
    have h2 := b.write_tells m h.2
    simp only [Ty.write]; tells [h1, h2]
  | .vec size l t, h, env, v => by
    have ht := t.write_tells m h env
    simp only [Ty.write]; tells [Coll.writeAll_tells ht]
  | .bytes _ c, _, env, v => by
    simp only [Ty.write]; tells [Coll.writeAll_tells (Coll.u8Write_tells m.native (c env))]
  | .struct args sk magic fs, h, env, v => by
    obtain ⟨hs, hf⟩ := h
    simp only [Ty.write, hs, seekWrite]
    tells [magicWrite_tells, fs.write_tells m hf]
  | .enum args magic id store vs, h, env, v => by
    obtain ⟨hid, hst, hv⟩ := h
    simp only [Ty.write]
    tells [magicWrite_tells, vs.writeAt_tells m hv id hid _ (hst _)]

theorem Fields.write_tells (m : Machine) : ∀ (fs : Fields), fs.Tells → ∀ env all v, Tells (fs.write m env all v)
  | .nil, _, _, _, _ => by simp only [Fields.write]; tells []
  | .cons a t tl, h, env, all, v => by
    obtain ⟨ha, ht, hr⟩ := h
    simp only [Fields.write]
    tells [Attrs.write_tells ha m.native (t.write_tells m ht), tl.write_tells m hr]
  | .temp a t _ tl, h, env, all, v => by
    obtain ⟨ha, ht, hr⟩ := h
    simp only [Fields.write]
    tells [Attrs.write_tells ha m.native (t.write_tells m ht), Attrs.write_tells ha m.native (fun _ _ => .pure ()), tl.write_tells m hr]

theorem Fields.writeStored_tells (m : Machine) {store : Env → Val → M Writer Unit}
    (hst : ∀ env v, Tells (store env v)) : ∀ (fs : Fields), fs.Tells → ∀ env v, Tells (fs.writeStored m store env v)
  | .nil, _, _, _ => by simp only [Fields.writeStored]; tells []
  | .cons a t tl, h, env, v => by
    have hr := tl.write_tells m h.2.2
    simp only [Fields.writeStored]; tells [hst, hr]
  | .temp a t _ tl, h, env, v => by
    simp only [Fields.writeStored]; exact .panic

theorem Variants.writeAt_tells (m : Machine) : ∀ (vs : Variants), vs.Tells → ∀ (id : IdSrc),
    (∀ size c, id = .typed size c → ∀ env v, Tells ((c env).write v)) →
    ∀ (store : Env → Val → M Writer Unit), (∀ env v, Tells (store env v)) → ∀ env i v,
    Tells (vs.writeAt m env id store i v)
  | .nil, _, _, _, _, _, _, _, _ => by simp only [Variants.writeAt]; exact .panic
  | .cons a fs tl, h, id, hid, store, hst, env, 0, v => by
    have h1 := fs.writeStored_tells m hst h.1
    have h2 := fs.write_tells m h.1
    simp only [Variants.writeAt]
    tells [h1, h2, hid]
  | .cons a fs tl, h, id, hid, store, hst, env, i + 1, v => by
    simp only [Variants.writeAt]; exact tl.writeAt_tells m h.2 id hid store hst env i v

end

theorem uintCodec_tells (nat : Endian) (W : Nat) (ctx : IntCtx) (v : Val) : Tells ((uintCodec nat W ctx).write v) := by
  unfold uintCodec; tells [Prim.writeUnsigned_tells]

theorem sintCodec_tells (nat : Endian) (W : Nat) (ctx : IntCtx) (v : Val) : Tells ((sintCodec nat W ctx).write v) := by
  unfold sintCodec; tells [Prim.writeSigned_tells]

theorem Leaf.write_tells (m : Machine) (l : Leaf) (v : Val) : Tells ((l.codec m).write v) := by
  cases l with
  | uint W ctx => exact uintCodec_tells _ W ctx v
  | sint W ctx => exact sintCodec_tells _ W ctx v
  | nonzero W ctx => simp only [Leaf.codec, nonzeroCodec]; tells [uintCodec_tells]
  | nonzeroSigned W ctx => simp only [Leaf.codec, nonzeroSignedCodec]; tells [sintCodec_tells]
  | bool ctx => simp only [Leaf.codec, boolCodec, Coll.boolWrite]; tells [Prim.writeUnsigned_tells]
  | cstring => simp only [Leaf.codec, cstringCodec]; tells [Coll.cstringWrite_tells]
  | cstringSized n => simp only [Leaf.codec, cstringSizedCodec]; tells [Coll.cstringWrite_tells]
  | unit => simp only [Leaf.codec, unitCodec]; tells []

mutual

theorem Def.toTy_tells (m : Machine) : ∀ d : Def, (d.toTy m).Tells
  | .leaf _ l => fun _ v => l.write_tells m v
  | .option t => by rw [Def.toTy, Ty.Tells]; exact t.toTy_tells m
  | .array _ t => by rw [Def.toTy, Ty.Tells]; exact t.toTy_tells m
  | .pair a b => by rw [Def.toTy, Ty.Tells]; exact ⟨a.toTy_tells m, b.toTy_tells m⟩
  | .vec _ _ t => by rw [Def.toTy, Ty.Tells]; exact t.toTy_tells m
  | .bytes _ _ => by rw [Def.toTy, Ty.Tells]; trivial
  | .struct _ _ fs => by rw [Def.toTy, Ty.Tells]; exact ⟨rfl, fs.toFields_tells m⟩
  | .enum _ _ id vs => by
    rw [Def.toTy, Ty.Tells]
    refine ⟨?_, ?_, vs.toVariants_tells m⟩
    · intro size c h env v
      cases id with
      | typed s W ctx store => cases h; exact uintCodec_tells _ W ctx v
      | arg e => cases h
    · intro _ env v
      cases id with
      | typed s W ctx store => exact uintCodec_tells _ W store v
      | arg e => exact .panic

theorem DFields.toFields_tells (m : Machine) : ∀ fs : DFields, (fs.toFields m).Tells
  | .nil => by rw [DFields.toFields, Fields.Tells]; trivial
  | .cons a t tl => by rw [DFields.toFields, Fields.Tells]; exact ⟨rfl, t.toTy_tells m, tl.toFields_tells m⟩
  | .temp a t _ tl => by rw [DFields.toFields, Fields.Tells]; exact ⟨rfl, t.toTy_tells m, tl.toFields_tells m⟩

theorem DVariants.toVariants_tells (m : Machine) : ∀ vs : DVariants, (vs.toVariants m).Tells
  | .nil => by rw [DVariants.toVariants, Variants.Tells]; trivial
  | .cons a fs tl => by rw [DVariants.toVariants, Variants.Tells]; exact ⟨fs.toFields_tells m, tl.toVariants_tells m⟩

end

end Deku
