import Verif.Lemmas.Talk
import Verif.Spec.Play

/-!
# Writing is sending blocks of bytes

As in `Verif/Lemmas/Tell.lean`, with the programs: they go on only after success.
-/

namespace Deku

variable {α β : Type}

/-- The computation is a program that ends with the error of a call that fails. -/
def Plays {α : Type} (f : M Writer α) : Prop := ∃ t : WriteTalk α, t.Is f ∧ ∀ h, (t h).Straight

mutual

/-- There are no `seek_*` attributes and the types with their own implementation write blocks, one after the other. -/
def Ty.Plays : Ty → Prop
  | .prim _ c => ∀ env v, Deku.Plays ((c env).write v)
  | .option t => t.Plays
  | .array _ t => t.Plays
  | .pair a b => a.Plays ∧ b.Plays
  | .vec _ _ t => t.Plays
  | .bytes _ _ => True
  | .struct _ seek _ fs => seek = none ∧ fs.Plays
  | .enum _ _ id store vs =>
    (∀ size c, id = .typed size c → ∀ env v, Deku.Plays ((c env).write v)) ∧
    (∀ i env v, Deku.Plays (store i env v)) ∧ vs.Plays

def Fields.Plays : Fields → Prop
  | .nil => True
  | .cons a t rest => a.seek = none ∧ t.Plays ∧ rest.Plays
  | .temp a t _ rest => a.seek = none ∧ t.Plays ∧ rest.Plays

def Variants.Plays : Variants → Prop
  | .nil => True
  | .cons _ fs rest => fs.Plays ∧ rest.Plays

end


theorem Talk.Straight.bind : ∀ {t : Talk WriteCall WriteAnswer (Res α × WriteState)}
    {k : Res α × WriteState → Talk WriteCall WriteAnswer (Res β × WriteState)}, t.Straight →
    (∀ a h, (k (.ok a, h)).Straight) → (∀ e h, k (.err e, h) = .done (.err e, h)) → (∀ h, k (.panic, h) = .done (.panic, h)) →
    (t.bind k).Straight
  | .done (.ok a, h), k, _, h1, _, _ => h1 a h
  | .done (.err e, h), k, _, _, h2, _ => by rw [Talk.bind, h2]; trivial
  | .done (.panic, h), k, _, _, _, h3 => by rw [Talk.bind, h3]; trivial
  | .call bs q, k, ht, h1, h2, h3 => by
    have ih := fun x => @Talk.Straight.bind (q x) k
    refine ⟨fun e => ?_, ih (.ok ()) ht.2 h1 h2 h3⟩
    obtain ⟨h, hh⟩ := ht.1 e
    exact ⟨h, by show (q (.error e)).bind k = _; rw [hh, Talk.bind, h2]⟩

namespace Plays

theorem mk {f : M Writer α} (t : WriteTalk α)
    (h : ∀ (s : Sink) (h : WriteState), f { inner := s, leftover := h.1, tag := h.2.1, bitsWritten := h.2.2 } =
      ((((t h).run Sink.impl s).1).1, { inner := ((t h).run Sink.impl s).2, leftover := ((t h).run Sink.impl s).1.2.1, tag := ((t h).run Sink.impl s).1.2.2.1, bitsWritten := ((t h).run Sink.impl s).1.2.2.2 }))
    (hs : ∀ h, (t h).Straight) : Plays f := ⟨t, fun w => h w.inner (w.leftover, w.tag, w.bitsWritten), hs⟩

theorem pure (a : α) : Plays (Pure.pure a : M Writer α) := .mk (fun h => .done (.ok a, h)) (fun _ _ => rfl) fun _ => trivial

theorem throw (e : DekuError) : Plays (M.throw e : M Writer α) := .mk (fun h => .done (.err e, h)) (fun _ _ => rfl) fun _ => trivial

theorem panic : Plays (M.panic : M Writer α) := .mk (fun h => .done (.panic, h)) (fun _ _ => rfl) fun _ => trivial

theorem assert (b : Bool) : Plays (M.assert b : M Writer Unit) := by
  cases b
  · exact .mk (fun h => .done (.panic, h)) (fun _ _ => rfl) fun _ => trivial
  · exact .mk (fun h => .done (.ok (), h)) (fun _ _ => rfl) fun _ => trivial

theorem modify {g : Writer → Writer}
    (h : ∀ (s s' : Sink) (h : WriteState), g { inner := s, leftover := h.1, tag := h.2.1, bitsWritten := h.2.2 } =
      { g { inner := s', leftover := h.1, tag := h.2.1, bitsWritten := h.2.2 } with inner := s }) : Plays (M.modify g) :=
  .mk (fun hd => .done (.ok (), ((g { inner := {}, leftover := hd.1, tag := hd.2.1, bitsWritten := hd.2.2 }).leftover,
    (g { inner := {}, leftover := hd.1, tag := hd.2.1, bitsWritten := hd.2.2 }).tag,
    (g { inner := {}, leftover := hd.1, tag := hd.2.1, bitsWritten := hd.2.2 }).bitsWritten))) (fun s hd => by
    rw [M.modify_run, h s {} hd]; rfl) fun _ => trivial

theorem bind {f : M Writer α} {g : α → M Writer β} (hf : Plays f) (hg : ∀ a, Plays (g a)) : Plays (f >>= g) := by
  obtain ⟨tf, hf⟩ := hf
  obtain ⟨tg, hg⟩ := Classical.axiomOfChoice hg
  refine .mk (fun h => (tf h).bind fun y => match y with
    | (.ok a, h') => tg a h'
    | (.err e, h') => .done (.err e, h')
    | (.panic, h') => .done (.panic, h')) (fun s h => ?_)
    fun h => (hf.2 h).bind (fun a h' => (hg a).2 h') (fun _ _ => rfl) fun _ => rfl
  have e := hf.1 { inner := s, leftover := h.1, tag := h.2.1, bitsWritten := h.2.2 }
  simp only [WriteTalk.run] at e
  rw [M.bind_def, e]
  simp only [Talk.run_bind]
  rcases (tf h).run Sink.impl s with ⟨⟨x, h'⟩, s'⟩
  cases x with
  | ok a => exact (hg a).1 _
  | err e => rfl
  | panic => rfl

theorem get {g : Writer → M Writer β} (h : ∀ (s s' : Sink) (h : WriteState),
      g { inner := s, leftover := h.1, tag := h.2.1, bitsWritten := h.2.2 } = g { inner := s', leftover := h.1, tag := h.2.1, bitsWritten := h.2.2 })
    (hg : ∀ r, Plays (g r)) : Plays (M.get >>= g) := by
  obtain ⟨tg, hg⟩ := Classical.axiomOfChoice hg
  refine .mk (fun hd => tg { inner := {}, leftover := hd.1, tag := hd.2.1, bitsWritten := hd.2.2 } hd) (fun s hd => ?_) fun hd => (hg _).2 hd
  rw [M.get_bind_run, h s {} hd]
  exact (hg _).1 _

end Plays

/-- Closes goals of the form `Plays f` by following the structure of `f`, with the given lemmas for
the calls in it. -/
macro "plays" "[" ts:term,* "]" : tactic => do
  let ts := ts.getElems
  `(tactic| repeat' with_reducible (first
    $[| apply $ts]* | assumption | exact Plays.pure _ | exact Plays.throw _ | exact Plays.panic
    | exact Plays.assert _ | exact Plays.modify (by with_unfolding_all exact fun _ _ _ => rfl)
    | refine Plays.get (by with_unfolding_all exact fun _ _ _ => rfl) (fun _ => ?_)
    | refine Plays.bind ?_ (fun _ => ?_) | split | dsimp only))

namespace Writer

theorem writeAll_plays (bs : List Byte) : Plays (writeAll bs) :=
  .mk (fun h => .call bs fun x => match x with
    | .ok _ => .done (.ok (), h)
    | .error e => .done (.err (.io e), h)) (fun s h => by
    simp only [writeAll, Talk.run, Sink.impl]
    rcases s.writeAll bs with ⟨x, s'⟩
    cases x <;> rfl) fun h => ⟨fun e => ⟨h, rfl⟩, trivial⟩

theorem extend_plays (l : List Bool) : Plays (extend l) := by
  unfold extend; plays []

theorem flushFull_plays : Plays flushFull := by
  unfold flushFull; plays [writeAll_plays]

theorem writeChunks_plays : ∀ l, Plays (writeChunks l)
  | [] => .pure _
  | c :: l => by have := writeChunks_plays l; unfold writeChunks; plays [writeAll_plays]

theorem writeBulk_plays (l : List (List Bool)) (n : Nat) : Plays (writeBulk l n) := by
  unfold writeBulk; plays [writeChunks_plays]

theorem takeLeftover_plays : Plays takeLeftover := by
  unfold takeLeftover; plays []

theorem msbMsb_plays (l : List Bool) : Plays (msbMsb l) := by
  unfold msbMsb; plays [extend_plays, flushFull_plays, writeBulk_plays, takeLeftover_plays]

theorem msbLsb_plays (l : List Bool) : Plays (msbLsb l) := by
  unfold msbLsb; plays [extend_plays, flushFull_plays, writeBulk_plays, takeLeftover_plays]

theorem lsbMsb_plays (l : List Bool) : Plays (lsbMsb l) := by
  unfold lsbMsb; plays [extend_plays, flushFull_plays, writeBulk_plays, takeLeftover_plays]

theorem lsbLsb_plays (l : List Bool) : Plays (lsbLsb l) := by
  unfold lsbLsb; plays [extend_plays, flushFull_plays, writeBulk_plays, takeLeftover_plays]

theorem writeBitsOrder_plays (l : List Bool) (o : Order) : Plays (writeBitsOrder l o) := by
  unfold writeBitsOrder; plays [msbMsb_plays, msbLsb_plays, lsbMsb_plays, lsbLsb_plays]

theorem writeBytes_plays (bs : List Byte) : Plays (writeBytes bs) := by
  unfold writeBytes writeBits; plays [writeAll_plays, writeBitsOrder_plays]

theorem writeBitsUintMsb0_plays (v n : Nat) : Plays (writeBitsUintMsb0 v n) := by
  unfold writeBitsUintMsb0; plays [writeAll_plays]

theorem finalize_plays : Plays finalize := by
  unfold finalize; plays [writeBitsOrder_plays]

end Writer

namespace Prim

theorem writeLoop_plays (o : Order) : ∀ l n, Plays (writeLoop o l n)
  | [], _ => .pure _
  | c :: l, n => by unfold writeLoop; plays [Writer.writeBitsOrder_plays, writeLoop_plays o l]

theorem checkFirst_plays (n : Nat) (x : Option Nat) : Plays (checkFirst n x) := by
  unfold checkFirst; plays []

theorem checkLast_plays (k n : Nat) (x : Option Nat) : Plays (checkLast k n x) := by
  unfold checkLast; plays []

theorem writeUnsigned_plays (nat : Endian) (W : Nat) (ctx : IntCtx) (v : Nat) :
    Plays (writeUnsigned nat W ctx v) := by
  cases ctx <;> simp only [writeUnsigned, writeWhole, writeUBits, writeUBytes, writeUBitsOrd, writeU8BitsOrd, writeBits, writeBitsOrd, writeBytes, writeU8Bytes, Writer.writeBits] <;>
  plays [Writer.writeBytes_plays, Writer.writeBitsOrder_plays, Writer.writeBitsUintMsb0_plays, writeLoop_plays, checkFirst_plays, checkLast_plays]

theorem writeSigned_plays (nat : Endian) (W : Nat) (ctx : IntCtx) (v : Int) :
    Plays (writeSigned nat W ctx v) := by
  cases ctx <;> simp only [writeSigned, writeWhole, writeSignedBits, writeBitsOrd, writeBytes, Writer.writeBits] <;>
  plays [Writer.writeBytes_plays, Writer.writeBitsOrder_plays, Writer.writeBitsUintMsb0_plays, writeLoop_plays, checkFirst_plays, checkLast_plays]

end Prim

theorem Coll.writeAll_plays {write : α → M Writer Unit} (h : ∀ v, Plays (write v)) :
    ∀ l, Plays (Coll.writeAll write l)
  | [] => .pure _
  | v :: l => by unfold Coll.writeAll; plays [h, Coll.writeAll_plays h l]

theorem Coll.u8Write_plays (nat : Endian) (ctx : IntCtx) (b : Byte) : Plays (Coll.u8Write nat ctx b) :=
  Prim.writeUnsigned_plays _ _ _ _

theorem Coll.cstringWrite_plays (nat : Endian) (ctx : IntCtx) (s : List Byte) : Plays (Coll.cstringWrite nat ctx s) := by
  unfold Coll.cstringWrite; exact Coll.writeAll_plays (Coll.u8Write_plays nat ctx) _

theorem Coll.mapWrite_plays {key : α → M Writer Unit} {val : β → M Writer Unit} (hk : ∀ v, Plays (key v))
    (hv : ∀ v, Plays (val v)) (m : List (α × β)) : Plays (Coll.mapWrite key val m) :=
  Coll.writeAll_plays (fun e => by unfold Coll.pairWrite; plays [hk, hv]) m

theorem magicWrite_plays (nat : Endian) (l : List Byte) : Plays (magicWrite nat l) :=
  Coll.writeAll_plays (Coll.u8Write_plays nat .unit) l

theorem padLoop_plays (o : Order) : ∀ fuel n, Plays (padLoop o fuel n)
  | 0, _ => .pure _
  | fuel + 1, n => by unfold padLoop; plays [Writer.writeBitsOrder_plays, padLoop_plays o fuel]

theorem padWrite_plays (o : Option Order) (pad : Option (Env → Int)) (env : Env) : Plays (padWrite o pad env) := by
  unfold padWrite padSize; plays [padLoop_plays]

theorem Attrs.write_plays {a : Attrs} (ha : a.seek = none) (nat : Endian) {wr : Env → Val → M Writer Unit}
    (hwr : ∀ env v, Plays (wr env v)) (env : Env) (v : Val) : Plays (a.write nat wr env v) := by
  unfold Attrs.write Attrs.put Attrs.check seekWrite
  rw [ha]
  plays [magicWrite_plays, padWrite_plays, hwr]

mutual

theorem Ty.write_plays (m : Machine) : ∀ (t : Ty), t.Plays → ∀ env v, Plays (t.write m env v)
  | .prim _ c, h, env, v => by simpa [Ty.write] using h env v
  | .option t, h, env, v => by
    have ht := t.write_plays m h
    simp only [Ty.write]; plays [ht]
  | .array n t, h, env, v => by
    have ht := t.write_plays m h env
    simp only [Ty.write]; plays [Coll.writeAll_plays ht]
  | .pair a b, h, env, v => by
    have h1 := a.write_plays m h.1
    have h2 := b.write_plays m h.2
    simp only [Ty.write]; plays [h1, h2]
  | .vec size l t, h, env, v => by
    have ht := t.write_plays m h env
    simp only [Ty.write]; plays [Coll.writeAll_plays ht]
  | .bytes _ c, _, env, v => by
    simp only [Ty.write]; plays [Coll.writeAll_plays (Coll.u8Write_plays m.native (c env))]
  | .struct args sk magic fs, h, env, v => by
    obtain ⟨hs, hf⟩ := h
    simp only [Ty.write, hs, seekWrite]
    plays [magicWrite_plays, fs.write_plays m hf]
  | .enum args magic id store vs, h, env, v => by
    obtain ⟨hid, hst, hv⟩ := h
    simp only [Ty.write]
    plays [magicWrite_plays, vs.writeAt_plays m hv id hid _ (hst _)]

theorem Fields.write_plays (m : Machine) : ∀ (fs : Fields), fs.Plays → ∀ env all v, Plays (fs.write m env all v)
  | .nil, _, _, _, _ => by simp only [Fields.write]; plays []
  | .cons a t tl, h, env, all, v => by
    obtain ⟨ha, ht, hr⟩ := h
    simp only [Fields.write]
    plays [Attrs.write_plays ha m.native (t.write_plays m ht), tl.write_plays m hr]
  | .temp a t _ tl, h, env, all, v => by
    obtain ⟨ha, ht, hr⟩ := h
    simp only [Fields.write]
    plays [Attrs.write_plays ha m.native (t.write_plays m ht), Attrs.write_plays ha m.native (fun _ _ => .pure ()), tl.write_plays m hr]

theorem Fields.writeStored_plays (m : Machine) {store : Env → Val → M Writer Unit}
    (hst : ∀ env v, Plays (store env v)) : ∀ (fs : Fields), fs.Plays → ∀ env v, Plays (fs.writeStored m store env v)
  | .nil, _, _, _ => by simp only [Fields.writeStored]; plays []
  | .cons a t tl, h, env, v => by
    have hr := tl.write_plays m h.2.2
    simp only [Fields.writeStored]; plays [hst, hr]
  | .temp a t _ tl, h, env, v => by
    simp only [Fields.writeStored]; exact .panic

theorem Variants.writeAt_plays (m : Machine) : ∀ (vs : Variants), vs.Plays → ∀ (id : IdSrc),
    (∀ size c, id = .typed size c → ∀ env v, Plays ((c env).write v)) →
    ∀ (store : Env → Val → M Writer Unit), (∀ env v, Plays (store env v)) → ∀ env i v,
    Plays (vs.writeAt m env id store i v)
  | .nil, _, _, _, _, _, _, _, _ => by simp only [Variants.writeAt]; exact .panic
  | .cons a fs tl, h, id, hid, store, hst, env, 0, v => by
    have h1 := fs.writeStored_plays m hst h.1
    have h2 := fs.write_plays m h.1
    simp only [Variants.writeAt]
    plays [h1, h2, hid]
  | .cons a fs tl, h, id, hid, store, hst, env, i + 1, v => by
    simp only [Variants.writeAt]; exact tl.writeAt_plays m h.2 id hid store hst env i v

end

theorem uintCodec_plays (nat : Endian) (W : Nat) (ctx : IntCtx) (v : Val) : Plays ((uintCodec nat W ctx).write v) := by
  unfold uintCodec; plays [Prim.writeUnsigned_plays]

theorem sintCodec_plays (nat : Endian) (W : Nat) (ctx : IntCtx) (v : Val) : Plays ((sintCodec nat W ctx).write v) := by
  unfold sintCodec; plays [Prim.writeSigned_plays]

theorem Leaf.write_plays (m : Machine) (l : Leaf) (v : Val) : Plays ((l.codec m).write v) := by
  cases l with
  | uint W ctx => exact uintCodec_plays _ W ctx v
  | sint W ctx => exact sintCodec_plays _ W ctx v
  | nonzero W ctx => simp only [Leaf.codec, nonzeroCodec]; plays [uintCodec_plays]
  | nonzeroSigned W ctx => simp only [Leaf.codec, nonzeroSignedCodec]; plays [sintCodec_plays]
  | bool ctx => simp only [Leaf.codec, boolCodec, Coll.boolWrite]; plays [Prim.writeUnsigned_plays]
  | cstring => simp only [Leaf.codec, cstringCodec]; plays [Coll.cstringWrite_plays]
  | cstringSized n => simp only [Leaf.codec, cstringSizedCodec]; plays [Coll.cstringWrite_plays]
  | unit => simp only [Leaf.codec, unitCodec]; plays []

mutual

theorem Def.toTy_plays (m : Machine) : ∀ d : Def, (d.toTy m).Plays
  | .leaf _ l => fun _ v => l.write_plays m v
  | .option t => by rw [Def.toTy, Ty.Plays]; exact t.toTy_plays m
  | .array _ t => by rw [Def.toTy, Ty.Plays]; exact t.toTy_plays m
  | .pair a b => by rw [Def.toTy, Ty.Plays]; exact ⟨a.toTy_plays m, b.toTy_plays m⟩
  | .vec _ _ t => by rw [Def.toTy, Ty.Plays]; exact t.toTy_plays m
  | .bytes _ _ => by rw [Def.toTy, Ty.Plays]; trivial
  | .struct _ _ fs => by rw [Def.toTy, Ty.Plays]; exact ⟨rfl, fs.toFields_plays m⟩
  | .enum _ _ id vs => by
    rw [Def.toTy, Ty.Plays]
    refine ⟨?_, ?_, vs.toVariants_plays m⟩
    · intro size c h env v
      cases id with
      | typed s W ctx store => cases h; exact uintCodec_plays _ W ctx v
      | arg e => cases h
    · intro _ env v
      cases id with
      | typed s W ctx store => exact uintCodec_plays _ W store v
      | arg e => exact .panic

theorem DFields.toFields_plays (m : Machine) : ∀ fs : DFields, (fs.toFields m).Plays
  | .nil => by rw [DFields.toFields, Fields.Plays]; trivial
  | .cons a t tl => by rw [DFields.toFields, Fields.Plays]; exact ⟨rfl, t.toTy_plays m, tl.toFields_plays m⟩
  | .temp a t _ tl => by rw [DFields.toFields, Fields.Plays]; exact ⟨rfl, t.toTy_plays m, tl.toFields_plays m⟩

theorem DVariants.toVariants_plays (m : Machine) : ∀ vs : DVariants, (vs.toVariants m).Plays
  | .nil => by rw [DVariants.toVariants, Variants.Plays]; trivial
  | .cons a fs tl => by rw [DVariants.toVariants, Variants.Plays]; exact ⟨fs.toFields_plays m, tl.toVariants_plays m⟩

end

/-- A straight program sends blocks that do not depend on the sink. -/
theorem Talk.Straight.blocks : ∀ (t : Talk WriteCall WriteAnswer (Res α × WriteState)), t.Straight →
    ∃ (bs : List (List Byte)) (x : Res α), ∀ (S : Type) (impl : Impl WriteCall WriteAnswer S) (s : S),
      (t.run impl s).1.1 = Sending.result (sendAll impl bs s).1 x ∧ (t.run impl s).2 = (sendAll impl bs s).2
  | .done (x, h), _ => ⟨[], x, fun _ _ _ => ⟨rfl, rfl⟩⟩
  | .call b k, ht => by
    have ih := fun x => Talk.Straight.blocks (k x)
    obtain ⟨bs, x, h⟩ := ih (.ok ()) ht.2
    refine ⟨b :: bs, x, fun S impl s => ?_⟩
    simp only [Talk.run, sendAll]
    rcases impl s b with ⟨y, s'⟩
    cases y with
    | ok u => exact h S impl s'
    | error e =>
      obtain ⟨hh, he⟩ := ht.1 e
      simp only [he, Talk.run, Sending.result]
      exact ⟨trivial, trivial⟩

theorem Plays.blocks {f : M Writer Unit} (h : Plays f) :
    ∃ (t : WriteTalk Unit) (bs : List (List Byte)) (x : Res Unit), t.Is f ∧
      ∀ (S : Type) (impl : Impl WriteCall WriteAnswer S) (s : S),
        t.writeTo impl s = (Sending.result (sendAll impl bs s).1 x, (sendAll impl bs s).2) := by
  obtain ⟨t, h1, h2⟩ := h
  obtain ⟨bs, x, h3⟩ := (h2 ([], .msb0, 0)).blocks
  refine ⟨t, bs, x, h1, fun S impl s => ?_⟩
  obtain ⟨h4, h5⟩ := h3 S impl s
  rw [← h4, ← h5]
  rfl

theorem WriteTalk.Is.writeTo {f : M Writer Unit} {t : WriteTalk Unit} (h : t.Is (do f; Writer.finalize)) (s : Sink) :
    Deku.writeTo f s = t.writeTo Sink.impl s := by
  unfold Deku.writeTo WriteTalk.writeTo Writer.new
  rw [h]

/-- A vector takes everything. -/
theorem sendAll_vec : ∀ (bs : List (List Byte)) (s : Sink), s.cap = none → s.faults = noFaults → s.pos = s.data.length →
    (sendAll Sink.impl bs s).1 = none ∧ (sendAll Sink.impl bs s).2.data = s.data ++ bs.flatten
  | [], s, _, _, _ => by simp [sendAll]
  | b :: bs, s, h1, h2, h3 => by
    have e : Sink.impl s b = (.ok (), { s with calls := s.calls + 1, data := s.data ++ b, pos := s.pos + b.length }) := by
      simp [Sink.impl, Sink.writeAll, h1, h2, h3, noFaults, Sink.splice]
    simp only [sendAll, e]
    obtain ⟨i1, i2⟩ := sendAll_vec bs { s with calls := s.calls + 1, data := s.data ++ b, pos := s.pos + b.length } h1 h2 (by simp [h3])
    exact ⟨i1, by rw [i2]; simp⟩

theorem toBytes_writeTo (f : M Writer Unit) : toBytes f = match writeTo f {} with
    | (.ok _, s) => .ok s.data
    | (.err e, _) => .err e
    | (.panic, _) => .panic := by
  unfold toBytes writeTo
  rcases (do f; Writer.finalize : M Writer Unit) (Writer.new {}) with ⟨x, w⟩
  cases x <;> rfl

/-- An honest sink gets all blocks, or some of the bytes. -/
theorem sendAll_honest {S : Type} {impl : Impl WriteCall WriteAnswer S} {has : S → List Byte → Prop}
    (hi : HonestSink impl has) : ∀ (bs : List (List Byte)) (s : S) (out : List Byte), has s out →
    ((sendAll impl bs s).1 = none ∧ has (sendAll impl bs s).2 (out ++ bs.flatten)) ∨
    (∃ e k, (sendAll impl bs s).1 = some e ∧ k ≤ bs.flatten.length ∧ has (sendAll impl bs s).2 (out ++ bs.flatten.take k))
  | [], s, out, h => .inl ⟨rfl, by simpa [sendAll] using h⟩
  | b :: bs, s, out, h => by
    simp only [sendAll]
    obtain ⟨h1, h2⟩ := hi s out b h
    rcases hb : impl s b with ⟨y, s'⟩
    cases y with
    | ok u =>
      rcases sendAll_honest hi bs s' (out ++ b) (h1 u s' hb) with ⟨i1, i2⟩ | ⟨e, k, i1, i2, i3⟩
      · exact .inl ⟨i1, by simpa using i2⟩
      · refine .inr ⟨e, b.length + k, i1, by rw [List.flatten_cons, List.length_append]; omega, ?_⟩
        simpa [List.take_append, List.take_of_length_le] using i3
    | error e =>
      obtain ⟨k, hk⟩ := h2 e s' hb
      refine .inr ⟨e, min k b.length, rfl, by simp; omega, ?_⟩
      rw [List.flatten_cons, List.take_append_of_le_length (by omega)]
      rwa [← List.take_take, List.take_of_length_le (Nat.le_refl b.length)]

/-- A slice keeps what fits. -/
theorem sendAll_slice (buf : List Byte) : ∀ (bs : List (List Byte)) (s : Sink) (out : List Byte), s.cap = some buf.length →
    s.faults = noFaults → s.pos = out.length → out.length ≤ buf.length → s.data = out ++ buf.drop out.length →
    ((sendAll Sink.impl bs s).1 = none ∧ (out ++ bs.flatten).length ≤ buf.length ∧
      (sendAll Sink.impl bs s).2.data = out ++ bs.flatten ++ buf.drop (out ++ bs.flatten).length) ∨
    ((sendAll Sink.impl bs s).1 = some .writeZero ∧ buf.length < (out ++ bs.flatten).length ∧
      (sendAll Sink.impl bs s).2.data = (out ++ bs.flatten).take buf.length)
  | [], s, out, _, _, _, h4, h5 => .inl ⟨rfl, by simpa using h4, by simpa [sendAll] using h5⟩
  | b :: bs, s, out, h1, h2, h3, h4, h5 => by
    have hsp : ∀ c : List Byte, c.length ≤ buf.length - out.length →
        Sink.splice s.data s.pos c = out ++ c ++ buf.drop (out ++ c).length := by
      intro c hc
      simp only [Sink.splice, h3, h5, List.length_append, List.length_drop, List.take_left, List.drop_append,
        List.drop_drop]
      rw [show out.length - (out.length + (buf.length - out.length)) = 0 by omega, List.drop_eq_nil_of_le (by omega),
        show out.length + (out.length + c.length - out.length) = out.length + c.length by omega]
      simp
    by_cases hb : b.length ≤ buf.length - out.length
    · have e : Sink.impl s b = (.ok (), { s with calls := s.calls + 1, data := out ++ b ++ buf.drop (out ++ b).length, pos := s.pos + b.length }) := by
        simp only [Sink.impl, Sink.writeAll, h1, h2, noFaults, h3]
        rw [if_pos hb, ← h3, hsp b hb]
      simp only [sendAll, e]
      have i := sendAll_slice buf bs { s with calls := s.calls + 1, data := out ++ b ++ buf.drop (out ++ b).length, pos := s.pos + b.length } (out ++ b)
        h1 h2 (by simp [h3]) (by simp; omega) rfl
      simpa [List.append_assoc] using i
    · have hl : (b.take (buf.length - out.length)).length = buf.length - out.length := by rw [List.length_take]; omega
      have e : Sink.impl s b = (.error .writeZero, { s with calls := s.calls + 1, data := out ++ b.take (buf.length - out.length) ++ buf.drop (out ++ b.take (buf.length - out.length)).length, pos := s.pos + (b.take (buf.length - out.length)).length }) := by
        simp only [Sink.impl, Sink.writeAll, h1, h2, noFaults, h3]
        rw [if_neg hb]
        simp only [← hsp _ (Nat.le_of_eq hl), h3]
      refine .inr ?_
      simp only [sendAll, e, true_and]
      refine ⟨by simp; omega, ?_⟩
      rw [List.drop_eq_nil_of_le (by rw [List.length_append, hl]; omega), List.append_nil, List.take_append,
        List.take_of_length_le h4, List.flatten_cons, List.take_append_of_le_length (by omega)]

end Deku
