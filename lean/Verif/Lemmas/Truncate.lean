import Verif.Lemmas.Monad
import Verif.Model.Toplevel
import Verif.Spec.Truncate

/-!
# Reading inputs that are cut off
-/

namespace Deku

namespace Notices

variable {α β : Type} {inside : Bool}

theorem pure (a : α) : Notices inside (Pure.pure a : M Reader α) := fun _ _ h => .inr ⟨rfl, fun _ _ => h⟩

theorem throw (e : DekuError) : Notices inside (M.throw e : M Reader α) :=
  fun _ _ _ => .inr ⟨rfl, fun _ h => nomatch h⟩

theorem panic : Notices inside (M.panic : M Reader α) := fun _ _ _ => .inr ⟨rfl, fun _ h => nomatch h⟩

theorem assert (b : Bool) : Notices inside (M.assert b : M Reader Unit) := by
  cases b
  · exact fun _ _ _ => .inr ⟨rfl, fun _ h => nomatch h⟩
  · exact fun _ _ h => .inr ⟨rfl, fun _ _ => h⟩

theorem modify {g : Reader → Reader}
    (hg : ∀ r : Reader, ∀ data calls, g { r with inner := { r.inner with data := data, calls := calls } } =
      { g r with inner := { (g r).inner with data := data, calls := calls } } ∧ (g r).inner = r.inner) :
    Notices inside (M.modify g) := by
  rintro r _ ⟨⟨d, c, rfl⟩, hh, hd, hw, hs⟩
  refine .inr ⟨rfl, fun _ _ => ?_⟩
  obtain ⟨h1, h2⟩ := hg r d c
  refine ⟨⟨d, c, h1⟩, ?_, ?_, ?_, ?_⟩
  · show (g r).inner.faults = _; rw [h2]; exact hh
  · show (g _).inner.data <+: (g r).inner.data; rw [h1, h2]; exact hd
  · show _ → (g _).inner.pos ≤ (g _).inner.data.length; rw [h1, h2]; exact hw
  · show _ → (g r).inner.data.length < _; rw [h2]; exact hs

theorem bind_of {f : M Reader α} {g : α → M Reader β} (hf : Notices inside f)
    (hg : ∀ a r, (f r).1 = .ok a → Notices inside (g a)) : Notices inside (f >>= g) := fun r s h => by
  rcases hf r s h with ⟨n, hn⟩ | ⟨he, hok⟩
  · rcases hs : f s with ⟨x, s'⟩
    rw [hs] at hn
    subst hn
    exact .inl ⟨n, by rw [M.bind_err hs]⟩
  · rcases hs : f s with ⟨x, s'⟩
    rcases hr : f r with ⟨y, r'⟩
    rw [hs, hr] at he hok
    simp only at he hok
    subst he
    cases x with
    | ok a => rw [M.bind_ok hs, M.bind_ok hr]; exact hg a s (by rw [hs]) r' s' (hok a rfl)
    | err e => rw [M.bind_err hs, M.bind_err hr]; exact .inr ⟨rfl, fun _ h => nomatch h⟩
    | panic => rw [M.bind_panic hs, M.bind_panic hr]; exact .inr ⟨rfl, fun _ h => nomatch h⟩

theorem bind {f : M Reader α} {g : α → M Reader β} (hf : Notices inside f) (hg : ∀ a, Notices inside (g a)) :
    Notices inside (f >>= g) := hf.bind_of fun a _ _ => hg a

theorem get {g : Reader → M Reader β}
    (h : ∀ r : Reader, ∀ data calls, g { r with inner := { r.inner with data := data, calls := calls } } = g r)
    (hg : ∀ r, Notices inside (g r)) : Notices inside (M.get >>= g) := fun r s hrs => by
  obtain ⟨d, c, rfl⟩ := hrs.same
  rw [M.get_bind_run, M.get_bind_run, h]
  exact hg r _ _ hrs

/-- A read from the source after which the end of the input is reported as `Incomplete`. -/
theorem ioRead {n k : Nat} {g : Except IoKind (List Byte) → M Reader β}
    (he : g (.error .unexpectedEof) = M.throw (.incomplete k)) (hg : ∀ bs, Notices inside (g (.ok bs))) :
    Notices inside (Reader.ioRead n >>= g) := by
  rintro r _ ⟨⟨d, c, rfl⟩, hh, hd, hw, hs⟩
  have hh' : r.inner.faults = noFaults := hh
  simp only at hd hw
  by_cases hn : n ≤ d.length - r.inner.pos
  · have hl := hd.length_le
    have hn' : n ≤ r.inner.data.length - r.inner.pos := by omega
    have hb : (d.drop r.inner.pos).take n = (r.inner.data.drop r.inner.pos).take n := by
      obtain ⟨t, ht⟩ := hd
      rw [← ht, List.drop_append, List.take_append_of_le_length (by simp; omega)]
    have e1 : Reader.ioRead n r = (.ok (.ok ((r.inner.data.drop r.inner.pos).take n)),
        { r with inner := { r.inner with calls := r.inner.calls + 1, pos := r.inner.pos + n } }) := by
      simp [Reader.ioRead, Src.readExact, hh', noFaults, hn']
    have e2 : Reader.ioRead n { r with inner := { r.inner with data := d, calls := c } } =
        (.ok (.ok ((r.inner.data.drop r.inner.pos).take n)),
        { r with inner := { r.inner with data := d, calls := c + 1, pos := r.inner.pos + n } }) := by
      simp [Reader.ioRead, Src.readExact, hh', noFaults, hn, hb]
    rw [M.bind_ok e1, M.bind_ok e2]
    refine hg _ _ _ ⟨⟨d, c + 1, rfl⟩, hh, hd, fun hi => ?_, hs⟩
    have := hw hi
    show r.inner.pos + n ≤ d.length
    omega
  · have e2 : ∃ s', Reader.ioRead n { r with inner := { r.inner with data := d, calls := c } } =
        (.ok (.error .unexpectedEof), s') := by
      simp [Reader.ioRead, Src.readExact, hh', noFaults, hn]
    obtain ⟨s', e2⟩ := e2
    rw [M.bind_ok e2, he]
    exact .inl ⟨k, rfl⟩

end Notices

/-- Closes goals of the form `Notices inside f` by following the structure of `f`, with the given lemmas
for the calls in it. -/
macro "notice" "[" ts:term,* "]" : tactic => do
  let ts := ts.getElems
  `(tactic| repeat' with_reducible (first
    $[| apply $ts]* | assumption | exact Notices.pure _ | exact Notices.throw _ | exact Notices.panic
    | exact Notices.assert _ | exact Notices.modify (by with_unfolding_all exact fun _ _ _ => ⟨rfl, rfl⟩)
    | refine Notices.get (by with_unfolding_all exact fun _ _ _ => rfl) (fun _ => ?_)
    | refine Notices.ioRead (by with_unfolding_all exact rfl) (fun _ => ?_)
    | refine Notices.bind ?_ (fun _ => ?_) | split | dsimp only))

variable {inside : Bool}

namespace Reader

theorem readSlots_notices (d : Nat) : ∀ k, Notices inside (readSlots d k)
  | 0 => .pure _
  | k + 1 => by have := readSlots_notices d k; unfold readSlots; notice []

theorem readPartial_notices (d : Nat) : Notices inside (readPartial d) := by
  unfold readPartial; notice []

theorem readBitsInto_notices (n : Nat) (o : Order) : Notices inside (readBitsInto n o) := by
  unfold readBitsInto; notice [readSlots_notices, readPartial_notices]

theorem uintLoop_notices (amt : Nat) : ∀ fuel acc h, Notices inside (uintLoop amt fuel acc h)
  | 0, _, _ => .pure _
  | fuel + 1, acc, h => by unfold uintLoop; notice [uintLoop_notices amt fuel]

theorem readBitsUintMsb0_notices (n : Nat) : Notices inside (readBitsUintMsb0 n) := by
  unfold readBitsUintMsb0; notice [uintLoop_notices]

theorem readBytesLeftover_notices (b : Byte) (n : Nat) : Notices inside (readBytesLeftover b n) := by
  unfold readBytesLeftover; notice []

theorem readBytes_notices (n : Nat) (o : Order) : Notices inside (readBytes n o) := by
  unfold readBytes; notice [readBytesLeftover_notices, readBitsInto_notices]

theorem readBytesConstInto_notices (n : Nat) (o : Order) : Notices inside (readBytesConstInto n o) := by
  unfold readBytesConstInto; notice [readBytesLeftover_notices, readBitsInto_notices]

theorem seek_notices (i : Int) : Notices false (seek (.current i)) := by
  rintro r _ ⟨⟨d, c, rfl⟩, hh, hd, hw, hs⟩
  have hh' : r.inner.faults = noFaults := hh
  right
  by_cases hi : (r.inner.pos : Int) + i < 0
  · have e : ∀ s : Reader, s.inner.faults = noFaults → s.inner.pos = r.inner.pos → seek (.current i) s =
        (.ok (.error .invalidInput), { s with leftover := none, inner := { s.inner with calls := s.inner.calls + 1 } }) := by
      intro s h1 h2
      simp [seek, Src.seek, h1, noFaults, Src.seekTarget, h2, hi]
    rw [e r hh' rfl, e { r with inner := { r.inner with data := d, calls := c } } hh' rfl]
    exact ⟨rfl, fun _ _ => { same := ⟨d, c + 1, rfl⟩, healthy := hh, data := hd, within := nofun, small := nofun }⟩
  · have e : ∀ s : Reader, s.inner.faults = noFaults → s.inner.pos = r.inner.pos → seek (.current i) s =
        (.ok (.ok ((r.inner.pos : Int) + i).toNat), { s with leftover := none, bitsRead := ((r.inner.pos : Int) + i).toNat * 8, inner := { s.inner with calls := s.inner.calls + 1, pos := ((r.inner.pos : Int) + i).toNat } }) := by
      intro s h1 h2
      simp [seek, Src.seek, h1, noFaults, Src.seekTarget, h2, hi]
    rw [e r hh' rfl, e { r with inner := { r.inner with data := d, calls := c } } hh' rfl]
    exact ⟨rfl, fun _ _ => { same := ⟨d, c + 1, rfl⟩, healthy := hh, data := hd, within := nofun, small := nofun }⟩

theorem skipBits_notices_any (n : Nat) (o : Order) : Notices false (skipBits n o) := by
  unfold skipBits; notice [readBitsInto_notices, seek_notices]

theorem skipBits_notices {n : Nat} (hn : inside = true → n < 8) (o : Order) : Notices inside (skipBits n o) := by
  cases inside with
  | false => exact skipBits_notices_any n o
  | true =>
    replace hn := hn rfl
    unfold skipBits
    refine .get (fun _ _ _ => rfl) fun r => ?_
    have key : ∀ k < 8, Notices true (do
        if k / 8 ≠ 0 then
          let r ← M.get
          M.assert (decide (r.bitsRead % 8 = 0))
          match ← seek (.current ((k / 8 : Nat) : Int)) with
          | .error e => M.throw (.io e)
          | .ok _ => pure ()
        let _ ← readBitsInto (k % 8) o
        pure () : M Reader Unit) := by
      intro k hk
      have : k / 8 = 0 := by omega
      simp only [this, ne_eq, not_true_eq_false, if_false]
      notice [readBitsInto_notices]
    split
    · rename_i l _
      exact .bind (readBitsInto_notices _ _) fun _ => key _ (by omega)
    · exact key _ hn

end Reader

namespace Prim

theorem insertZeros_notices (cap i : Nat) : ∀ k l, Notices inside (insertZeros cap i k l)
  | 0, _ => .pure _
  | k + 1, l => by unfold insertZeros; notice [insertZeros_notices cap i k]

theorem readSliceOrd_notices (W : Nat) (e : Endian) (o : Order) (l : List Bool) :
    Notices inside (readSliceOrd W e o l) := by
  unfold readSliceOrd; notice [insertZeros_notices]

theorem readSlice_notices (W : Nat) (e : Endian) (l : List Bool) : Notices inside (readSlice W e l) := by
  unfold readSlice; notice [insertZeros_notices]

theorem readUnsigned_notices (nat : Endian) (W : Nat) (ctx : IntCtx) :
    Notices inside (readUnsigned nat W ctx) := by
  cases ctx <;> simp only [readUnsigned, readUBytesOrd, readWhole, readBits, readBitsOrd, readBytesOrd, readU8Bytes] <;>
  notice [Reader.readBytesConstInto_notices, Reader.readBytes_notices, Reader.readBitsInto_notices, Reader.readBitsUintMsb0_notices, readSlice_notices, readSliceOrd_notices]

theorem readSigned_notices (nat : Endian) (W : Nat) (ctx : IntCtx) :
    Notices inside (readSigned nat W ctx) := by
  cases ctx <;> simp only [readSigned, readSignedWhole, readSignedBits, readSignedBitsOrd, readSignedBytesOrd, readSliceSigned] <;>
  notice [Reader.readBytesConstInto_notices, Reader.readBytes_notices, Reader.readBitsInto_notices, readSliceOrd_notices]

end Prim

namespace Coll

variable {α σ : Type}

theorem vecLoop_notices {read : M Reader α} (h : Notices inside read) (pred : Nat → α → σ → Bool × σ)
    (start : Nat) : ∀ mem st, Notices inside (vecLoop read pred start mem st)
  | 0, _ => by unfold vecLoop; notice []
  | mem + 1, st => by unfold vecLoop; notice [vecLoop_notices h pred start mem]

theorem vecRead_notices {read : M Reader α} (h : Notices inside read) (mem size : Nat)
    (l : Limit α σ) (hl : l ≠ .end) : Notices inside (vecRead mem size read l) := by
  cases l <;> simp only [vecRead, vecWithPredicate, usize, withCapacity] <;>
  first
  | exact absurd rfl hl
  | notice [vecLoop_notices h]

theorem arrayRead_notices {read : M Reader α} (h : Notices inside read) :
    ∀ n, Notices inside (arrayRead read n)
  | 0 => .pure _
  | n + 1 => by have := arrayRead_notices h n; unfold arrayRead; notice []

theorem u8Read_notices (nat : Endian) : Notices inside (u8Read nat) := by
  unfold u8Read; notice [Prim.readUnsigned_notices]

/-- What `ReadExact` does before it reads. -/
theorem readExact_healthy {r : Reader} (h : r.Healthy) (n : Nat) :
    readExact n r = (do
      M.assert (decide (r.inner.pos ≤ r.inner.data.length))
      if r.inner.data.length - r.inner.pos < n then do
        let k ← usize (n * 8)
        M.throw (.incomplete k)
      else
        Reader.readBytes n .lsb0 : M Reader (List Byte))
      { r with inner := { r.inner with calls := r.inner.calls + 3 } } := by
  have h' : r.inner.faults = noFaults := h
  have h0 : ¬ ((r.inner.data.length : Int) + 0 < 0) := by omega
  simp [readExact, M.bind_def, srcCall, Src.streamPosition, Src.seek, h', noFaults, Src.seekTarget, show ¬ ((r.inner.data.length : Int) < 0) by omega]

theorem readExact_notices (n : Nat) : Notices true (readExact n) := by
  rintro r _ ⟨⟨d, c, rfl⟩, hh, hd, hw, hs⟩
  rw [readExact_healthy hh, readExact_healthy (r := { r with inner := { r.inner with data := d, calls := c } }) hh]
  have hw := hw rfl
  simp only at hd hw ⊢
  have hs := hs rfl
  have hl := hd.length_le
  simp only [hw, show r.inner.pos ≤ r.inner.data.length by omega, decide_true, M.assert_true_bind_run]
  by_cases h1 : d.length - r.inner.pos < n
  · simp only [h1, if_true]
    by_cases h2 : n * 8 < 2 ^ 64
    · left
      simp [usize, h2]
    · have h3 : r.inner.data.length - r.inner.pos < n := by omega
      right
      simp [h3, usize, h2]
  · have h3 : ¬ r.inner.data.length - r.inner.pos < n := by omega
    simp only [h1, h3, if_false]
    exact Reader.readBytes_notices n .lsb0 _ _ ⟨⟨d, c + 3, rfl⟩, hh, hd, fun _ => hw, fun _ => hs⟩

end Coll

theorem magicRead_notices (nat : Endian) : ∀ l, Notices inside (magicRead nat l)
  | [] => .pure _
  | b :: l => by have := magicRead_notices nat l; unfold magicRead; notice [Coll.u8Read_notices]

theorem padRead_notices (o : Option Order) {pad : Option (Env → Int)} (h : inside = true → ShortPad pad) (env : Env) :
    Notices inside (padRead o pad env) := by
  cases pad with
  | none => exact .pure _
  | some f =>
    unfold padRead padSize
    refine .bind_of (by notice []) fun n r hr => Reader.skipBits_notices (fun hi => ?_) _
    have := h hi f rfl env
    split at hr
    · injection hr with hr
      omega
    · cases hr

theorem Attrs.read_notices {a : Attrs} (ha : a.Cuttable inside) (nat : Endian) {rd : Env → M Reader Val}
    (hrd : ∀ env, Notices inside (rd env)) (env : Env) : Notices inside (a.read nat rd env) := by
  obtain ⟨hs, hp⟩ := ha
  have hb := fun o => padRead_notices (inside := inside) (pad := a.padBefore) o fun h => (hp h).1
  have hf := fun o => padRead_notices (inside := inside) (pad := a.padAfter) o fun h => (hp h).2
  unfold Attrs.read Attrs.value Attrs.check Attrs.applyMap seekRead
  rw [hs]
  notice [magicRead_notices, hb, hf, hrd]

theorem LimitE.eval_notices (l : LimitE) (env : Env) : Notices inside (l.eval env) := by
  cases l <;> simp only [LimitE.eval, toUsize] <;> notice []

theorem LimitE.eval_ne_end {l : LimitE} (hl : match l with | .end => False | _ => True) {env : Env} {r : Reader}
    {lim : Limit Val (List Val)} (h : (l.eval env r).1 = .ok lim) : lim ≠ .end := by
  rintro rfl
  cases l <;> simp only [LimitE.eval] at h
  case «end» => exact hl
  case «until» => cases h
  all_goals
    obtain ⟨k, r', _, h⟩ := M.bind_eq_ok (Prod.ext h rfl)
    cases h

mutual

theorem Ty.read_notices (m : Machine) : ∀ (t : Ty), t.Cuttable inside → ∀ env, Notices inside (t.read m env)
  | .prim _ c, h, env => by simpa [Ty.read] using h env
  | .option t, h, env => by
    have := t.read_notices m h env
    simp only [Ty.read]; notice []
  | .array n t, h, env => by
    have ht := t.read_notices m h env
    simp only [Ty.read]; notice [Coll.arrayRead_notices ht]
  | .pair a b, h, env => by
    have h1 := a.read_notices m h.1 env
    have h2 := b.read_notices m h.2 env
    simp only [Ty.read]; notice []
  | .vec size l t, h, env => by
    have ht := t.read_notices m h.2 env
    simp only [Ty.read]
    refine .bind_of (LimitE.eval_notices l env) fun lim r hr => ?_
    have := Coll.vecRead_notices ht m.mem size lim (LimitE.eval_ne_end h.1 hr)
    notice []
  | .bytes n _, h, env => by
    have h : inside = true := h
    subst h
    simp only [Ty.read, toUsize]; notice [Coll.readExact_notices]
  | .struct args sk magic fs, h, env => by
    obtain ⟨hs, hf⟩ := h
    simp only [Ty.read, hs, seekRead]
    notice [magicRead_notices, fs.read_notices m hf]
  | .enum args magic id store vs, h, env => by
    obtain ⟨hid, hv⟩ := h
    cases id with
    | ctx e =>
      simp only [Ty.read, dispatch]
      notice [magicRead_notices, vs.readAt_notices m hv]
    | typed size c =>
      have hc := hid size c rfl
      simp only [Ty.read, dispatch]
      notice [magicRead_notices, vs.readAt_notices m hv, hc]

theorem Fields.read_notices (m : Machine) : ∀ (fs : Fields), fs.Cuttable inside → ∀ env, Notices inside (fs.read m env)
  | .nil, _, _ => by simp only [Fields.read]; exact .pure _
  | .cons a t tl, h, env => by
    obtain ⟨ha, ht, hr⟩ := h
    simp only [Fields.read]
    notice [Attrs.read_notices ha m.native (t.read_notices m ht), tl.read_notices m hr]
  | .temp a t _ tl, h, env => by
    obtain ⟨ha, ht, hr⟩ := h
    simp only [Fields.read]
    notice [Attrs.read_notices ha m.native (t.read_notices m ht), tl.read_notices m hr]

theorem Fields.readStored_notices (m : Machine) : ∀ (fs : Fields), fs.Cuttable inside → ∀ env v,
    Notices inside (fs.readStored m env v)
  | .nil, _, _, _ => by simp only [Fields.readStored]; exact .pure _
  | .cons a t tl, h, env, v => by
    have hr := tl.read_notices m h.2.2
    simp only [Fields.readStored]; notice [hr]
  | .temp a t _ tl, h, env, v => by
    have hr := tl.read_notices m h.2.2
    simp only [Fields.readStored]; notice [hr]

theorem Variants.readAt_notices (m : Machine) : ∀ (vs : Variants), vs.Cuttable inside → ∀ env v b i,
    Notices inside (vs.readAt m env v b i)
  | .nil, _, _, _, _, _ => by simp only [Variants.readAt]; exact .panic
  | .cons a fs tl, h, env, v, b, 0 => by
    have h1 := fs.readStored_notices m h.1
    have h2 := fs.read_notices m h.1
    simp only [Variants.readAt]; notice [h1, h2]
  | .cons a fs tl, h, env, v, b, i + 1 => by
    simp only [Variants.readAt]; exact tl.readAt_notices m h.2 env v b i

end

theorem uintCodec_notices (nat : Endian) (W : Nat) (ctx : IntCtx) :
    Notices inside (uintCodec nat W ctx).read := by
  unfold uintCodec; notice [Prim.readUnsigned_notices]

theorem readFrom_notices {α : Type} {read : M Reader α} (h : Notices inside read) {off : Nat} (ho : inside = true → off < 8) :
    Notices inside (readFrom read off) := by
  have := Reader.skipBits_notices ho .msb0
  unfold readFrom
  notice []

end Deku
