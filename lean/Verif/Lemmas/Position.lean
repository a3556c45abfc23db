import Verif.Lemmas.FitsSound
import Verif.Lemmas.FromBytes
import Verif.Lemmas.NoSeek
import Verif.Lemmas.Offset

/-!
# Streams that are not at their start
-/

namespace Deku

open Reader

/-! ### Reading -/

theorem after_readExact (pre : List Byte) (k n : Nat) (s : Src) :
    (s.after pre k).readExact n = ((s.readExact n).1, (s.readExact n).2.after pre k) := by
  have hc : k + s.calls - k = s.calls := by omega
  have hl : (pre ++ s.data).length - (pre.length + s.pos) = s.data.length - s.pos := by simp; omega
  have hd : (pre ++ s.data).drop (pre.length + s.pos) = s.data.drop s.pos := by simp
  simp only [Src.after, Src.readExact, hc, hl, hd]
  rcases s.faults.fails s.calls with _ | ⟨j, e⟩
  · by_cases h : n ≤ s.data.length - s.pos
    · simp only [h, if_true]
      congr 2 <;> omega
    · simp only [h, if_false]
      congr 2
      simp only [List.length_append]; omega
  · simp only
    congr 2 <;> omega

theorem after_readsAlike (pre : List Byte) (k : Nat) : ReadsAlike (Src.after pre k) := fun n r => by
  simp only [Reader.ioRead, Reader.onSrc, after_readExact]

theorem after_streamPosition (pre : List Byte) (k : Nat) (s : Src) :
    (s.after pre k).streamPosition =
      ((s.streamPosition).1.map (pre.length + ·), s.streamPosition.2.after pre k) := by
  have hc : k + s.calls - k = s.calls := by omega
  simp only [Src.after, Src.streamPosition, hc]
  split
  · rfl
  · rcases s.faults.fails s.calls with _ | ⟨j, e⟩
    · rfl
    · rfl

theorem seekTarget_end (len pos : Nat) : Src.seekTarget len pos (.end 0) = some len := by
  have h : ¬ ((len : Int) + 0 < 0) := by omega
  simp only [Src.seekTarget]
  rw [if_neg h]
  simp

theorem after_seek_end (pre : List Byte) (k : Nat) (s : Src) :
    (s.after pre k).seek (.end 0) = ((s.seek (.end 0)).1.map (pre.length + ·), (s.seek (.end 0)).2.after pre k) := by
  have hc : k + s.calls - k = s.calls := by omega
  simp only [Src.after, Src.seek, hc]
  split
  · simp only [Src.noSeekTarget]; rfl
  · rcases s.faults.fails s.calls with _ | ⟨j, e⟩
    · simp only [seekTarget_end, Except.map, List.length_append, Nat.add_assoc]
    · rfl

theorem after_seek_start (pre : List Byte) (k p : Nat) (s : Src) :
    (s.after pre k).seek (.start (pre.length + p)) =
      ((s.seek (.start p)).1.map (pre.length + ·), (s.seek (.start p)).2.after pre k) := by
  have hc : k + s.calls - k = s.calls := by omega
  simp only [Src.after, Src.seek, hc]
  split
  · simp only [Src.noSeekTarget]
    by_cases h : s.pos = p
    · simp [h, Except.map]
    · have : ¬ pre.length + s.pos = pre.length + p := by omega
      simp [h, Except.map]
  · rcases s.faults.fails s.calls with _ | ⟨j, e⟩
    · simp [Src.seekTarget, Except.map, Nat.add_assoc]
    · rfl

theorem srcCall_after {α : Type} {pre : List Byte} {k : Nat} {f f' : Src → Except IoKind Nat × Src}
    (h : ∀ s : Src, f' (s.after pre k) = ((f s).1.map (pre.length + ·), (f s).2.after pre k))
    {g g' : Nat → M Reader α}
    (hg : ∀ n r, g' (pre.length + n) (Reader.onSrc (Src.after pre k) r) =
      ((g n r).1, Reader.onSrc (Src.after pre k) (g n r).2)) (r : Reader) :
    (Coll.srcCall f' >>= g') (Reader.onSrc (Src.after pre k) r) =
      (((Coll.srcCall f >>= g) r).1, Reader.onSrc (Src.after pre k) ((Coll.srcCall f >>= g) r).2) := by
  have h := h r.inner
  rcases hx : f r.inner with ⟨_ | n, s⟩
  · rename_i e
    rw [hx] at h
    have e1 : Coll.srcCall f r = (.err (.io e), { r with inner := s }) := by simp only [Coll.srcCall, hx]
    have e2 : Coll.srcCall f' (Reader.onSrc (Src.after pre k) r) = (.err (.io e), Reader.onSrc (Src.after pre k) { r with inner := s }) := by
      simp only [Coll.srcCall, Reader.onSrc, h, Except.map]
    rw [M.bind_err e1, M.bind_err e2]
  · rw [hx] at h
    have e1 : Coll.srcCall f r = (.ok n, { r with inner := s }) := by simp only [Coll.srcCall, hx]
    have e2 : Coll.srcCall f' (Reader.onSrc (Src.after pre k) r) = (.ok (pre.length + n), Reader.onSrc (Src.after pre k) { r with inner := s }) := by
      simp only [Coll.srcCall, Reader.onSrc, h, Except.map]
    rw [M.bind_ok e1, M.bind_ok e2]
    exact hg _ _

theorem after_listsAlike (pre : List Byte) (k : Nat) : ListsAlike (Src.after pre k) true := fun _ n => by
  have hψ := after_readsAlike pre k
  intro r
  refine srcCall_after (after_streamPosition pre k) (fun p r => ?_) r
  refine srcCall_after (after_seek_end pre k) (fun q r => ?_) r
  refine srcCall_after (after_seek_start pre k p) (fun _ r => ?_) r
  rw [show decide (pre.length + p ≤ pre.length + q) = decide (p ≤ q) by simp,
    show pre.length + q - (pre.length + p) = q - p by omega]
  revert r
  show Commutes (Reader.onSrc (Src.after pre k)) _
  unfold usize
  commute [Reader.readBytes_onSrc hψ]

theorem fromReader_eq {α : Type} (f : M Reader α) (src : Src) (off : Nat) :
    fromReader f src off = (fromReaderOn f src off).1 := by
  unfold fromReader fromReaderOn
  rcases readFrom f off (Reader.new src) with ⟨_ | _ | _, r⟩ <;> rfl

theorem Commutes.fromReaderOn {α : Type} {ψ : Src → Src} {f : M Reader α} (hψ : ReadsAlike ψ)
    (h : Commutes (Reader.onSrc ψ) f) {off : Nat} (ho : off < 8) (src : Src) :
    Deku.fromReaderOn f (ψ src) off = ((Deku.fromReaderOn f src off).1, ψ (Deku.fromReaderOn f src off).2) := by
  have h : readFrom f off (Reader.new (ψ src)) = _ := readFrom_onSrc hψ h ho (Reader.new src)
  unfold Deku.fromReaderOn
  rw [h]
  rcases readFrom f off (Reader.new src) with ⟨_ | _ | _, r⟩ <;> rfl

/-- What `from_reader` makes of the output of `to_bytes`, and where it leaves the stream. -/
theorem SoundOn.fromReaderOn {α : Type} {o : Order} {f : M Reader α} {g : M Writer Unit} {v : α} {Q : Nat → Prop}
    (h : SoundOn o (· = 0) f g v Q) {out : List Byte} (hout : toBytes g = .ok out) (extra : List Byte) :
    ∃ n calls, Deku.fromReaderOn f { data := out ++ extra } 0 =
      (.ok (n, v), { data := out ++ extra, pos := out.length, calls := calls }) := by
  obtain ⟨w, hw⟩ := toBytes_accepted hout
  obtain ⟨bits, hW, hR, hq⟩ := h 0 _ _ rfl (Writer.new_at o) hw
  obtain ⟨out', ho', hbits⟩ := hW.toBytes
  rw [hout] at ho'
  simp at ho'
  subst ho'
  have hlen := congrArg List.length hbits
  rw [length_orderBits, List.length_append, List.length_replicate] at hlen
  obtain ⟨r', e, s⟩ := hR (Reader.new { data := out ++ extra })
    (List.replicate ((8 - bits.length % 8) % 8) false ++ orderBits o extra) (Reader.new_at _)
    (by rw [Reader.new_unread, orderBits_append, hbits, List.append_assoc])
  have hat := (Reader.new_at (out ++ extra)).step s
  have hb : r'.bitsRead = bits.length := by rw [s.bitsRead]; simp [Reader.new]
  have hd : r'.inner.data = out ++ extra := s.data
  have hf : r'.inner.faults = noFaults := hat.healthy
  have hp : r'.inner.pos = out.length := by
    have := hat.good.pos_eq
    omega
  refine ⟨bits.length, r'.inner.calls, ?_⟩
  unfold Deku.fromReaderOn
  rw [readFrom_zero, e]
  simp only [hb]
  rcases hr : r'.inner with ⟨d, p, c, f⟩
  rw [hr] at hd hf hp
  simp only at hd hf hp
  rw [hd, hf, hp]

/-! ### Writing -/

theorem after_splice (pre d bs : List Byte) (p : Nat) :
    Sink.splice (pre ++ d) (pre.length + p) bs = pre ++ Sink.splice d p bs := by
  have h1 : pre.length + p - (pre ++ d).length = p - d.length := by rw [List.length_append]; omega
  have h2 : (pre ++ d).drop (pre.length + p + bs.length) = d.drop (p + bs.length) := by
    rw [Nat.add_assoc]; simp
  have h3 : (pre ++ d).take (pre.length + p) = pre ++ d.take p := by rw [List.take_length_add_append]
  simp only [Sink.splice, h1, h2, h3, List.append_assoc]

theorem after_writesAlike (pre : List Byte) (k : Nat) : WritesAlike (Sink.after pre k) := fun bs w => by
  have hc : k + w.inner.calls - k = w.inner.calls := by omega
  have hn : ∀ c, pre.length + c - (pre.length + w.inner.pos) = c - w.inner.pos := fun c => by omega
  simp only [Writer.writeAll, Writer.onSink, Sink.after, Sink.writeAll, hc]
  rcases w.inner.faults.fails w.inner.calls with _ | ⟨j, e⟩
  · rcases w.inner.cap with _ | c
    · simp [after_splice, Nat.add_assoc]
    · simp only [Option.map_some, hn]
      by_cases h : bs.length ≤ c - w.inner.pos
      · simp [h, after_splice, Nat.add_assoc]
      · simp [h, after_splice, Nat.add_assoc]
  · rcases w.inner.cap with _ | c
    · simp [after_splice, Nat.add_assoc]
    · simp [hn, after_splice, Nat.add_assoc]

/-- The sink with its contents cut off, or filled up, where it stands. -/
def Sink.cut (s : Sink) : Sink := { s with data := s.data.take s.pos ++ List.replicate (s.pos - s.data.length) 0 }

theorem cut_fixed {s : Sink} : s.cut = s ↔ s.pos = s.data.length := by
  constructor
  · intro h
    have := congrArg (fun s => s.data.length) h
    simp only [Sink.cut, List.length_append, List.length_take, List.length_replicate] at this
    omega
  · intro h
    rcases s with ⟨d, p, c, k, f⟩
    simp only at h
    simp [Sink.cut, h]

theorem cut_splice (d bs : List Byte) (p : Nat) :
    Sink.splice (d.take p ++ List.replicate (p - d.length) 0) p bs =
      (Sink.splice d p bs).take (p + bs.length) ++ List.replicate (p + bs.length - (Sink.splice d p bs).length) 0 := by
  have hl : (d.take p ++ List.replicate (p - d.length) (0 : Byte)).length = p := by simp; omega
  have h1 : (d.take p ++ List.replicate (p - d.length) (0 : Byte) ++ bs).length = p + bs.length := by
    rw [List.length_append, hl]
  have h2 : p + bs.length - (Sink.splice d p bs).length = 0 := by
    simp only [Sink.splice, List.length_append] at *
    omega
  rw [h2]
  simp only [Sink.splice]
  rw [List.take_of_length_le (Nat.le_of_eq hl), hl, List.drop_eq_nil_of_le (by rw [hl]; omega), ← h1,
    List.take_left]
  simp

theorem cut_writesAlike : WritesAlike Sink.cut := fun bs w => by
  simp only [Writer.writeAll, Writer.onSink, Sink.cut, Sink.writeAll]
  rcases w.inner.faults.fails w.inner.calls with _ | ⟨j, e⟩
  · rcases w.inner.cap with _ | c
    · simp only [cut_splice]
    · simp only
      by_cases h : bs.length ≤ c - w.inner.pos
      · simp only [h, if_true, cut_splice]
      · simp only [h, if_false, cut_splice]
  · rcases w.inner.cap with _ | c
    · simp only [cut_splice]
    · simp only [cut_splice]

theorem Commutes.writeTo {ψ : Sink → Sink} {g : M Writer Unit} (hψ : WritesAlike ψ)
    (h : Commutes (Writer.onSink ψ) g) (sink : Sink) :
    Deku.writeTo g (ψ sink) = ((Deku.writeTo g sink).1, ψ (Deku.writeTo g sink).2) := by
  have h : (do g; Writer.finalize : M Writer Unit) (Writer.new (ψ sink)) = _ :=
    (h.bind fun _ => Writer.finalize_onSink hψ) (Writer.new sink)
  unfold Deku.writeTo
  rw [h]
  rcases (do g; Writer.finalize : M Writer Unit) (Writer.new sink) with ⟨_ | _ | _, w⟩ <;> rfl

/-- The sink, moved if it can fail. -/
noncomputable def Sink.shy (s : Sink) : Sink :=
  open Classical in if s.cap = none ∧ s.faults = noFaults then s else s.after [] 1

theorem shy_fixed {s : Sink} : s.shy = s ↔ s.cap = none ∧ s.faults = noFaults := by
  unfold Sink.shy
  constructor
  · intro h
    refine Classical.byContradiction fun hs => ?_
    rw [if_neg hs] at h
    have := congrArg Sink.calls h
    simp only [Sink.after] at this
    omega
  · exact fun h => if_pos h

theorem Sink.writeAll_keeps (s : Sink) (bs : List Byte) : (s.writeAll bs).2.cap = s.cap ∧ (s.writeAll bs).2.faults = s.faults := by
  unfold Sink.writeAll
  split
  · exact ⟨rfl, rfl⟩
  · split
    · exact ⟨rfl, rfl⟩
    · split <;> exact ⟨rfl, rfl⟩

theorem Writer.writeAll_inner (bs : List Byte) (w : Writer) : (Writer.writeAll bs w).2.inner = (w.inner.writeAll bs).2 := by
  unfold Writer.writeAll
  rcases w.inner.writeAll bs with ⟨_ | _, s⟩ <;> rfl

theorem shy_writesAlike : WritesAlike Sink.shy := fun bs w => by
  have hk := w.inner.writeAll_keeps bs
  by_cases hs : w.inner.cap = none ∧ w.inner.faults = noFaults
  · have e1 : w.onSink Sink.shy = w := by simp only [Writer.onSink, shy_fixed.2 hs]
    have e2 : (Writer.writeAll bs w).2.onSink Sink.shy = (Writer.writeAll bs w).2 := by
      rw [Writer.onSink, shy_fixed.2 (by rw [Writer.writeAll_inner, hk.1, hk.2]; exact hs)]
    rw [e1, e2]
  · have e1 : w.onSink Sink.shy = w.onSink (Sink.after [] 1) := by simp only [Writer.onSink, Sink.shy, if_neg hs]
    have e2 : (Writer.writeAll bs w).2.onSink Sink.shy = (Writer.writeAll bs w).2.onSink (Sink.after [] 1) := by
      rw [Writer.onSink, Writer.onSink, Sink.shy, if_neg (by rw [Writer.writeAll_inner, hk.1, hk.2]; exact hs)]
    rw [e1, e2]
    exact after_writesAlike [] 1 bs w

/-- A sink that is only written to stays at its end, and goes on to accept everything. -/
theorem Commutes.fresh {α : Type} {g : M Writer α} (hc : ∀ ψ, WritesAlike ψ → Commutes (Writer.onSink ψ) g) {w : Writer}
    (hp : w.inner.pos = w.inner.data.length) (hh : w.inner.cap = none ∧ w.inner.faults = noFaults) :
    (g w).2.inner = { data := (g w).2.inner.data, pos := (g w).2.inner.data.length, calls := (g w).2.inner.calls } := by
  have h1 := congrArg (fun x => x.2.inner) (hc _ cut_writesAlike w)
  rw [show w.onSink Sink.cut = w by simp only [Writer.onSink, cut_fixed.2 hp]] at h1
  have h2 := congrArg (fun x => x.2.inner) (hc _ shy_writesAlike w)
  rw [show w.onSink Sink.shy = w by simp only [Writer.onSink, shy_fixed.2 hh]] at h2
  have h1 := cut_fixed.1 h1.symm
  have h2 := shy_fixed.1 h2.symm
  rcases hs : (g w).2.inner with ⟨d, p, c, k, f⟩
  rw [hs] at h1 h2
  simp only at h1 h2
  rw [h1, h2.1, h2.2]

/-- The sink after one message. -/
theorem writeTo_ok {g : M Writer Unit} (hc : ∀ ψ, WritesAlike ψ → Commutes (Writer.onSink ψ) g)
    {u : Unit} {s : Sink} (h : writeTo g {} = (.ok u, s)) :
    ∃ calls, s = { data := s.data, pos := s.data.length, calls := calls } := by
  have := Commutes.fresh (g := do g; Writer.finalize) (fun ψ hψ => (hc ψ hψ).bind fun _ => Writer.finalize_onSink hψ)
    (w := Writer.new {}) rfl ⟨rfl, rfl⟩
  unfold writeTo at h
  rw [Prod.mk.injEq] at h
  rw [h.2] at this
  exact ⟨_, this⟩

theorem toBytes_eq (g : M Writer Unit) :
    toBytes g = match writeTo g {} with
      | (.ok _, s) => .ok s.data
      | (.err e, _) => .err e
      | (.panic, _) => .panic := by
  unfold toBytes writeTo
  rcases (do g; Writer.finalize : M Writer Unit) (Writer.new {}) with ⟨_ | _ | _, w⟩ <;> rfl

theorem writeEach_eq {gs : List (M Writer Unit)} (hc : ∀ g ∈ gs, ∀ ψ, WritesAlike ψ → Commutes (Writer.onSink ψ) g) {outs : List (List Byte)} (ho : gs.map toBytes = outs.map .ok) (pre : List Byte) (k : Nat) :
    ∃ calls, writeEach gs (Sink.after pre k {}) =
      (.ok (), { data := pre ++ outs.flatten, pos := (pre ++ outs.flatten).length, calls := calls }) := by
  induction gs generalizing outs pre k with
  | nil =>
    obtain rfl : outs = [] := by simpa using ho.symm
    exact ⟨k, by simp [writeEach, Sink.after]; rfl⟩
  | cons g gs ih =>
    obtain _ | ⟨out, outs⟩ := outs
    · simp at ho
    simp only [List.map_cons, List.cons.injEq] at ho
    obtain ⟨h1, ho⟩ := ho
    have hg := hc g List.mem_cons_self
    rw [toBytes_eq] at h1
    rcases hx : writeTo g {} with ⟨x, s⟩
    rw [hx] at h1
    obtain _ | _ | _ := x
    · rename_i u
      simp only [Res.ok.injEq] at h1
      obtain ⟨c, hs⟩ := writeTo_ok hg hx
      rw [h1] at hs
      have e : writeTo g (Sink.after pre k {}) = _ := (hg _ (after_writesAlike pre k)).writeTo (after_writesAlike pre k) {}
      rw [hx, hs] at e
      have hs' : Sink.after pre k { data := out, pos := out.length, calls := c } = Sink.after (pre ++ out) (k + c) {} := by
        simp only [Sink.after, List.append_nil, List.length_append, Nat.add_zero, Option.map_none]
        rfl
      obtain ⟨c', e'⟩ := ih (fun g hg => hc g (List.mem_cons_of_mem _ hg)) ho (pre ++ out) (k + c)
      refine ⟨c', ?_⟩
      rw [writeEach, e]
      simp only
      rw [hs', e', List.flatten_cons, List.append_assoc]
    · simp at h1
    · simp at h1

theorem readEach_eq {α : Type} {o : Order} (ms : List (M Reader α × M Writer Unit × α))
    (hc : ∀ x ∈ ms, ∀ pre k, Commutes (Reader.onSrc (Src.after pre k)) x.1)
    (hs : ∀ x ∈ ms, ∃ Q, SoundOn o (· = 0) x.1 x.2.1 x.2.2 Q)
    {outs : List (List Byte)} (ho : ms.map (fun x => toBytes x.2.1) = outs.map .ok) (pre extra : List Byte) (k : Nat) :
    ∃ calls, readEach (ms.map (·.1)) (Src.after pre k { data := outs.flatten ++ extra }) =
      (.ok (ms.map (·.2.2)), { data := pre ++ outs.flatten ++ extra, pos := (pre ++ outs.flatten).length, calls := calls }) := by
  induction ms generalizing outs pre k with
  | nil =>
    obtain rfl : outs = [] := by simpa using ho.symm
    exact ⟨k, by simp [readEach, Src.after]; rfl⟩
  | cons x ms ih =>
    obtain _ | ⟨out, outs⟩ := outs
    · simp at ho
    simp only [List.map_cons, List.cons.injEq] at ho
    obtain ⟨h1, ho⟩ := ho
    obtain ⟨Q, hq⟩ := hs x List.mem_cons_self
    obtain ⟨n, c, e⟩ := hq.fromReaderOn h1 (outs.flatten ++ extra)
    have e2 : fromReaderOn x.1 (Src.after pre k _) 0 = _ :=
      (hc x List.mem_cons_self pre k).fromReaderOn (after_readsAlike pre k) (off := 0) (by decide) { data := out ++ (outs.flatten ++ extra) }
    rw [e] at e2
    have hs' : Src.after pre k { data := out ++ (outs.flatten ++ extra), pos := out.length, calls := c } =
        Src.after (pre ++ out) (k + c) { data := outs.flatten ++ extra } := by
      simp only [Src.after, List.append_assoc, List.length_append, Nat.add_zero]
      rfl
    obtain ⟨c', e'⟩ := ih (fun g hg => hc g (List.mem_cons_of_mem _ hg)) (fun g hg => hs g (List.mem_cons_of_mem _ hg)) ho (pre ++ out) (k + c)
    refine ⟨c', ?_⟩
    simp only [List.map_cons, readEach, List.flatten_cons, List.append_assoc]
    rw [e2]
    simp only
    rw [hs', e']
    simp only [List.append_assoc]

end Deku
