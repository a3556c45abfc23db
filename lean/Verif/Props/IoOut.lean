import Verif.Lemmas.IoOut
import Verif.Model.Source

/-!
# How the sink is implemented: C94

As C93, for writing: without `seek_*` attributes, writing uses its sink only by calling `write_all`
(`Tells`), and a sink that keeps the contract of `Write` cannot be told from those of
`Verif/Model/Stream.lean`. With `seek_*` attributes it can: what a seek beyond the end followed by
nothing leaves behind is up to the sink.
-/

namespace Deku

variable {α : Type}

/-- **C94.** On a sink of any type that stores what it is given and does not fail, a program has the
result, leaves the leftover and `bits_written`, and stores the bytes that it has, leaves and stores on the
sink of `Verif/Model/Stream.lean`, after what was there before. -/
theorem C94_any_reliable_sink_will_do (f : M Writer α) (t : WriteTalk α) (ht : t.Is f) {S : Type}
    (impl : Impl WriteCall WriteAnswer S) (has : S → List Byte → Prop) (hr : ReliableSink impl has) (s : S)
    (out : List Byte) (hs : has s out) (lo : List Bool) (tag : Order) (n : Nat) :
    ∃ x lo' tag' n' s' sink', t.run impl (lo, tag, n) s = (x, (lo', tag', n'), s') ∧
      f { inner := { data := out, pos := out.length }, leftover := lo, tag := tag, bitsWritten := n } =
        (x, { inner := sink', leftover := lo', tag := tag', bitsWritten := n' }) ∧ has s' sink'.data := by
  obtain ⟨h1, h2⟩ := Talk.run_reliable_sink hr (t (lo, tag, n)) s { data := out, pos := out.length } rfl rfl rfl hs
  refine ⟨_, _, _, _, _, _, rfl, ?_, h2⟩
  rw [ht]
  simp only [WriteTalk.run]
  simp only [h1]

/-- **C94.** On a sink of any type that can fail at any time, having stored any part of what it was
given, a program has the result that it has on a sink of `Verif/Model/Stream.lean` with some fault
schedule, and stores the same bytes. So what is proved for all fault schedules holds for all such
sinks. -/
theorem C94_any_honest_sink_is_one_with_faults (f : M Writer α) (t : WriteTalk α) (ht : t.Is f) {S : Type}
    (impl : Impl WriteCall WriteAnswer S) (has : S → List Byte → Prop) (hr : HonestSink impl has) (s : S)
    (out : List Byte) (hs : has s out) (lo : List Bool) (tag : Order) (n : Nat) :
    ∃ F x lo' tag' n' s' sink', t.run impl (lo, tag, n) s = (x, (lo', tag', n'), s') ∧
      f { inner := { data := out, pos := out.length, faults := { fails := F } }, leftover := lo, tag := tag, bitsWritten := n } =
        (x, { inner := sink', leftover := lo', tag := tag', bitsWritten := n' }) ∧ has s' sink'.data := by
  obtain ⟨F, hF⟩ := Talk.run_honest_sink hr (t (lo, tag, n)) s out hs
  obtain ⟨h1, h2⟩ := hF { data := out, pos := out.length, faults := { fails := F } } rfl rfl rfl (fun i => by
    show F (0 + i) = F i
    rw [Nat.zero_add])
  refine ⟨F, _, _, _, _, _, _, rfl, ?_, h2⟩
  rw [ht]
  simp only [WriteTalk.run]
  simp only [h1]

/-- **C94.** Writing a derived type without `seek_*` attributes, and `finalize`, use the sink only by
calling `write_all`, if the types in it with an implementation of their own do. -/
theorem C94_writing_only_calls (m : Machine) (t : Ty) (ht : t.Tells) (env : Env) (v : Val) :
    Tells (t.write m env v) ∧ Tells (do t.write m env v; Writer.finalize : M Writer Unit) :=
  ⟨t.write_tells m ht env v, .bind (t.write_tells m ht env v) fun _ => Writer.finalize_tells⟩

/-- **C94.** The implementations of `src/impls` do. -/
theorem C94_definitions_only_call (m : Machine) (d : Def) : (d.toTy m).Tells := d.toTy_tells m

/-- **C94**, maps, if writing their entries does. -/
theorem C94_maps_only_call {β : Type} {key : α → M Writer Unit} {val : β → M Writer Unit} (hk : ∀ v, Tells (key v))
    (hv : ∀ v, Tells (val v)) (l : List (α × β)) : Tells (Coll.mapWrite key val l) :=
  Coll.mapWrite_tells hk hv l

/-- **C94.** The calls on a file, socket or pipe whose `write` takes as little as it likes, is interrupted
as often as it likes, is full or fails, through `write_all` of the standard library, keep the contract;
those on one that is never full and does not fail are reliable. The same for a `BufWriter` around it, if
the bytes in its buffer are counted as written. -/
theorem C94_files_and_buffers_keep_the_contract :
    HonestSink Device.impl Device.Has ∧
    ReliableSink Device.impl (fun d out => d.Has out ∧ d.Quiet) ∧
    HonestSink BufWriter.impl BufWriter.Has ∧
    ReliableSink BufWriter.impl (fun w out => w.Has out ∧ w.inner.Quiet) :=
  ⟨Device.honest, Device.reliable, BufWriter.honest, BufWriter.reliable⟩

theorem WriteTalk.writeTo_eq {f : M Writer Unit} {t : WriteTalk Unit} (ht : t.Is (do f; Writer.finalize)) {S : Type}
    {impl : Impl WriteCall WriteAnswer S} {R : S → List Byte → Prop} (hr : ReliableSink impl R) {s : S}
    {out : List Byte} (hs : R s out) :
    (t.writeTo impl s).1 = (Deku.writeTo f { data := out, pos := out.length }).1 ∧
    R (t.writeTo impl s).2 (Deku.writeTo f { data := out, pos := out.length }).2.data := by
  obtain ⟨x, lo', tag', n', s', sink', h1, h2, h3⟩ :=
    C94_any_reliable_sink_will_do _ t ht impl R hr s out hs [] .msb0 0
  unfold WriteTalk.writeTo Deku.writeTo Writer.new
  rw [h1, h2]
  exact ⟨rfl, h3⟩

/-- **C94.** Writing any value of any definition has the same result on a file, socket or pipe, however
few bytes each `write` takes and however often it is interrupted, as on a vector, and stores the same
bytes. On a `BufWriter` around it with a buffer of any size it has the same result too, and the bytes are
stored after `flush`. -/
theorem C94_short_writes_interruptions_and_buffers_are_invisible (m : Machine) (d : Def) (env : Env) (v : Val) :
    ∃ t : WriteTalk Unit, t.Is (do (d.toTy m).write m env v; Writer.finalize) ∧ ∀ out : List Byte,
      (∀ p : Device, p.out = out → p.Quiet →
        (t.writeTo Device.impl p).1 = (writeTo ((d.toTy m).write m env v) { data := out, pos := out.length }).1 ∧
        (t.writeTo Device.impl p).2.out = (writeTo ((d.toTy m).write m env v) { data := out, pos := out.length }).2.data) ∧
      (∀ b : BufWriter, b.inner.out = out → b.inner.Quiet → b.buf = [] →
        (t.writeTo BufWriter.impl b).1 = (writeTo ((d.toTy m).write m env v) { data := out, pos := out.length }).1 ∧
        ∃ b', (t.writeTo BufWriter.impl b).2.flush = (.ok (), b') ∧
          b'.inner.out = (writeTo ((d.toTy m).write m env v) { data := out, pos := out.length }).2.data) := by
  obtain ⟨t, ht⟩ := (C94_writing_only_calls m (d.toTy m) (d.toTy_tells m) env v).2
  refine ⟨t, ht, fun out => ⟨fun p h1 h2 => ?_, fun b h1 h2 h3 => ?_⟩⟩
  · obtain ⟨e1, e2, _⟩ := WriteTalk.writeTo_eq ht Device.reliable (s := p) ⟨h1, h2⟩
    exact ⟨e1, e2⟩
  · obtain ⟨e1, ⟨e2, _⟩, e3⟩ := WriteTalk.writeTo_eq ht BufWriter.reliable (s := b) (out := out) ⟨⟨by simp [h1, h3], by simp [h3]⟩, h2⟩
    obtain ⟨b', hb, _⟩ := BufWriter.flush_quiet _ e3
    refine ⟨e1, b', hb, ?_⟩
    obtain ⟨f1, _, _, f4⟩ := BufWriter.flush_law (t.writeTo BufWriter.impl b).2
    rw [hb] at f1 f4
    have := f4 () rfl
    simp only at this f1
    rw [this, List.append_nil, e2] at f1
    exact f1

/-! The hypotheses are met by devices with interruptions and short writes. -/

/-- Takes one byte, is interrupted twice, takes two bytes, then all that it is given. -/
def slowDevice : Device := { out := [9#8], script := [.take 0, .interrupt, .interrupt, .take 1] }

example : slowDevice.Quiet := by
  intro a ha
  simp only [slowDevice, List.mem_cons, List.not_mem_nil, or_false] at ha
  rcases ha with rfl | rfl | rfl | rfl
  · exact .inl ⟨0, rfl⟩
  · exact .inr rfl
  · exact .inr rfl
  · exact .inl ⟨1, rfl⟩
example : (slowDevice.writeAll [1#8, 2#8, 3#8, 4#8, 5#8]).2.out = [9#8, 1#8, 2#8, 3#8, 4#8, 5#8] := by decide
example : ((BufWriter.mk slowDevice 2 []).writeAll [1#8, 2#8, 3#8, 4#8]).2.inner.out = [9#8, 1#8, 2#8, 3#8, 4#8] := by decide
example : ((BufWriter.mk slowDevice 8 []).writeAll [1#8, 2#8, 3#8, 4#8]).2.inner.out = [9#8] := by decide

/-- A program by hand: `write_bytes` on a writer without a leftover. -/
example : WriteTalk.Is (fun h => .call [1#8, 2#8] fun x => match x with
    | .ok _ => .done (.ok (), h)
    | .error e => .done (.err (.io e), h)) (Writer.writeAll [1#8, 2#8]) := fun w => by
  simp only [WriteTalk.run, Talk.run, Sink.impl, Writer.writeAll]
  rcases w.inner.writeAll [1#8, 2#8] with ⟨x, s'⟩
  cases x <;> rfl

theorem Sink.calls_le {α : Type} : ∀ (t : Talk WriteCall WriteAnswer α) (c : Sink), c.calls ≤ (t.run Sink.impl c).2.calls
  | .done _, _ => Nat.le_refl _
  | .call bs k, c => by
    have h1 : (Sink.impl c bs).2.calls = c.calls + 1 := by
      unfold Sink.impl Sink.writeAll
      split
      · rfl
      · split
        · rfl
        · split <;> rfl
    have h2 := Sink.calls_le (k (Sink.impl c bs).1) (Sink.impl c bs).2
    simp only [Talk.run]
    omega

/-- **C94**, what success does not promise: `finalize` does not flush the sink (src/writer.rs:404-413 has
no such call), so with a `BufWriter` writing can succeed although the device has nothing, and will not
take anything. -/
theorem C94_success_does_not_mean_stored (t : WriteTalk Unit)
    (ht : t.Is (do Writer.writeBytes [1#8, 2#8]; Writer.finalize)) :
    ∃ b, t.writeTo BufWriter.impl { inner := { script := [.full] }, cap := 8 } = (.ok (), b) ∧
      b.inner.out = [] ∧ b.flush.1 = .error .writeZero := by
  have h := ht (Writer.new {})
  have hf : (do Writer.writeBytes [1#8, 2#8]; Writer.finalize : M Writer Unit) (Writer.new {}) =
      (.ok (), { inner := { data := [1#8, 2#8], pos := 2, calls := 1 }, bitsWritten := 16 }) := by rfl
  rw [hf] at h
  simp only [WriteTalk.run, Writer.new] at h
  unfold WriteTalk.writeTo WriteTalk.run
  rcases hk : t ([], .msb0, 0) with a | ⟨bs, k⟩
  · rw [hk] at h
    simp [Talk.run] at h
  · rw [hk] at h
    have e : Sink.impl {} bs = (.ok (), { data := bs, pos := bs.length, calls := 1 }) := by
      simp [Sink.impl, Sink.writeAll, noFaults, Sink.splice]
    simp only [Talk.run, e] at h
    rcases hk2 : k (.ok ()) with a | ⟨bs', k'⟩
    · rw [hk2] at h
      simp only [Talk.run, Prod.mk.injEq, Writer.mk.injEq, Sink.mk.injEq] at h
      obtain ⟨h1, ⟨rfl, _⟩, _⟩ := h
      refine ⟨{ inner := { script := [.full] }, cap := 8, buf := [1#8, 2#8] }, ?_, rfl, rfl⟩
      have e2 : BufWriter.impl { inner := { script := [.full] }, cap := 8 } [1#8, 2#8] =
        (.ok (), { inner := { script := [.full] }, cap := 8, buf := [1#8, 2#8] }) := rfl
      simp only [Talk.run, e2, hk2, ← h1]
    · rw [hk2] at h
      have h3 := congrArg (fun x => x.2.inner.calls) h
      simp only at h3
      have h1 : (Sink.impl { data := bs, pos := bs.length, calls := 1 } bs').2.calls = 2 := rfl
      have h2 := Sink.calls_le (k' (Sink.impl { data := bs, pos := bs.length, calls := 1 } bs').1) (Sink.impl { data := bs, pos := bs.length, calls := 1 } bs').2
      simp only [Talk.run] at h3
      omega

/-- There is such a program. -/
example : Tells (do Writer.writeBytes [1#8, 2#8]; Writer.finalize : M Writer Unit) :=
  .bind (Writer.writeBytes_tells _) fun _ => Writer.finalize_tells

end Deku
