import Verif.Lemmas.Io
import Verif.Model.Source

/-!
# How the stream is implemented: C93

The theorems about reading are about the streams of `Verif/Model/Stream.lean`, whose `read_exact` either
succeeds at once or fails. They carry over to streams of any type: reading uses its stream only by
calling `read_exact`, `seek` and `stream_position` (`Asks`), and a stream that keeps the contract of
`Read` and `Seek` cannot be told from those.
-/

namespace Deku

variable {α : Type}

/-- **C93.** On a stream of any type that delivers its bytes in order and fails only at their end, a
program has the result, leaves the leftover and `bits_read`, and stops at the position that it has,
leaves and stops at on the stream of `Verif/Model/Stream.lean` with the same bytes. -/
theorem C93_any_reliable_stream_will_do (f : M Reader α) (t : ReadTalk α) (ht : t.Is f) {S : Type}
    (impl : Impl ReadCall ReadCall.Answer S) (data : List Byte) («at» : S → Nat → Prop)
    (hr : Reliable impl data «at») (s : S) (pos : Nat) (hs : «at» s pos) (lo : Option Leftover) (n : Nat) :
    ∃ x lo' n' s' src', t.run impl (lo, n) s = (x, (lo', n'), s') ∧
      f { inner := { data := data, pos := pos }, leftover := lo, bitsRead := n } =
        (x, { inner := src', leftover := lo', bitsRead := n' }) ∧ src'.data = data ∧ «at» s' src'.pos := by
  obtain ⟨h1, h2, h3⟩ := Talk.run_reliable hr (t (lo, n)) s { data := data, pos := pos } rfl rfl hs
  refine ⟨_, _, _, _, _, rfl, ?_, h2, h3⟩
  rw [ht]
  simp only [ReadTalk.run]
  simp only [h1]

/-- **C93.** On a stream of any type that delivers its bytes in order but can fail at any time, for any
reason, a program has the result that it has on a stream of `Verif/Model/Stream.lean` with the same bytes
and some fault schedule. So what is proved for all fault schedules holds for all such streams. -/
theorem C93_any_honest_stream_is_one_with_faults (f : M Reader α) (t : ReadTalk α) (ht : t.Is f) {S : Type}
    (impl : Impl ReadCall ReadCall.Answer S) (data : List Byte) («at» : S → Nat → Prop)
    (hr : Honest impl data «at») (s : S) (pos : Nat) (hs : «at» s pos) (lo : Option Leftover) (n : Nat) :
    ∃ F x lo' n' s' src', t.run impl (lo, n) s = (x, (lo', n'), s') ∧
      f { inner := { data := data, pos := pos, faults := { fails := F } }, leftover := lo, bitsRead := n } =
        (x, { inner := src', leftover := lo', bitsRead := n' }) ∧ src'.data = data ∧ «at» s' src'.pos := by
  obtain ⟨F, hF⟩ := Talk.run_honest hr (t (lo, n)) s pos hs
  obtain ⟨h1, h2, h3⟩ := hF { data := data, pos := pos, faults := { fails := F } } rfl rfl rfl (fun i => by
    show F (0 + i) = F i
    rw [Nat.zero_add])
  refine ⟨F, _, _, _, _, _, rfl, ?_, h2, h3⟩
  rw [ht]
  simp only [ReadTalk.run]
  simp only [h1]

/-- **C93.** Reading a derived type with any attributes, from any offset, uses the stream only by calling
it, if the types in it with an implementation of their own do. -/
theorem C93_reading_only_calls (m : Machine) (t : Ty) (ht : t.Asks) (env : Env) (off : Nat) :
    Asks (readFrom (t.read m env) off) :=
  readFrom_asks (t.read_asks m ht env) off

/-- **C93.** The implementations of `src/impls` do. -/
theorem C93_definitions_only_call (m : Machine) (d : Def) : (d.toTy m).Asks := d.toTy_asks m

/-- **C93**, maps and sets, if reading their entries does. -/
theorem C93_maps_and_sets_only_call {β σ : Type} [DecidableEq α] (mem : Nat) (read : M Reader (α × β)) (h : Asks read)
    (l : Limit (α × β) σ) (read' : M Reader α) (h' : Asks read') (l' : Limit α σ) :
    Asks (Coll.mapRead mem read l) ∧ Asks (Coll.setRead mem read' l') :=
  ⟨Coll.mapRead_asks h mem l, Coll.setRead_asks h' mem l'⟩

/-- **C93.** The calls on a file, socket or pipe whose `read` transfers as little as it likes, is
interrupted as often as it likes, pauses or fails, through `read_exact` of the standard library, keep
the contract; those on one that does not pause or fail are reliable. The same for a `BufReader` around
it. -/
theorem C93_files_and_buffers_keep_the_contract (data : List Byte) :
    Honest Pipe.impl data (Pipe.Holds data) ∧
    Reliable Pipe.impl data (fun p pos => p.Holds data pos ∧ p.Quiet) ∧
    Honest BufReader.impl data (BufReader.Holds data) ∧
    Reliable BufReader.impl data (fun b pos => b.Holds data pos ∧ b.inner.Quiet) :=
  ⟨Pipe.honest data, Pipe.reliable data, BufReader.honest data, BufReader.reliable data⟩

theorem ReadTalk.fromReader_eq {f : M Reader α} {off : Nat} {t : ReadTalk α} (ht : t.Is (readFrom f off)) {S : Type}
    {impl : Impl ReadCall ReadCall.Answer S} {data : List Byte} {R : S → Nat → Prop} (hr : Reliable impl data R)
    {s : S} (hs : R s 0) : t.fromReader impl s = Deku.fromReader f { data := data } off := by
  obtain ⟨x, lo', n', s', src', h1, h2, _⟩ :=
    C93_any_reliable_stream_will_do _ t ht impl data R hr s 0 hs none 0
  unfold ReadTalk.fromReader Deku.fromReader Reader.new
  rw [h1, h2]
  cases x <;> rfl

/-- **C93.** `from_reader` of every definition gives the same value, number of bits read or error on a
file, socket or pipe, however few bytes each `read` transfers and however often it is interrupted, and
on a `BufReader` around it with a buffer of any size, as on the bytes themselves. -/
theorem C93_short_reads_interruptions_and_buffers_are_invisible (m : Machine) (d : Def) (env : Env) (off : Nat) :
    ∃ t : ReadTalk Val, t.Is (readFrom ((d.toTy m).read m env) off) ∧ ∀ data : List Byte,
      (∀ p : Pipe, p.data = data → p.pos = 0 → p.Quiet →
        t.fromReader Pipe.impl p = fromReader ((d.toTy m).read m env) { data := data } off) ∧
      (∀ b : BufReader, b.inner.data = data → b.inner.pos = 0 → b.inner.Quiet → 0 < b.cap → b.buf = [] →
        t.fromReader BufReader.impl b = fromReader ((d.toTy m).read m env) { data := data } off) := by
  obtain ⟨t, ht⟩ := C93_reading_only_calls m (d.toTy m) (d.toTy_asks m) env off
  refine ⟨t, ht, fun data => ⟨fun p h1 h2 h3 => ?_, fun b h1 h2 h3 h4 h5 => ?_⟩⟩
  · exact ReadTalk.fromReader_eq ht (Pipe.reliable data) ⟨⟨h1, h2⟩, h3⟩
  · exact ReadTalk.fromReader_eq ht (BufReader.reliable data) ⟨⟨h4, h1, by simp [h2, h5], by simp [h5]⟩, h3⟩

/-! The hypotheses are met by streams with interruptions and short reads. -/

/-- Gives one byte, is interrupted twice, gives two bytes, then all that is asked for. -/
def slowPipe : Pipe := { data := [1#8, 2#8, 3#8, 4#8, 5#8], script := [.give 0, .interrupt, .interrupt, .give 1] }

example : slowPipe.Quiet := by
  refine ⟨fun a ha => ?_, fun a ha => by simp [slowPipe] at ha⟩
  simp only [slowPipe, List.mem_cons, List.not_mem_nil, or_false] at ha
  rcases ha with rfl | rfl | rfl | rfl
  · exact .inl ⟨0, rfl⟩
  · exact .inr rfl
  · exact .inr rfl
  · exact .inl ⟨1, rfl⟩
example : (slowPipe.readExact 4).1.toOption = some [1#8, 2#8, 3#8, 4#8] ∧ (slowPipe.readExact 4).2.pos = 4 := by decide
example : ((BufReader.mk slowPipe 2 []).readExact 4).1.toOption = some [1#8, 2#8, 3#8, 4#8] := by decide
example : (slowPipe.readExact 6).1.toOption = none ∧ (slowPipe.readExact 6).2.pos = 5 := by decide

/-- A program by hand: `read_bytes` of two bytes on a reader without a leftover. -/
example : ReadTalk.Is (fun h => .call (.readExact 2) fun x => .done (.ok x, h)) (Reader.ioRead 2) := fun _ => rfl

/-- **C93**, what the contract does not promise: a stream that answers `Ok(0)` before its end, as a file
that is still being written, ends the message there. -/
theorem C93_a_pause_is_taken_for_the_end :
    ({ data := [1#8, 2#8], script := [.give 0, .pause] } : Pipe).readExact 2 =
      (.error .unexpectedEof, { data := [1#8, 2#8], pos := 1 }) := rfl

/-- **C93**, what a `BufReader` hides: the stream under it has moved further than what was read, so what
is read from it after the `BufReader` is given up does not follow. -/
theorem C93_a_buffer_reads_ahead :
    ((BufReader.mk { data := [1#8, 2#8, 3#8] } 8 []).readExact 1).2.inner.pos = 3 := rfl

end Deku
