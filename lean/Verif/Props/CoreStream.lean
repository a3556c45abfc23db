import Verif.Lemmas.CoreStream
import Verif.Props.Core
import Verif.Props.NoSeek
import Verif.Props.Position

/-!
# C55 and C59 for all definitions given as data

What `Props/NoSeek.lean` and `Props/Position.lean` ask of the types of the fields is met by all of them; what remains is
read off the definition.
-/

namespace Deku

/-! ## C55 -/

/-- **C55.** Whatever the definition: `to_writer` and `finalize` do the same on a sink that cannot seek, of any capacity
and with any faults. -/
theorem C55_programs_write_without_seeking (m : Machine) (d : Def) (env : Env) (v : Val) (sink : Sink) :
    (writeTo ((d.toTy m).write m env v) sink.noSeek).1 = (writeTo ((d.toTy m).write m env v) sink).1 ∧
    (writeTo ((d.toTy m).write m env v) sink.noSeek).2.data = (writeTo ((d.toTy m).write m env v) sink).2.data := by
  rw [Commutes.writeTo noSeek_writesAlike (Ty.write_onSink noSeek_writesAlike m _ (d.unsought noSeek_writesAlike m) env v) sink]
  exact ⟨rfl, rfl⟩

/-- **C55, in part.** `from_reader` does the same on a source that cannot seek, with any faults, if the paddings are of
less than a byte and `Vec<u8>` is not read with `ReadExact`. -/
theorem C55_programs_read_without_seeking_partial (m : Machine) (d : Def) (h : d.unpadded false = true) (env : Env)
    (src : Src) {off : Nat} (ho : off < 8) :
    fromReader ((d.toTy m).read m env) src.noSeek off = fromReader ((d.toTy m).read m env) src off :=
  C55_reading_needs_no_seek_partial (d.pipes noSeek_readsAlike false m h) env src ho

/-! ## C59 -/

/-- **C59.** Whatever the definition: `to_writer` and `finalize` on a sink that has been written to before do what they do
on a sink that starts there. -/
theorem C59_programs_write_where_the_sink_stands (m : Machine) (d : Def) (env : Env) (v : Val) (pre : List Byte) (k : Nat)
    (sink : Sink) :
    writeTo ((d.toTy m).write m env v) (sink.after pre k) =
      ((writeTo ((d.toTy m).write m env v) sink).1, (writeTo ((d.toTy m).write m env v) sink).2.after pre k) :=
  C59_writes_where_the_sink_stands pre k (d.unsought (after_writesAlike pre k) m) env v sink

/-- **C59, in part.** `from_reader` on a stream that has been read from before does what it does on a stream that starts
there, for all outcomes, if the paddings are of less than a byte. -/
theorem C59_programs_read_from_where_the_stream_stands_partial (m : Machine) (d : Def) (h : d.unpadded true = true)
    (env : Env) (pre : List Byte) (k : Nat) (src : Src) {off : Nat} (ho : off < 8) :
    fromReaderOn ((d.toTy m).read m env) (src.after pre k) off =
      ((fromReaderOn ((d.toTy m).read m env) src off).1, (fromReaderOn ((d.toTy m).read m env) src off).2.after pre k) :=
  C59_reads_from_where_the_stream_stands_partial pre k (d.pipes (after_readsAlike pre k) true m h) env src ho

/-- **C59.** Whatever the definitions: messages written to one sink in turn are there one after the other, each as
`to_bytes` gives it. -/
theorem C59_programs_write_in_turn (m : Machine) (env : Env) (ms : List (Def × Val)) (outs : List (List Byte))
    (ho : ms.map (fun x => toBytes ((x.1.toTy m).write m env x.2)) = outs.map .ok) :
    ∃ s, writeEach (ms.map fun x => (x.1.toTy m).write m env x.2) {} = (.ok (), s) ∧
      s.data = outs.flatten ∧ s.pos = outs.flatten.length := by
  have := C59_messages_are_written_in_turn m env (ms.map fun x => (x.1.toTy m, x.2)) (by
    intro x hx
    obtain ⟨y, _, rfl⟩ := List.mem_map.1 hx
    exact y.1.toTy_plain m) outs (by rw [List.map_map]; exact ho)
  rw [List.map_map] at this
  exact this

/-- **C59, in part.** Two programs exchange a stream of messages of any number and of any definitions that pass the check
of C61 in one bit order and have no paddings of a byte or more: what one has written in turn the other reads in turn,
whatever follows, and then stands where the messages end. -/
theorem C59_programs_exchange_messages_partial (m : Machine) (o : Order) (env : Env) (ms : List (Def × Val))
    (hd : ∀ x ∈ ms, x.1.valid m.native = true ∧ (x.1.check m.native o (some 0)).isSome = true ∧ x.1.unpadded true = true)
    (hv : ∀ x ∈ ms, x.1.has x.2 = true ∧ x.1.good m env x.2 = true ∧ x.1.refusal m.native env x.2 = none)
    (extra : List Byte) :
    ∃ s s', writeEach (ms.map fun x => (x.1.toTy m).write m env x.2) {} = (.ok (), s) ∧
      readEach (ms.map fun x => (x.1.toTy m).read m env) { data := s.data ++ extra } = (.ok (ms.map (·.2)), s') ∧
      s'.pos = s.data.length := by
  have := C59_stream_round_trip_partial (o := o) m env (ms.map fun x => (x.1.toTy m, x.2)) (by
      intro x hx
      obtain ⟨y, _, rfl⟩ := List.mem_map.1 hx
      exact y.1.toTy_plain m) (by
      intro x hx pre k
      obtain ⟨y, hy, rfl⟩ := List.mem_map.1 hx
      exact y.1.pipes (after_readsAlike pre k) true m (hd y hy).2.2) (by
      intro x hx
      obtain ⟨y, hy, rfl⟩ := List.mem_map.1 hx
      obtain ⟨b, hb⟩ := Option.isSome_iff_exists.1 (hd y hy).2.1
      exact ⟨_, Def.fits m o y.1 (· = 0) (fun _ => True) (some 0) b env y.2 (hd y hy).1 (hv y hy).2.1 hb
        (by rintro _ rfl k hk; cases hk; rfl) fun _ _ => trivial⟩) (by
      intro x hx
      obtain ⟨y, hy, rfl⟩ := List.mem_map.1 hx
      have h := C62_to_bytes_decides m y.1 env y.2 (hd y hy).1 (hv y hy).1
      rw [(hv y hy).2.2] at h
      obtain ⟨out, h, _⟩ := h
      exact ⟨out, h⟩) extra
  simp only [List.map_map] at this
  exact this

/-! ### Examples -/

namespace StreamExample

open Example CoreExample

/-- The record of C61 without its padding and with a list of bytes, ending in the middle of a byte. -/
def event : Def :=
  .struct [] [0xab] (
    .cons { assertEq := some (.lit 3) } (.leaf (some 4) (.uint 1 (.bits 4)))
    (.cons {} (.leaf (some 4) (.uint 1 (.bits 4)))
    (.temp {} (.leaf (some 8) (.uint 1 .unit)) ⟨2, 1⟩
    (.cons {} (.bytes (.field 0) .unit)
    (.cons {} (.leaf none .cstring)
    (.cons {} (.vec false (.count (.lit 1)) kind)
    (.cons { padBefore := some 3 } (.leaf (some 2) (.uint 1 (.bits 2))) .nil)))))))

def eventValue (bs : List Val) : Val :=
  .ofList [.num 3, .num 1, .ofList bs, .ofList [.num 104], .ofList [.variant 0 (.ofList [.num 80])], .num 2]

theorem event_checked :
    event.valid mach.native = true ∧ (event.check mach.native .msb0 (some 0)).isSome = true ∧ event.unpadded true = true ∧
    event.unpadded false = false ∧
    (event.has (eventValue [.num 1, .num 2]) = true ∧ event.good mach {} (eventValue [.num 1, .num 2]) = true ∧
      event.refusal mach.native {} (eventValue [.num 1, .num 2]) = none) ∧
    (event.has (eventValue []) = true ∧ event.good mach {} (eventValue []) = true ∧
      event.refusal mach.native {} (eventValue []) = none) := by
  refine ⟨?_, ?_, ?_, ?_, ⟨?_, ?_, ?_⟩, ?_, ?_, ?_⟩ <;> decide +kernel

example (extra : List Byte) : ∃ s s', writeEach [(event.toTy mach).write mach {} (eventValue [.num 1, .num 2]),
        (event.toTy mach).write mach {} (eventValue [])] {} = (.ok (), s) ∧
      readEach [(event.toTy mach).read mach {}, (event.toTy mach).read mach {}] { data := s.data ++ extra } =
        (.ok [eventValue [.num 1, .num 2], eventValue []], s') ∧ s'.pos = s.data.length := by
  obtain ⟨h1, h2, h3, _, h5, h6⟩ := event_checked
  exact C59_programs_exchange_messages_partial mach .msb0 {} [(event, eventValue [.num 1, .num 2]), (event, eventValue [])]
    (by intro x hx; simp only [List.mem_cons, List.not_mem_nil, or_false] at hx; rcases hx with rfl | rfl <;> exact ⟨h1, h2, h3⟩)
    (by intro x hx; simp only [List.mem_cons, List.not_mem_nil, or_false] at hx; rcases hx with rfl | rfl <;> assumption) extra

/-- What is on the wire. -/
example : toBytes ((event.toTy mach).write mach {} (eventValue [.num 1, .num 2])) =
      .ok [0xab, 0x31, 2, 1, 2, 104, 0, 1, 0, 80, 0x10] ∧
    toBytes ((event.toTy mach).write mach {} (eventValue [])) = .ok [0xab, 0x31, 0, 104, 0, 1, 0, 80, 0x10] := by
  refine ⟨?_, ?_⟩ <;> decide +kernel

/-- The record with its padding is written without seeking. -/
example : (writeTo ((record.toTy mach).write mach {} recordValue) (Sink.noSeek {})).2.data =
    [0xab, 0x31, 2, 0xff, 0xfe, 1, 0x2c, 0, 7, 104, 105, 0, 1, 0, 80, 5, 0xe4] := by
  rw [(C55_programs_write_without_seeking mach record {} recordValue {}).2]
  decide +kernel

example : kind.unpadded false = true ∧
    fromReader ((kind.toTy mach).read mach {}) (Src.noSeek { data := [5, 0xe4] }) 0 =
      .ok (16, .variant 1 (.ofList [.num 5, .num 1, .num 100])) := by
  refine ⟨by decide +kernel, ?_⟩
  rw [C55_programs_read_without_seeking_partial mach kind (by decide +kernel) _ _ (by decide)]
  decide +kernel

end StreamExample

end Deku
