import Verif.Lemmas.Examples
import Verif.Lemmas.Position
import Verif.Props.Chain
import Verif.Props.NoSeek

/-!
# C59: messages in the middle of a stream
-/

namespace Deku

variable {o : Order}

/-- **C59, in part.** `from_reader` on a stream that has been read from before, by anyone, gives what it
gives on a stream that starts there, and leaves the stream in the same place; for every source and fault
schedule, and all outcomes. Not for definitions with `seek_*` or padding of a byte or more. -/
theorem C59_reads_from_where_the_stream_stands_partial {m : Machine} {t : Ty} (pre : List Byte) (k : Nat)
    (ht : t.Pipes (Src.after pre k) true) (env : Env) (src : Src) {off : Nat} (ho : off < 8) :
    fromReaderOn (t.read m env) (src.after pre k) off =
      ((fromReaderOn (t.read m env) src off).1, (fromReaderOn (t.read m env) src off).2.after pre k) :=
  (t.read_onSrc (after_readsAlike pre k) (after_listsAlike pre k) m ht env).fromReaderOn (after_readsAlike pre k) ho src

/-- **C59, in part.** After reading a message, the stream stands right behind the last byte of which a bit
was used. -/
theorem C59_stops_behind_the_message_partial {m : Machine} {t : Ty} (pre : List Byte) (k : Nat)
    (ht : t.Pipes (Src.after pre k) true) (hs : t.Streams true) (env : Env) (data : List Byte) {off : Nat} (ho : off < 8)
    {n : Nat} {v : Val} {s : Src}
    (h : fromReaderOn (t.read m env) (Src.after pre k { data := data }) off = (.ok (n, v), s)) :
    s.data = pre ++ data ∧ s.pos = pre.length + (n + 7) / 8 := by
  rw [C59_reads_from_where_the_stream_stands_partial pre k ht env _ ho] at h
  unfold fromReaderOn at h
  rcases hx : readFrom (t.read m env) off (Reader.new { data := data }) with ⟨x, r⟩
  rw [hx] at h
  obtain _ | _ | _ := x
  · simp only [Prod.mk.injEq, Res.ok.injEq] at h
    obtain ⟨⟨rfl, rfl⟩, rfl⟩ := h
    obtain ⟨hg, hd, _⟩ := readFrom_follows (Ty.follows m t env hs) off _ _ _ (new_good data) hx
    exact ⟨congrArg (pre ++ ·) hd, congrArg (pre.length + ·) hg.pos_eq⟩
  · simp at h
  · simp at h

/-- **C59.** A message that is read but then refused by an assertion has been taken from the stream: it
stands where it would stand after accepting the message, and not where it stood before. For every type,
source and fault schedule. -/
theorem C59_refused_message_is_consumed {m : Machine} {t : Ty} (p : Env → Val → Bool) (src s : Src) (off n : Nat)
    (v : Val) (h : fromReaderOn (t.read m {}) src off = (.ok (n, v), s)) (hp : p {} v = false) :
    fromReaderOn ((Ty.struct (fun _ => []) none [] (.cons { assert := p } t .nil)).read m {}) src off =
      (.err .assertion, s) := by
  have key : ∀ r r', t.read m {} r = (.ok v, r') →
      (Ty.struct (fun _ => []) none [] (.cons { assert := p } t .nil)).read m {} r = (.err .assertion, r') := by
    intro r r' e
    have e1 : Attrs.read { assert := p } m.native (t.read m) {} r = (.err .assertion, r') := by
      simp only [Attrs.read, Attrs.value, Attrs.check, Attrs.applyMap, Attrs.isRead, seekRead, magicRead, padRead,
        M.pure_bind_run, M.get_bind_run]
      show ((t.read m {} >>= fun raw => pure raw) >>= _) r = _
      rw [M.bind_ok (a := v) (s' := r') (by rw [M.bind_ok e]; rfl)]
      show ((if p {} v = false then M.throw .assertion else _) >>= _) r' = _
      rw [if_pos hp]; rfl
    simp only [Ty.read, Fields.read, seekRead, magicRead, M.pure_bind_run]
    rw [M.bind_err e1]
  unfold fromReaderOn at h ⊢
  rcases hx : readFrom (t.read m {}) off (Reader.new src) with ⟨x, r⟩
  rw [hx] at h
  obtain _ | _ | _ := x
  · simp only [Prod.mk.injEq, Res.ok.injEq] at h
    obtain ⟨⟨rfl, rfl⟩, rfl⟩ := h
    have : readFrom ((Ty.struct (fun _ => []) none [] (.cons { assert := p } t .nil)).read m {}) off (Reader.new src) =
        (.err .assertion, r) := by
      unfold readFrom at hx ⊢
      split at hx
      · rename_i ho
        obtain ⟨_, r1, h1, h2⟩ := M.bind_eq_ok hx
        rw [if_pos ho, M.bind_ok h1]
        exact key _ _ h2
      · rename_i ho
        rw [if_neg ho]
        exact key _ _ hx
    rw [this]
  · simp at h
  · simp at h

/-- **C59.** `to_writer` and `finalize` on a sink that has been written to before do what they do on a sink
that starts there: what comes before is left alone. For every sink, capacity and fault schedule. -/
theorem C59_writes_where_the_sink_stands {m : Machine} {t : Ty} (pre : List Byte) (k : Nat)
    (ht : t.Unsought (Sink.after pre k)) (env : Env) (v : Val) (sink : Sink) :
    writeTo (t.write m env v) (sink.after pre k) =
      ((writeTo (t.write m env v) sink).1, (writeTo (t.write m env v) sink).2.after pre k) :=
  Commutes.writeTo (after_writesAlike pre k) (t.write_onSink (after_writesAlike pre k) m ht env v) sink

/-- **C59.** Messages written to the same sink in turn are there one after the other, each as `to_bytes`
gives it. -/
theorem C59_messages_are_written_in_turn (m : Machine) (env : Env) (ms : List (Ty × Val))
    (hp : ∀ x ∈ ms, x.1.Plain) (outs : List (List Byte))
    (ho : ms.map (fun x => toBytes (x.1.write m env x.2)) = outs.map .ok) :
    ∃ s, writeEach (ms.map fun x => x.1.write m env x.2) {} = (.ok (), s) ∧
      s.data = outs.flatten ∧ s.pos = outs.flatten.length := by
  obtain ⟨c, e⟩ := writeEach_eq (gs := ms.map fun x => x.1.write m env x.2) (by
      intro g hg ψ hψ
      obtain ⟨x, hx, rfl⟩ := List.mem_map.1 hg
      exact x.1.write_onSink hψ m (hp x hx ψ hψ) env x.2) (outs := outs) (by rw [List.map_map]; exact ho) [] 0
  exact ⟨_, e, by simp, by simp⟩

/-- **C59, in part.** A stream of messages, of any types, is read back by the same number of `from_reader`
calls on it, whatever follows; a message that does not end on a byte boundary is followed by the next one
at the next byte. -/
theorem C59_messages_are_read_in_turn_partial (m : Machine) (env : Env) (ms : List (Ty × Val))
    (hp : ∀ x ∈ ms, ∀ pre k, x.1.Pipes (Src.after pre k) true)
    (hf : ∀ x ∈ ms, ∃ Q, x.1.Fits m o (· = 0) Q env x.2) (outs : List (List Byte))
    (ho : ms.map (fun x => toBytes (x.1.write m env x.2)) = outs.map .ok) (extra : List Byte) :
    ∃ s, readEach (ms.map fun x => x.1.read m env) { data := outs.flatten ++ extra } =
      (.ok (ms.map (·.2)), s) ∧ s.pos = outs.flatten.length := by
  obtain ⟨c, e⟩ := readEach_eq (o := o) (ms.map fun x => (x.1.read m env, x.1.write m env x.2, x.2)) (by
      intro y hy pre k
      obtain ⟨x, hx, rfl⟩ := List.mem_map.1 hy
      exact x.1.read_onSrc (after_readsAlike pre k) (after_listsAlike pre k) m (hp x hx pre k) env) (by
      intro y hy
      obtain ⟨x, hx, rfl⟩ := List.mem_map.1 hy
      obtain ⟨Q, hq⟩ := hf x hx
      exact ⟨Q, Ty.sound m o _ _ _ _ _ hq⟩) (outs := outs) (by rw [List.map_map]; exact ho) [] extra 0
  simp only [List.map_map] at e
  exact ⟨_, e, by simp⟩

/-- **C59, in part.** Messages written to a sink in turn are read from a stream in turn. -/
theorem C59_stream_round_trip_partial (m : Machine) (env : Env) (ms : List (Ty × Val))
    (hw : ∀ x ∈ ms, x.1.Plain)
    (hp : ∀ x ∈ ms, ∀ pre k, x.1.Pipes (Src.after pre k) true)
    (hf : ∀ x ∈ ms, ∃ Q, x.1.Fits m o (· = 0) Q env x.2)
    (hb : ∀ x ∈ ms, ∃ out, toBytes (x.1.write m env x.2) = .ok out) (extra : List Byte) :
    ∃ s s', writeEach (ms.map fun x => x.1.write m env x.2) {} = (.ok (), s) ∧
      readEach (ms.map fun x => x.1.read m env) { data := s.data ++ extra } = (.ok (ms.map (·.2)), s') ∧
      s'.pos = s.data.length := by
  obtain ⟨outs, ho⟩ : ∃ outs : List (List Byte), ms.map (fun x => toBytes (x.1.write m env x.2)) = outs.map .ok := by
    clear hw hp hf
    induction ms with
    | nil => exact ⟨[], rfl⟩
    | cons x ms ih =>
      obtain ⟨out, h1⟩ := hb x List.mem_cons_self
      obtain ⟨outs, h2⟩ := ih fun y hy => hb y (List.mem_cons_of_mem _ hy)
      exact ⟨out :: outs, by simp [h1, h2]⟩
  obtain ⟨s, e, hd, _⟩ := C59_messages_are_written_in_turn m env ms hw outs ho
  obtain ⟨s', e', hp'⟩ := C59_messages_are_read_in_turn_partial m env ms hp hf outs ho extra
  exact ⟨s, s', e, by rw [hd]; exact e', by rw [hd]; exact hp'⟩

namespace Example

/-- A magic byte, a list and half a byte:
```
#[deku(magic = b"\xAB")]
struct Nibbles {
    count: u8,
    #[deku(count = "count", endian = "big")] items: Vec<u16>,
    #[deku(bits = 4)] last: u8,
}
``` -/
def nibbles : Ty := .struct (fun _ => []) none [0xab] <|
  .cons {} u8T <| .cons {} (.vec 2 (.count (var 0)) u16be) <| .cons {} u4T .nil

def nibblesValue (items : List Int) : Val :=
  .ofList [.num items.length, .ofList (items.map .num), .num 9]

theorem nibbles_pipes (pre : List Byte) (k : Nat) : nibbles.Pipes (Src.after pre k) true :=
  ⟨rfl, ⟨rfl, noPad, noPad⟩, fun _ => uintCodec_read_onSrc (after_readsAlike pre k) .little 1 _,
    ⟨rfl, noPad, noPad⟩, fun _ => uintCodec_read_onSrc (after_readsAlike pre k) .little 2 _,
    ⟨rfl, noPad, noPad⟩, fun _ => uintCodec_read_onSrc (after_readsAlike pre k) .little 1 _, trivial⟩

theorem nibbles_streams {fixed : Bool} : nibbles.Streams fixed := by
  simp only [nibbles, u4T, u8T, u16be, Ty.Streams, Fields.Streams, Attrs.Streams]
  simp [u8_follows, u4_follows, u16_follows]

theorem nibbles_plain : nibbles.Plain := fun _ hψ =>
  ⟨rfl, rfl, fun _ => uintCodec_write_onSink hψ .little 1 _, rfl, fun _ => uintCodec_write_onSink hψ .little 2 _,
    rfl, fun _ => uintCodec_write_onSink hψ .little 1 _, trivial⟩

theorem nibbles_fits (items : List Int) (h : items.length ≤ 1000) :
    nibbles.Fits mach .msb0 (· = 0) any {} (nibblesValue items) := by
  simp only [nibbles, Ty.Fits, Fields.Fits, nibblesValue, Val.ofList]
  refine ⟨trivial, .inr (.inl rfl), _, _, any, rfl, plain (u8_fits any_all), _, _, any, rfl,
    plain ⟨any, fun _ _ => trivial, fun x _ => u16_fits any_all, fun _ _ => trivial, by simp, ?_, ?_,
      fun h => by simp [LimitE.isSize] at h⟩, _, _, any, rfl, plain (u4_fits any_all), fun _ _ => trivial⟩
  · rw [elems_ofList]; simpa [mach] using h
  · simp only [LimitE.Fits, elems_ofList]
    simp [var, Env.push, Env.at]
    omega

/-- Two messages with lists of any length, in each the low four bits of the last byte unused, and something
else behind them. -/
example (a b : List Int) (ha : a.length ≤ 1000) (hb : b.length ≤ 1000) (x y extra : List Byte)
    (hx : toBytes (nibbles.write mach {} (nibblesValue a)) = .ok x)
    (hy : toBytes (nibbles.write mach {} (nibblesValue b)) = .ok y) :
    ∃ s, readEach [nibbles.read mach {}, nibbles.read mach {}] { data := [x, y].flatten ++ extra } =
      (.ok [nibblesValue a, nibblesValue b], s) ∧ s.pos = [x, y].flatten.length :=
  C59_messages_are_read_in_turn_partial mach {} [(nibbles, nibblesValue a), (nibbles, nibblesValue b)]
    (fun x hx pre k => by
      simp only [List.mem_cons, List.not_mem_nil, or_false] at hx
      rcases hx with rfl | rfl <;> exact nibbles_pipes pre k)
    (fun x hx => by
      simp only [List.mem_cons, List.not_mem_nil, or_false] at hx
      rcases hx with rfl | rfl
      · exact ⟨any, nibbles_fits a ha⟩
      · exact ⟨any, nibbles_fits b hb⟩) [x, y] (by simp [hx, hy]) extra

/-- Such messages. -/
example : toBytes (nibbles.write mach {} (nibblesValue [5])) = .ok [0xab, 1, 0, 5, 0x90] ∧
    toBytes (nibbles.write mach {} (nibblesValue [6, 7])) = .ok [0xab, 2, 0, 6, 0, 7, 0x90] := by
  decide +kernel

/-- Both on one sink. -/
example : ∃ s, writeEach [nibbles.write mach {} (nibblesValue [5]), nibbles.write mach {} (nibblesValue [6, 7])] {} =
      (.ok (), s) ∧ s.data = [0xab, 1, 0, 5, 0x90, 0xab, 2, 0, 6, 0, 7, 0x90] ∧ s.pos = 12 :=
  C59_messages_are_written_in_turn mach {} [(nibbles, nibblesValue [5]), (nibbles, nibblesValue [6, 7])]
    (fun x hx => by
      simp only [List.mem_cons, List.not_mem_nil, or_false] at hx
      rcases hx with rfl | rfl <;> exact nibbles_plain)
    [[0xab, 1, 0, 5, 0x90], [0xab, 2, 0, 6, 0, 7, 0x90]] (by decide +kernel)

/-- Behind two other bytes. -/
example (k : Nat) : (fromReaderOn (nibbles.read mach {}) (Src.after [1, 2] k { data := [0xab, 1, 0, 5, 0x90, 3] }) 0).1 =
    .ok (36, nibblesValue [5]) := by
  rw [C59_reads_from_where_the_stream_stands_partial _ _ (nibbles_pipes _ _) _ _ (by decide)]
  show (fromReaderOn (nibbles.read mach {}) { data := [0xab, 1, 0, 5, 0x90, 3] } 0).1 = _
  decide +kernel

example (s : Src) (n : Nat) (v : Val)
    (h : fromReaderOn (nibbles.read mach {}) (Src.after [1, 2] 0 { data := [0xab, 1, 0, 5, 0x90, 3] }) 0 = (.ok (n, v), s)) :
    s.pos = 2 + (n + 7) / 8 :=
  (C59_stops_behind_the_message_partial _ _ (nibbles_pipes _ _) nibbles_streams _ _ (by decide) h).2

example (k : Nat) : (writeTo (nibbles.write mach {} (nibblesValue [5])) (Sink.after [1, 2] k { data := [9, 9, 9, 9, 9, 9] })).2.data =
    [1, 2, 0xab, 1, 0, 5, 0x90, 9] := by
  rw [C59_writes_where_the_sink_stands _ _ (nibbles_plain _ (after_writesAlike _ _))]
  show [1, 2] ++ (writeTo (nibbles.write mach {} (nibblesValue [5])) { data := [9, 9, 9, 9, 9, 9] }).2.data = _
  decide +kernel

/-- A message of two bytes refused: the stream stands behind them. -/
example : (fromReaderOn ((Ty.struct (fun _ => []) none [] (.cons { assert := fun _ v => v == .num 7 } u16be .nil)).read mach {})
    { data := [0, 8, 1, 2, 3] } 0).2.pos = 2 := by
  rw [C59_refused_message_is_consumed _ _ _ _ 16 (.num 8) rfl rfl]
  decide +kernel
/-- `#[deku(pad_bytes_after = "1")] x: u8` -/
def oneAndPad : Ty := .struct (fun _ => []) none [] <| .cons { padAfter := some fun _ => 8 } u8T .nil

/-- `#[deku(bytes_read = "4")] items: Vec<OneAndPad>` -/
def fourBytes : Ty := .struct (fun _ => []) none [] <| .cons {} (.vec 1 (.bytes fun _ => 4) oneAndPad) .nil

end Example

/-- **C59 is false** with padding of a byte. It is skipped by a seek, after which `bits_read` counts from
the start of the stream, not of the message: the number returned is wrong. -/
theorem C59_padding_counts_from_the_start_of_the_stream :
    fromReader (Example.paddedByte.read Example.mach {}) { data := [0, 7] } 0 = .ok (16, .ofList [.num 7]) ∧
    fromReader (Example.paddedByte.read Example.mach {}) { data := [9, 9, 0, 7], pos := 2 } 0 =
      .ok (32, .ofList [.num 7]) := by decide +kernel

/-- **C59 is false**: and then a `bytes_read` limit is reached too early, and another value is returned. -/
theorem C59_padding_ends_lists_early :
    fromReader (Example.fourBytes.read Example.mach {}) { data := [1, 0, 2, 0] } 0 =
      .ok (32, .ofList [.ofList [.ofList [.num 1], .ofList [.num 2]]]) ∧
    fromReader (Example.fourBytes.read Example.mach {}) { data := [9, 9, 1, 0, 2, 0], pos := 2 } 0 =
      .ok (32, .ofList [.ofList [.ofList [.num 1]]]) := by decide +kernel

/-- **C59** needs `finalize`: without it the last bits do not reach the sink. -/
theorem C59_pending_bits_need_finalize :
    (Example.nibbles.write Example.mach {} (Example.nibblesValue [5]) (Writer.new {})).2.inner.data = [0xab, 1, 0, 5] ∧
    (writeTo (Example.nibbles.write Example.mach {} (Example.nibblesValue [5])) {}).2.data = [0xab, 1, 0, 5, 0x90] := by
  decide +kernel

end Deku
