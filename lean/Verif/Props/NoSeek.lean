import Verif.Lemmas.Examples
import Verif.Lemmas.NoSeek

/-!
# C55: formats without `seek_*` attributes work on streams that cannot seek
-/

namespace Deku

/-- **C55, in part.** `from_reader` gives the same on a source wrapped in `NoSeek`, with any faults, for
definitions that also have no `Vec<u8>` with a count and no padding of a byte or more, and an offset
of less than a byte. -/
theorem C55_reading_needs_no_seek_partial {m : Machine} {t : Ty} (ht : t.Pipes Src.noSeek false) (env : Env) (src : Src)
    {off : Nat} (ho : off < 8) :
    fromReader (t.read m env) src.noSeek off = fromReader (t.read m env) src off := by
  have h : readFrom (t.read m env) off (Reader.new src.noSeek) = _ :=
    readFrom_onSrc noSeek_readsAlike (t.read_onSrc noSeek_readsAlike noSeek_listsAlike m ht env) ho (Reader.new src)
  unfold fromReader
  rw [h]
  rcases readFrom (t.read m env) off (Reader.new src) with ⟨_ | _ | _, r⟩ <;> rfl

/-- **C55, in part.** The same in the middle of a message: the result, and where the reader is then. -/
theorem C55_reading_on_needs_no_seek_partial {m : Machine} {t : Ty} (ht : t.Pipes Src.noSeek false) (env : Env) (r : Reader) :
    (t.read m env (r.onSrc Src.noSeek)).1 = (t.read m env r).1 ∧
    (t.read m env (r.onSrc Src.noSeek)).2.bitsRead = (t.read m env r).2.bitsRead ∧
    (t.read m env (r.onSrc Src.noSeek)).2.leftover = (t.read m env r).2.leftover ∧
    (t.read m env (r.onSrc Src.noSeek)).2.inner.pos = (t.read m env r).2.inner.pos := by
  rw [t.read_onSrc noSeek_readsAlike noSeek_listsAlike m ht env r]
  exact ⟨rfl, rfl, rfl, rfl⟩

/-- **C55.** `to_writer` gives the same on a sink wrapped in `NoSeek`, of any capacity and with any
faults: the same result, the same bytes. -/
theorem C55_writing_needs_no_seek {m : Machine} {t : Ty} (ht : t.Unsought Sink.noSeek) (env : Env) (v : Val) (w : Writer) :
    (t.write m env v (w.onSink Sink.noSeek)).1 = (t.write m env v w).1 ∧
    (t.write m env v (w.onSink Sink.noSeek)).2.inner.data = (t.write m env v w).2.inner.data ∧
    (t.write m env v (w.onSink Sink.noSeek)).2.leftover = (t.write m env v w).2.leftover ∧
    (t.write m env v (w.onSink Sink.noSeek)).2.bitsWritten = (t.write m env v w).2.bitsWritten := by
  rw [t.write_onSink noSeek_writesAlike m ht env v w]
  exact ⟨rfl, rfl, rfl, rfl⟩

/-- **C55.** `finalize` does not seek either. -/
theorem C55_finalize_needs_no_seek (w : Writer) :
    (Writer.finalize (w.onSink Sink.noSeek)).1 = (Writer.finalize w).1 ∧
    (Writer.finalize (w.onSink Sink.noSeek)).2.inner.data = (Writer.finalize w).2.inner.data := by
  rw [Writer.finalize_onSink noSeek_writesAlike w]
  exact ⟨rfl, rfl⟩

/-! ### What does seek -/

namespace Example

/-- `#[deku(count = "2")] data: Vec<u8>` -/
def twoBytes : Ty := .struct (fun _ => []) none [] <| .cons {} (.bytes (fun _ => 2) fun _ => .unit) .nil

/-- The same with another element type, `#[deku(count = "2")] data: Vec<i8>` say. -/
def twoElements : Ty := .struct (fun _ => []) none [] <| .cons {} (.vec 1 (.count fun _ => 2) u8T) .nil

/-- `#[deku(pad_bytes_before = "1")] x: u8` -/
def paddedByte : Ty := .struct (fun _ => []) none [] <| .cons { padBefore := some fun _ => 8 } u8T .nil

def threeBytes : Src := { data := [1, 2, 3] }

/-- The packet without its padding. -/
def streamed : Ty := .struct (fun _ => []) none [0xab] <|
  .cons {} u4T <| .cons {} u4T <| .cons {} u8T <| .cons {} (.vec 2 (.count (var 0)) u16be) <|
  .cons { cond := some fun env => decide (var 2 env = 1), default := fun _ => .none } (.option u8T) <|
  .cons { padBefore := some fun _ => 4 } u4T .nil

theorem noPad : ShortPad none := fun _ h => nomatch h

theorem streamed_pipes : streamed.Pipes Src.noSeek false :=
  ⟨rfl, ⟨rfl, noPad, noPad⟩, fun _ => uintCodec_read_onSrc noSeek_readsAlike .little 1 _,
    ⟨rfl, noPad, noPad⟩, fun _ => uintCodec_read_onSrc noSeek_readsAlike .little 1 _,
    ⟨rfl, noPad, noPad⟩, fun _ => uintCodec_read_onSrc noSeek_readsAlike .little 1 _,
    ⟨rfl, noPad, noPad⟩, fun _ => uintCodec_read_onSrc noSeek_readsAlike .little 2 _,
    ⟨rfl, noPad, noPad⟩, fun _ => uintCodec_read_onSrc noSeek_readsAlike .little 1 _,
    ⟨rfl, fun _ h _ => by cases h; show (4 : Int) < 8; decide, noPad⟩, fun _ => uintCodec_read_onSrc noSeek_readsAlike .little 1 _, trivial⟩

theorem packet_unsought : packet.Unsought Sink.noSeek :=
  ⟨rfl, rfl, fun _ => uintCodec_write_onSink noSeek_writesAlike .little 1 _, rfl, fun _ => uintCodec_write_onSink noSeek_writesAlike .little 1 _,
    rfl, fun _ => uintCodec_write_onSink noSeek_writesAlike .little 1 _, rfl, fun _ => uintCodec_write_onSink noSeek_writesAlike .little 2 _,
    rfl, fun _ => uintCodec_write_onSink noSeek_writesAlike .little 1 _, rfl, fun _ => uintCodec_write_onSink noSeek_writesAlike .little 1 _, trivial⟩

example : fromReader (streamed.read mach {}) (Src.noSeek { data := [0xab, 0x30, 1, 0x12, 0x34, 9] }) 0 =
    .ok (48, packetValue [0x1234] .none) := by
  rw [C55_reading_needs_no_seek_partial streamed_pipes _ _ (by decide)]
  decide +kernel

example : (packet.write mach {} (packetValue [0x1234] .none) ((Writer.new {}).onSink Sink.noSeek)).2.inner.data =
    [0xab, 0x30, 1, 0x12, 0x34, 0, 9] := by
  rw [(C55_writing_needs_no_seek packet_unsought _ _ _).2.1]
  decide +kernel

example : (Writer.finalize (Writer.onSink Sink.noSeek { inner := {}, leftover := [true] })).2.inner.data = [0x80] := by
  rw [(C55_finalize_needs_no_seek _).2]
  decide +kernel

end Example

/-- **C55 is false** for `Vec<u8>` with a count: `ReadExact` seeks to the end to see whether there is
enough, which fails, though everything is there. -/
theorem C55_byte_list_seeks :
    fromReader (Example.twoBytes.read Example.mach {}) Example.threeBytes 0 = .ok (16, .ofList [.ofList [.num 1, .num 2]]) ∧
    fromReader (Example.twoBytes.read Example.mach {}) Example.threeBytes.noSeek 0 = .err (.io (.other 0)) ∧
    fromReader (Example.twoElements.read Example.mach {}) Example.threeBytes.noSeek 0 =
      .ok (16, .ofList [.ofList [.num 1, .num 2]]) := by decide +kernel

/-- **C55 is false** for padding of a byte: it is skipped by a seek. -/
theorem C55_padding_seeks :
    fromReader (Example.paddedByte.read Example.mach {}) Example.threeBytes 0 = .ok (16, .ofList [.num 2]) ∧
    fromReader (Example.paddedByte.read Example.mach {}) Example.threeBytes.noSeek 0 = .err (.io (.other 0)) := by
  decide +kernel

/-- **C55 is false** for an offset of a byte. -/
theorem C55_offset_seeks :
    fromReader (Example.u8T.read Example.mach {}) Example.threeBytes 8 = .ok (16, .num 2) ∧
    fromReader (Example.u8T.read Example.mach {}) Example.threeBytes.noSeek 8 = .err (.io (.other 0)) := by
  decide +kernel

end Deku
