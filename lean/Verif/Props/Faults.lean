import Verif.Lemmas.Faults

/-!
# C08: source errors are reported

The source is arbitrary: any contents, any position, any schedule of failing calls.
-/

namespace Deku

open Reader

/-- **C08**, for integer reads of at most 64 bits, for bit reads that stay within the pending bits
and one further partial byte, and for byte reads on an aligned reader or after `end()` (or of at
most one byte at any alignment). Missing: bit reads that take whole bytes from the source and
`end()`, where it is false (`C08_bit_read_swallows_error`, `C08_end_swallows_error`). -/
theorem C08_source_errors_reported_partial (r : Reader) :
    (∀ n, Reports r (readBitsUintMsb0 n)) ∧
    (∀ n o, n < r.rest.length + 8 → Reports r (readBits n o)) ∧
    (∀ n o, (∀ l, r.leftover = some (.bits l) → 8 * n < l.length + 8) →
      Reports r (readBytes n o) ∧ Reports r (readBytesConst n o) ∧
      Reports r (readBytesConstInto n o)) :=
  ⟨fun n => uint_reports n r, fun n o h => readBitsInto_reports n o r h,
    fun n o h => ⟨readBytes_reports n o r h, readBytes_reports n o r h, readBytes_reports n o r h⟩⟩

/-- A schedule under which the second call fails with kind `other 5`. -/
def secondCallFails : Faults := { fails := fun i => if i = 1 then some (0, .other 5) else none }

/-- Reading a 20 bit integer through the accumulator meets the failing call and reports it. -/
example : (readBitsUintMsb0 20 (Reader.new { data := [1#8, 2#8, 3#8], faults := secondCallFails })).1 =
    .err (.io (.other 5)) := by decide

/-- **C08 is false for bit reads of whole bytes**: `read_bits(24)` returns `Ok` with eight made-up
zero bits although the second read call failed with kind `other 5`. -/
theorem C08_bit_read_swallows_error :
    (readBits 24 .msb0 (Reader.new { data := [0xFF#8, 0xFF#8, 0xFF#8], faults := secondCallFails })).1 =
      .ok (byteBits 0xFF#8 ++ byteBits 0#8 ++ byteBits 0xFF#8) := by decide

/-- so byte reads in the middle of a byte return made-up data as well. -/
theorem C08_unaligned_byte_read_swallows_error :
    ((do let _ ← readBits 4 .msb0; readBytes 2 .msb0 : M Reader (List Byte))
      (Reader.new { data := [0xFF#8, 0xFF#8, 0xFF#8], faults := secondCallFails })).1 =
      .ok [0xF0#8, 0x0F#8] := by decide

/-- **C08 is false for `end()`**: an error is turned into a byte 0 that later reads return. -/
theorem C08_end_swallows_error :
    ((do let _ ← Reader.end; readBytes 1 .msb0 : M Reader (List Byte))
      (Reader.new { data := [0xFF#8], faults := { fails := fun i => if i = 0 then some (0, .other 5) else none } })).1 =
      .ok [0#8] := by decide

end Deku
