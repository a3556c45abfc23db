import Verif.Lemmas.SharedStruct
import Verif.Props.Truncate

/-!
# Properties of structs whose fields share bytes: C114
-/

namespace Deku

open HeadSlot

/-- **C114.** A derived struct whose fields are integers of whole bytes and pairs of fields in different bit orders that share a byte:
every value is written with the Msb0 field in the upper part of a shared byte, and `from_bytes` gives it back, with the bytes that
come after it as the rest. -/
theorem C114_a_struct_comes_back (m : Machine) (env : Env) (ss : List HeadSlot) (h : ∀ s ∈ ss, s.Fits m.native) :
    ∃ out, toBytes ((intStruct m.native (headKinds ss)).write m env (intValue (headValues ss))) = .ok out ∧
      bytesBits out = ss.flatMap (bits m.native) ∧
      ∀ more, fromBytes ((intStruct m.native (headKinds ss)).read m env) (out ++ more) 0 = .ok ((more, 0), intValue (headValues ss)) := by
  obtain ⟨out, _, h1, h2, _⟩ := C113_integers_share_bytes m.native ss h
  refine ⟨out, ?_, h2, fun more => ?_⟩
  · rw [headKinds, headValues, intStruct_write m _ ?_ env]
    · exact h1
    · intro f hf
      obtain ⟨s, hs, hf⟩ := List.mem_flatMap.1 hf
      exact (h s hs).small f hf
  · obtain ⟨r, e, _, b, _⟩ := reads_slots m.native (bytesBits more) (by simp [length_bytesBits]) ss h (Reader.new_at (out ++ more)).live ((unread_new .msb0 (out ++ more)).trans (by
        show bytesBits (out ++ more) = _
        rw [bytesBits_append, h2]))
    have hl : r.bitsRead = 8 * out.length := by
      rw [b, ← length_all m.native ss h, ← h2, length_bytesBits]; simp [Reader.new]
    refine fromBytes_ok_iff.2 ⟨r, ?_, ?_, ?_, ?_⟩
    · rw [readFrom_zero, headKinds, headValues, intStruct_read, M.bind_ok e]; rfl
    · rw [hl, List.length_append]; omega
    · rw [hl, show 8 * out.length / 8 = out.length by omega, List.drop_left]
    · omega

/-- **C114.** Every input of the right length is a value of the struct, and is written again as it was. -/
theorem C114_every_input_is_a_value (m : Machine) (env : Env) (ss : List HeadSlot) (h : ∀ s ∈ ss, s.Fits m.native) (data : List Byte)
    (hd : 8 * data.length = ((ss.flatMap fields).map (IntField.size m.native)).sum) :
    ∃ v, (∀ more, fromBytes ((intStruct m.native (headKinds ss)).read m env) (data ++ more) 0 = .ok ((more, 0), v)) ∧
      toBytes ((intStruct m.native (headKinds ss)).write m env v) = .ok data := by
  obtain ⟨ss', h', hk, hb⟩ := covers m.native ss h (bytesBits data) (by rw [length_bytesBits, hd, length_all m.native ss h])
  obtain ⟨out, h1, h2, h3⟩ := C114_a_struct_comes_back m env ss' h'
  have : out = data := bytesBits_inj (h2.trans hb)
  subst this
  rw [hk] at h1 h3
  exact ⟨_, h3, h1⟩

theorem intFields_cuttable (native : Endian) : ∀ ts, (intFields native ts).Cuttable false
  | [] => trivial
  | _ :: ts => ⟨⟨rfl, fun h => nomatch h⟩, fun _ => uintCodec_notices _ _ _, intFields_cuttable native ts⟩

/-- **C114.** Any shorter input is reported as incomplete: with the theorem before this is what `from_bytes` does on every input. -/
theorem C114_any_shorter_input_is_incomplete (m : Machine) (env : Env) (ss : List HeadSlot) (h : ∀ s ∈ ss, s.Fits m.native) (data : List Byte)
    (hd : 8 * data.length < ((ss.flatMap fields).map (IntField.size m.native)).sum) :
    ∃ n, fromBytes ((intStruct m.native (headKinds ss)).read m env) data 0 = .err (.incomplete n) := by
  have h8 := length_bits m.native ss h
  rw [length_all m.native ss h] at h8
  let k := ((ss.flatMap fields).map (IntField.size m.native)).sum / 8 - data.length
  obtain ⟨v, hv, _⟩ := C114_every_input_is_a_value m env ss h (data ++ List.replicate k 0) (by
    rw [List.length_append, List.length_replicate]; simp only [k]; omega)
  have hv := hv []
  rw [List.append_nil] at hv
  exact C56_missing_bytes_partial (inside := false) (t := intStruct m.native (headKinds ss)) ⟨rfl, intFields_cuttable _ _⟩ env data _
    (fun h => nomatch h) (fun h => nomatch h) hv (by simp only [List.length_nil, List.length_replicate, k]; omega)

example (env : Env) (a b c d e : Nat) (ha : a < 8) (hb : b < 32) (hc : c < 2 ^ 32) (hd : d < 2) (he : e < 128) :
    ∃ out, toBytes ((intStruct .little [(1, .bitsOrder 3 .lsb0), (2, .endianBitsOrder .big 5 .msb0), (4, .endian .big), (1, .bits 1),
      (4, .endianBitsOrder .little 7 .lsb0)]).write ⟨.little, 1000⟩ env (intValue [a, b, c, d, e])) = .ok out ∧
      bytesBits out = (someHeader a b c d e).flatMap (bits .little) := by
  obtain ⟨out, h1, h2, _⟩ := C114_a_struct_comes_back ⟨.little, 1000⟩ env (someHeader a b c d e) (by
    simp [someHeader, Fits, IntField.size, IntCtx.shape, IntCtx.isBits, Order.opposite]
    omega)
  exact ⟨out, h1, h2⟩

/-- The same struct reads all inputs of six bytes. -/
example (env : Env) (b0 b1 b2 b3 b4 b5 : Byte) :
    ∃ v, fromBytes ((intStruct .little (headKinds (someHeader 0 0 0 0 0))).read ⟨.little, 1000⟩ env) [b0, b1, b2, b3, b4, b5] 0 = .ok (([], 0), v) ∧
      toBytes ((intStruct .little (headKinds (someHeader 0 0 0 0 0))).write ⟨.little, 1000⟩ env v) = .ok [b0, b1, b2, b3, b4, b5] := by
  obtain ⟨v, h1, h2⟩ := C114_every_input_is_a_value ⟨.little, 1000⟩ env (someHeader 0 0 0 0 0) (by
    simp [someHeader, Fits, IntField.size, IntCtx.shape, IntCtx.isBits, Order.opposite]) [b0, b1, b2, b3, b4, b5] (by
    simp [someHeader, fields, IntField.size, IntCtx.shape])
  exact ⟨v, h1 [], h2⟩

end Deku
