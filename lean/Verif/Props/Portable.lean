import Verif.Lemmas.PortableTypes
import Verif.Props.Source

/-!
# Properties of machines: C81

The endianness of the machine is used for integers that are given none. Sources in which only integers of one byte are
given none (`Spec/Portable.lean`) mean the same on every machine.
-/

namespace Deku

/-! ## C81 -/

/-- **C81.** Little and big endian machines read alike: the same function of the context and of the reader, whatever the
source of the data does, with the same errors, the same bits consumed and the same reader afterwards. -/
theorem C81_machines_read_alike_partial (t : STy) (ht : t.Portable) (d : Def) (hd : t.compile = some d) (e e' : Endian)
    (mem : Nat) : (d.toTy ⟨e, mem⟩).read ⟨e, mem⟩ = (d.toTy ⟨e', mem⟩).read ⟨e', mem⟩ :=
  Def.read_portable (m := ⟨e, mem⟩) (m' := ⟨e', mem⟩) rfl d (STy.compile_portable ht hd)

/-- **C81.** They write alike, whatever the sink does. -/
theorem C81_machines_write_alike_partial (t : STy) (ht : t.Portable) (d : Def) (hd : t.compile = some d) (e e' : Endian)
    (mem : Nat) : (d.toTy ⟨e, mem⟩).write ⟨e, mem⟩ = (d.toTy ⟨e', mem⟩).write ⟨e', mem⟩ :=
  Def.write_portable (m := ⟨e, mem⟩) (m' := ⟨e', mem⟩) rfl d (STy.compile_portable ht hd)

/-- **C81.** Integers alone: of one byte, with any context but that of a signed integer with `bits` and `bit_order`, or of
any size with an endianness. -/
theorem C81_integers_partial (W : Nat) (ctx : IntCtx) (e e' : Endian) :
    (W = 1 ∨ (∃ x, ctx = .endian x) ∨ (∃ x n, ctx = .endianBits x n) ∨ (∃ x n, ctx = .endianBytes x n) →
      Prim.readUnsigned e W ctx = Prim.readUnsigned e' W ctx ∧ Prim.readSigned e W ctx = Prim.readSigned e' W ctx ∧
      Prim.writeUnsigned e W ctx = Prim.writeUnsigned e' W ctx ∧
      ((∀ n o, ctx ≠ .bitsOrder n o) → Prim.writeSigned e W ctx = Prim.writeSigned e' W ctx)) := by
  intro h
  rcases h with rfl | h
  · refine ⟨Prim.readUnsigned_one ctx e e', Prim.readSigned_one ctx e e', Prim.writeUnsigned_one ctx e e', fun hc => ?_⟩
    refine Prim.writeSigned_one ctx ?_ e e'
    cases ctx <;> first | rfl | exact absurd rfl (hc _ _)
  · have hg : ctx.given = true := by
      rcases h with ⟨x, rfl⟩ | ⟨x, n, rfl⟩ | ⟨x, n, rfl⟩ <;> rfl
    exact ⟨readUnsigned_given hg W e e', readSigned_given hg W e e', writeUnsigned_given hg W e e',
      fun _ => writeSigned_given hg W e e'⟩

/-- **C81.** What a machine writes, every other machine reads back: for sources in bytes without assertions (C69). -/
theorem C81_messages_travel_partial (t : STy) (ht : t.Portable) (hp : t.plain ⟨true, true⟩ = true) (d : Def)
    (hd : t.compile = some d) (e : Endian) (mem : Nat) (hv : d.valid e = true) (env : Env) (v : Val)
    (hh : d.has v = true) (hg : d.good ⟨e, mem⟩ env v = true) :
    ∃ out, ∀ e₁ e₂, toBytes ((d.toTy ⟨e₁, mem⟩).write ⟨e₁, mem⟩ env v) = .ok out ∧
      ∀ extra, fromBytes ((d.toTy ⟨e₂, mem⟩).read ⟨e₂, mem⟩ env) (out ++ extra) 0 = .ok ((extra, 0), v) := by
  obtain ⟨out, h1, h2⟩ := C69_consistent_values_round_trip ⟨e, mem⟩ t d hp hd hv env v hh hg
  refine ⟨out, fun e₁ e₂ => ⟨?_, fun extra => ?_⟩⟩
  · rw [C81_machines_write_alike_partial t ht d hd e₁ e mem]; exact h1
  · rw [C81_machines_read_alike_partial t ht d hd e₂ e mem]; exact h2 extra

/-! ### Examples -/

namespace PortableExample

open Example SourceExample

/-- Integers of all kinds, a stored id with `id_endian`, and bits. -/
def mixed : STy := .struct { endian := some (.lit .little), magic := [0x7f] }
  (.cons { bits := some 3 } (.base (.uint 1))
  (.cons { bits := some 13, endian := some (.lit .big) } (.base (.sint 2))
  (.cons {} (.enum { params := [.endian] } (.typed 2 (some (.lit .big)) none none)
    (.cons { kind := .any } (.cons {} (.base (.uint 2)) (.cons {} (.base (.sint 1)) .nil)) .nil)) .nil)))

def mixedValue : Val :=
  .ofList [.num 5, .num (-1234), .variant 0 (.ofList [.num 0x1234, .num (-1)])]

example : message.Portable ∧ mixed.Portable := by decide +kernel

def big : Machine := ⟨.big, 1000⟩

example : (mixed.compile.map fun d => toBytes ((d.toTy mach).write mach {} mixedValue)) =
      some (.ok [0x7f, 0xbb, 0x2e, 0x12, 0x34, 0xff]) ∧
    (mixed.compile.map fun d => toBytes ((d.toTy big).write big {} mixedValue)) =
      some (.ok [0x7f, 0xbb, 0x2e, 0x12, 0x34, 0xff]) := by
  refine ⟨?_, ?_⟩ <;> decide +kernel

example : ∃ d out, message.compile = some d ∧
    ∀ e₁ e₂, toBytes ((d.toTy ⟨e₁, 1000⟩).write ⟨e₁, 1000⟩ {} messageValue) = .ok out ∧
      ∀ extra, fromBytes ((d.toTy ⟨e₂, 1000⟩).read ⟨e₂, 1000⟩ {}) (out ++ extra) 0 = .ok ((extra, 0), messageValue) := by
  obtain ⟨h1, _, h2⟩ := message_checked
  cases hd : message.compile with
  | none => rw [hd] at h2; cases h2
  | some d =>
    rw [hd] at h2
    simp only [Option.map_some, Option.some.injEq, Prod.mk.injEq] at h2
    obtain ⟨out, h⟩ := C81_messages_travel_partial message (by decide +kernel) h1 d hd .little 1000 h2.1 {} messageValue
      h2.2.1 h2.2.2.1
    exact ⟨d, out, rfl, h⟩

/-- ```
#[deku(id_type = "u16", endian = "big")]
enum Stored { #[deku(id_pat = "_")] Other(u16) }
``` -/
def stored : STy := .enum { endian := some (.lit .big) } (.typed 2 none none none)
  (.cons { kind := .any } (.cons {} (.base (.uint 2)) .nil) .nil)

/-- `#[deku(bits = 0, bit_order = "msb")] a: i8` -/
def empty : STy := .struct {} (.cons { bits := some 0, order := some (.lit .msb0) } (.base (.sint 1)) .nil)

end PortableExample

open Example SourceExample PortableExample

/-- **C81** is not about integers of several bytes that are given no endianness. -/
theorem C81_integers_without_endianness_differ :
    ¬ (STy.struct {} (.cons {} u16 .nil)).Portable ∧
    ((STy.struct {} (.cons {} u16 .nil)).compile.map fun d => toBytes ((d.toTy mach).write mach {} (.ofList [.num 1]))) =
      some (.ok [1, 0]) ∧
    ((STy.struct {} (.cons {} u16 .nil)).compile.map fun d => toBytes ((d.toTy big).write big {} (.ofList [.num 1]))) =
      some (.ok [0, 1]) := by
  refine ⟨?_, ?_, ?_⟩ <;> decide +kernel

/-- **C81 is false** of an enum that is given an endianness and stores its id in a field: what was parsed is written as
it was on a big endian machine, and with its bytes swapped on a little endian one. -/
theorem C81_stored_ids_differ :
    (stored.compile.map fun d => fromBytes ((d.toTy mach).read mach {}) [0x12, 0x34] 0) =
      some (.ok (([], 0), .variant 0 (.ofList [.num 0x1234]))) ∧
    (stored.compile.map fun d => toBytes ((d.toTy big).write big {} (.variant 0 (.ofList [.num 0x1234])))) =
      some (.ok [0x12, 0x34]) ∧
    (stored.compile.map fun d => toBytes ((d.toTy mach).write mach {} (.variant 0 (.ofList [.num 0x1234])))) =
      some (.ok [0x34, 0x12]) := by
  refine ⟨?_, ?_, ?_⟩ <;> decide +kernel

/-- **C81 is false** of an `i8` with `bits` and `bit_order` and without an endianness: with 0 bits, a big endian machine
panics and a little endian one writes nothing. -/
theorem C81_empty_signed_fields_differ :
    (PortableExample.empty.compile.map fun d => toBytes ((d.toTy mach).write mach {} (.ofList [.num 0]))) =
      some (.ok []) ∧
    (PortableExample.empty.compile.map fun d => toBytes ((d.toTy big).write big {} (.ofList [.num 0]))) =
      some .panic := by
  refine ⟨?_, ?_⟩ <;> decide +kernel

end Deku
