import Verif.Lemmas.ConsistentTypes
import Verif.Props.Wire

/-!
# Properties of the values that a source describes: C75

Which values a source describes (`Spec/Consistent.lean`) and what their bits are (`Spec/Wire.lean`) is computed from the
attributes alone. These values are written, as described, and parsed from what is described.
-/

namespace Deku

/-! ## C75 -/

/-- **C75.** A value that the source describes is written, as described, filled up with zeros. -/
theorem C75_consistent_values_are_written_as_described (m : Machine) (t : STy) (d : Def) (o : Order)
    (ht : t.ordered o m.native [] = true) (hi : t.idsNamed = true) (hz : t.sized [] = true) (hd : t.compile = some d)
    (env : Env) (v : Val) (hc : t.consistent o m [] [] env v = true) (ha : t.aligned o m.native env v = true) :
    ∃ out, toBytes ((d.toTy m).write m env v) = .ok out ∧ Packed o out (t.described o m.native env v) :=
  (STy.carries m t none [] [] d ht hi hz hd nofun env env (Env.Same.refl env) v hc 0 ha).1.toBytes

/-- **C75.** It is parsed from any data that starts with what is described, and exactly these bits are consumed. -/
theorem C75_consistent_values_are_parsed_as_described (m : Machine) (t : STy) (d : Def) (o : Order)
    (ht : t.ordered o m.native [] = true) (hi : t.idsNamed = true) (hz : t.sized [] = true) (hd : t.compile = some d)
    (env : Env) (v : Val) (hc : t.consistent o m [] [] env v = true) (ha : t.aligned o m.native env v = true)
    (data : List Byte) (rest : List Bool) (hb : orderBits o data = t.described o m.native env v ++ rest) :
    fromBytes ((d.toTy m).read m env) data 0 =
      .ok ((data.drop ((t.described o m.native env v).length / 8), (t.described o m.native env v).length % 8), v) :=
  (STy.carries m t none [] [] d ht hi hz hd nofun env env (Env.Same.refl env) v hc 0 ha).2.parses hb

/-- **C75.** A value that the source describes survives the round trip, whatever follows in whole bytes. -/
theorem C75_consistent_values_round_trip (m : Machine) (t : STy) (d : Def) (o : Order)
    (ht : t.ordered o m.native [] = true) (hi : t.idsNamed = true) (hz : t.sized [] = true) (hd : t.compile = some d)
    (env : Env) (v : Val) (hc : t.consistent o m [] [] env v = true) (ha : t.aligned o m.native env v = true) :
    ∃ out, toBytes ((d.toTy m).write m env v) = .ok out ∧ ∀ extra, ∃ rest,
      fromBytes ((d.toTy m).read m env) (out ++ extra) 0 = .ok (rest, v) := by
  obtain ⟨out, h1, h2⟩ := C75_consistent_values_are_written_as_described m t d o ht hi hz hd env v hc ha
  refine ⟨out, h1, fun extra => ⟨_, C75_consistent_values_are_parsed_as_described m t d o ht hi hz hd env v hc ha _
    (List.replicate ((8 - (t.described o m.native env v).length % 8) % 8) false ++ orderBits o extra) ?_⟩⟩
  rw [orderBits_append, h2, List.append_assoc]

/-- **C75.** Two values that the source describes, one of which starts with the bits of the other, are the same. -/
theorem C75_consistent_values_are_told_apart (m : Machine) (t : STy) (d : Def) (o : Order)
    (ht : t.ordered o m.native [] = true) (hi : t.idsNamed = true) (hz : t.sized [] = true) (hd : t.compile = some d)
    (env : Env) (v w : Val) (hv : t.consistent o m [] [] env v = true ∧ t.aligned o m.native env v = true)
    (hw : t.consistent o m [] [] env w = true ∧ t.aligned o m.native env w = true)
    (h : t.described o m.native env v <+: t.described o m.native env w) : v = w := by
  obtain ⟨rest, hrest⟩ := h
  obtain ⟨out, _, hp⟩ := C75_consistent_values_are_written_as_described m t d o ht hi hz hd env w hw.1 hw.2
  unfold Packed at hp
  have h1 := C75_consistent_values_are_parsed_as_described m t d o ht hi hz hd env w hw.1 hw.2 out _ hp
  rw [← hrest, List.append_assoc] at hp
  have h2 := C75_consistent_values_are_parsed_as_described m t d o ht hi hz hd env v hv.1 hv.2 out _ hp
  rw [h1] at h2
  simp only [Res.ok.injEq, Prod.mk.injEq] at h2
  exact h2.2.symm

/-! ### Examples -/

open Example SourceExample

/-- The messages and bit fields of C69 and C74 are described. -/
theorem SourceExample.consistent_values :
    message.consistent .msb0 mach [] [] {} messageValue = true ∧ message.aligned .msb0 .little {} messageValue = true ∧
    bits.consistent .msb0 mach [] [] {} (.ofList [.num 2, .ofList [.num 31, .num 1], .num 258]) = true ∧
    lsb.consistent .lsb0 mach [] [] {} lsbValue = true ∧ lsb.aligned .lsb0 .little {} lsbValue = true := by
  decide +kernel

/-- ```
#[deku(bit_order = "lsb")]
struct Mixed {
    #[deku(bits = 4)] a: u8,
    #[deku(bits = 4)] b: i8,
    #[deku(bit_order = "msb", endian = "big", assert_eq = "258")] c: u16,
    #[deku(skip, cond = "*a == 3", default = "77")] d: u8,
    #[deku(until = "|x| *x == 0")] e: Vec<u8>,
    #[deku(bytes_read = "*a")] f: Vec<u16>,
    #[deku(skip)] g: (u8, Option<u8>),
}
``` -/
def SourceExample.mixed : STy :=
  .struct { order := some (.lit .lsb0) }
    (.cons { bits := some 4 } u8 (.cons { bits := some 4 } (.base (.sint 1))
    (.cons { order := some (.lit .msb0), endian := some (.lit .big), assertEq := some (.lit 258) } u16
    (.cons { skip := some .all, cond := some (.eq (.field 2) (.lit 3)), default := some (.num 77) } u8
    (.cons { untilEq := some 0 } (.vec false u8)
    (.cons { bytesRead := some (.field 4) } (.vec false u16)
    (.cons { skip := some .all } (.pair u8 (.option u8)) .nil)))))))

def SourceExample.mixedValue (b : Int) (d : Int) : Val :=
  .ofList [.num 4, .num b, .num 258, .num d, .ofList [.num 5, .num 0], .ofList [.num 1, .num 2], .ofList [.num 0, .none]]

theorem SourceExample.mixed_checked :
    mixed.ordered .lsb0 .little [] = true ∧ mixed.idsNamed = true ∧ mixed.sized [] = true ∧
    mixed.compile.isSome = true ∧ mixed.consistent .lsb0 mach [] [] {} (mixedValue 7 9) = true ∧
    mixed.aligned .lsb0 .little {} (mixedValue 7 9) = true ∧
    mixed.described .lsb0 .little {} (mixedValue 7 9) = orderBits .lsb0 [0x74, 1, 2, 9, 5, 0, 1, 0, 2, 0] ∧
    mixed.consistent .lsb0 mach [] [] {} (mixedValue (-3) 9) = false := by
  decide +kernel

example : ∃ d, mixed.compile = some d ∧
    (∃ out, toBytes ((d.toTy mach).write mach {} (mixedValue 7 9)) = .ok out ∧
      Packed .lsb0 out (mixed.described .lsb0 .little {} (mixedValue 7 9))) ∧
    fromBytes ((d.toTy mach).read mach {}) ([0x74, 1, 2, 9, 5, 0, 1, 0, 2, 0] ++ [99]) 0 =
      .ok (([99], 0), mixedValue 7 9) := by
  obtain ⟨h1, h2, h3, h4, h5, h6, h7, _⟩ := mixed_checked
  obtain ⟨d, hd⟩ := Option.isSome_iff_exists.1 h4
  refine ⟨d, hd, C75_consistent_values_are_written_as_described mach mixed d .lsb0 h1 h2 h3 hd {} _ h5 h6, ?_⟩
  have := C75_consistent_values_are_parsed_as_described mach mixed d .lsb0 h1 h2 h3 hd {} _ h5 h6
    ([0x74, 1, 2, 9, 5, 0, 1, 0, 2, 0] ++ [99]) (orderBits .lsb0 [99])
    (by rw [show mach.native = .little from rfl, h7]; decide +kernel)
  rw [show mach.native = .little from rfl, h7] at this
  exact this

/-- **C75** needs `aligned`: a `Vec<u8>` with a `count`, and an integer of the other bit order, behind 4 bits. Both are
written as described and parsed as something else. -/
theorem C75_misaligned_values_do_not_come_back :
    (let t : STy := .struct {} (.cons { bits := some 4 } u8 (.cons { count := some (.lit 2) } (.vec false u8)
        (.cons { bits := some 4 } u8 .nil)))
     let v := Val.ofList [.num 1, .ofList [.num 0x23, .num 0x45], .num 6]
     t.ordered .msb0 .little [] = true ∧ t.idsNamed = true ∧ t.sized [] = true ∧
     t.consistent .msb0 mach [] [] {} v = true ∧ t.aligned .msb0 .little {} v = false ∧
     t.described .msb0 .little {} v = bytesBits [0x12, 0x34, 0x56] ∧
     (t.compile.map fun d => (toBytes ((d.toTy mach).write mach {} v),
       fromBytes ((d.toTy mach).read mach {}) [0x12, 0x34, 0x56] 0)) = some (.ok [0x12, 0x34, 0x56],
         .ok (([], 0), .ofList [.num 1, .ofList [.num 0x42, .num 0x63], .num 5]))) ∧
    (let t : STy := .struct {} (.cons { bits := some 4 } u8 (.cons { order := some (.lit .lsb0) } u8
        (.cons { bits := some 4 } u8 .nil)))
     let v := Val.ofList [.num 1, .num 0x23, .num 6]
     t.ordered .msb0 .little [] = true ∧ t.idsNamed = true ∧ t.sized [] = true ∧
     t.consistent .msb0 mach [] [] {} v = true ∧ t.aligned .msb0 .little {} v = false ∧
     t.described .msb0 .little {} v = bytesBits [0x12, 0x36] ∧
     (t.compile.map fun d => (toBytes ((d.toTy mach).write mach {} v),
       fromBytes ((d.toTy mach).read mach {}) [0x12, 0x36] 0)) = some (.ok [0x12, 0x36],
         .ok (([], 0), .ofList [.num 1, .num 0x62, .num 3]))) := by
  constructor <;> refine ⟨?_, ?_, ?_, ?_, ?_, ?_, ?_⟩ <;> decide +kernel

/-- **C75** needs `consistent`: negative numbers in `bits` with a `bit_order` are parsed and not written, in `bytes`
less than the type they are written and lose their sign; a list that does not have the length that its `count` says; a
field that is skipped and has not its default value; an id of a variant that is not selected by it. -/
theorem C75_inconsistent_values_do_not_come_back :
    (let t : STy := .struct { order := some (.lit .lsb0) } (.cons { bits := some 8 } (.base (.sint 2)) .nil)
     t.consistent .lsb0 mach [] [] {} (.ofList [.num (-3)]) = false ∧
     (t.compile.map fun d => (toBytes ((d.toTy mach).write mach {} (.ofList [.num (-3)])))) =
       some (.err .invalidParam)) ∧
    (let t : STy := .struct {} (.cons { bytes := some 1 } (.base (.sint 2)) .nil)
     t.consistent .msb0 mach [] [] {} (.ofList [.num (-3)]) = false ∧
     (t.compile.map fun d => (toBytes ((d.toTy mach).write mach {} (.ofList [.num (-3)])),
       fromBytes ((d.toTy mach).read mach {}) [0xfd] 0)) = some (.ok [0xfd], .ok (([], 0), .ofList [.num 0xfd]))) ∧
    (let t : STy := .struct {} (.cons { count := some (.lit 1) } (.vec false u8) .nil)
     t.consistent .msb0 mach [] [] {} (.ofList [.ofList [.num 1, .num 2]]) = false ∧
     (t.compile.map fun d => (toBytes ((d.toTy mach).write mach {} (.ofList [.ofList [.num 1, .num 2]])),
       fromBytes ((d.toTy mach).read mach {}) [1, 2] 0)) = some (.ok [1, 2], .ok (([2], 0), .ofList [.ofList [.num 1]]))) ∧
    (let t : STy := .struct {} (.cons { skip := some .all } u8 .nil)
     t.consistent .msb0 mach [] [] {} (.ofList [.num 5]) = false ∧
     (t.compile.map fun d => (toBytes ((d.toTy mach).write mach {} (.ofList [.num 5])),
       fromBytes ((d.toTy mach).read mach {}) [] 0)) = some (.ok [], .ok (([], 0), .ofList [.num 0]))) ∧
    (let t : STy := .enum {} (.typed 1 none none none) (.cons { kind := .range 0 9 } (.cons {} u8 .nil)
        (.cons { kind := .id 7 } .nil .nil))
     t.consistent .msb0 mach [] [] {} (.variant 1 .nil) = false ∧
     (t.compile.map fun d => (toBytes ((d.toTy mach).write mach {} (.variant 1 .nil)),
       fromBytes ((d.toTy mach).read mach {}) [7] 0)) = some (.ok [7], .ok (([], 0), .variant 0 (.ofList [.num 7])))) := by
  refine ⟨⟨?_, ?_⟩, ⟨?_, ?_⟩, ⟨?_, ?_⟩, ⟨?_, ?_⟩, ?_, ?_⟩ <;> decide +kernel

end Deku
