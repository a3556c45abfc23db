import Verif.Props.Examples

/-! # `examples/enums.rs`, for all inputs: C90 -/

namespace Deku

open Example SourceExample Reader Prim

/-- A value of `DekuTest` (examples/enums.rs:8-36), as far as any input gives it: `VarDefault` is not reached. -/
inductive Choice
  | var1
  | var2 (x : Nat)
  | var3 (a b : Byte)
  | var4 (data : List Byte)
  | var5 (id : Byte)
  | var6 (id : Byte)

namespace Choice

/-- `DekuTest`; `&id if id > 6` is given as a range. -/
def ty : STy :=
  .enum {} (.typed 1 none none none)
    (.cons { kind := .id 0 } .nil
    (.cons { kind := .id 1 } (.cons { bytes := some 2 } (.base (.uint 4)) .nil)
    (.cons { kind := .id 2 } (.cons {} u8 (.cons {} u8 .nil))
    (.cons { kind := .id 3 } (.cons {} u8 (.cons { count := some (.field 0) } (.vec false u8) .nil))
    (.cons { kind := .range 4 6 } (.cons {} u8 .nil)
    (.cons { kind := .range 7 255 } (.cons {} u8 .nil)
    (.cons { kind := .any } (.cons {} u8 (.cons {} u8 .nil)) .nil)))))))

def Ok (m : Machine) : Choice → Prop
  | .var1 => True
  | .var2 x => x < 2 ^ 16
  | .var3 _ _ => True
  | .var4 data => data.length < 2 ^ 8 ∧ data.length ≤ m.mem
  | .var5 id => 4 ≤ id.toNat ∧ id.toNat ≤ 6
  | .var6 id => 6 < id.toNat

def val : Choice → Val
  | .var1 => .variant 0 .nil
  | .var2 x => .variant 1 (.ofList [.num x])
  | .var3 a b => .variant 2 (.ofList [.num a.toNat, .num b.toNat])
  | .var4 data => .variant 3 (.ofList [.num data.length, .ofList (data.map fun b => .num b.toNat)])
  | .var5 id => .variant 4 (.ofList [.num id.toNat])
  | .var6 id => .variant 5 (.ofList [.num id.toNat])

/-- The bytes of a value: the id, then the fields. `u32` in two bytes is in the endianness of the machine. -/
def bytes (native : Endian) : Choice → List Byte
  | .var1 => [0]
  | .var2 x => 1 :: (match native with
    | .little => [.ofNat 8 x, .ofNat 8 (x / 256)]
    | .big => [.ofNat 8 (x / 256), .ofNat 8 x])
  | .var3 a b => [2, a, b]
  | .var4 data => 3 :: .ofNat 8 data.length :: data
  | .var5 id => [id]
  | .var6 id => [id]

theorem static (native : Endian) : ty.ordered .msb0 native [] = true ∧ ty.idsNamed = true ∧ ty.sized [] = true ∧
    ty.compile.isSome = true := by
  cases native <;> decide +kernel

theorem byte_lt (b : Byte) : b.toNat < 256 := b.isLt

theorem byte_piece (native : Endian) {n : Nat} (h : n < 256) :
    intPiece .msb0 native [] 1 (n : Int) = { whole := true, strict := false, bits := byteBits (.ofNat 8 n) } := by
  have e : ((n : Int) % 256).toNat = n := by omega
  cases native <;>
    simp [intPiece, bitSized, orderOf, fieldBits, endianOf, sizeOf?, e, byteBits_ofNat, leBits_short]

theorem byte_wire (native : Endian) (env : Env) (b : Byte) :
    u8.wire .msb0 native [] env (.num b.toNat) = [{ whole := true, strict := false, bits := byteBits b }] := by
  have := byte_piece native (byte_lt b)
  simp [u8, STy.wire, Base.wire, this]

theorem bytes_wire (native : Endian) (env : Env) (l : List Byte) :
    (l.map fun b => Val.num b.toNat).flatMap (u8.wire .msb0 native [] env) =
      l.map fun b => { whole := true, strict := false, bits := byteBits b } := by
  induction l with
  | nil => rfl
  | cons b l ih => simp [byte_wire, ih]

theorem consistent {c : Choice} {m : Machine} (hk : c.Ok m) : ty.consistent .msb0 m [] [] {} c.val = true := by
  cases c <;> simp only [Ok] at hk <;>
  simp [ty, val, STy.consistent, SFields.consistent, SVariants.consistentAt, SFields.consistentStored, Val.ofList,
    SAttrs.consistent, u8, Base.fits, SAttrs.passes, SAttrs.limits,
    SAttrs.parsed, SAttrs.written, sizeArg, Given.means, unsignedFits, padSmall, sizeOf?, Base.has, SId.passes, SVariants.picks, SVariants.heads, VKind.takes, List.findIdx?_cons, elems_ofList, Expr.eval, Env.push, Lim.good, isList_ofList, STy.isVecU8, bitSized]
  case var2 x => omega
  case var3 a b => have := byte_lt a; have := byte_lt b; omega
  case var4 l => exact ⟨by omega, ⟨⟨hk.2, fun b _ => by have := byte_lt b; omega⟩, by omega⟩, by omega⟩
  case var5 b =>
    have := byte_lt b
    have h0 : ¬ b.toNat = 0 := by omega
    have h1 : ¬ (b.toNat : Int) = 1 := by omega
    have h2 : ¬ (b.toNat : Int) = 2 := by omega
    have h3 : ¬ (b.toNat : Int) = 3 := by omega
    have h4 : 4 ≤ (b.toNat : Int) ∧ (b.toNat : Int) ≤ 6 := by omega
    simp only [h0, h1, h2, h3, h4]
    refine ⟨rfl, by omega⟩
  case var6 b =>
    have := byte_lt b
    have h0 : ¬ b.toNat = 0 := by omega
    have h1 : ¬ (b.toNat : Int) = 1 := by omega
    have h2 : ¬ (b.toNat : Int) = 2 := by omega
    have h3 : ¬ (b.toNat : Int) = 3 := by omega
    have h4 : ¬ (4 ≤ (b.toNat : Int) ∧ (b.toNat : Int) ≤ 6) := by omega
    have h5 : 7 ≤ (b.toNat : Int) ∧ (b.toNat : Int) ≤ 255 := by omega
    simp only [h0, h1, h2, h3, h4, h5]
    refine ⟨rfl, by omega⟩

theorem two_piece (native : Endian) {x : Nat} (h : x < 2 ^ 16) :
    intPiece .msb0 native (sizeArg none (some 2)) 4 (x : Int) =
      { whole := true, strict := false, bits := bytesBits (match native with
        | .little => [.ofNat 8 x, .ofNat 8 (x / 256)]
        | .big => [.ofNat 8 (x / 256), .ofNat 8 x]) } := by
  have e : ((x : Int) % 65536).toNat = x := by omega
  cases native <;>
    simp [intPiece, bitSized, orderOf, fieldBits, endianOf, sizeOf?, e, bits_half, sizeArg, bytesBits, byteBits_ofNat, leBits_long, leBits_short, bitsBE]

theorem settled_bytes (p : Nat) (l : List Byte) (r : List Piece) :
    settled .msb0 p ((l.map fun b => { whole := true, strict := false, bits := byteBits b }) ++ r) =
      settled .msb0 (p + 8 * l.length) r := by
  induction l generalizing p with
  | nil => simp
  | cons b l ih => simp [settled, ih, length_byteBits, Nat.mul_add, Nat.add_assoc, Nat.add_comm]

theorem flat_bytes (l : List Byte) :
    (l.map fun b => ({ whole := true, strict := false, bits := byteBits b } : Piece)).flatMap (·.bits) = bytesBits l := by
  induction l with
  | nil => rfl
  | cons b l ih => simp [bytesBits, ih]

theorem described {c : Choice} {m : Machine} (hk : c.Ok m) :
    bytesBits (c.bytes m.native) = ty.described .msb0 m.native {} c.val ∧ ty.aligned .msb0 m.native {} c.val = true := by
  have h0 : intPiece .msb0 m.native [] 1 0 = _ := byte_piece m.native (n := 0) (by decide)
  have h1 : intPiece .msb0 m.native [] 1 1 = _ := byte_piece m.native (n := 1) (by decide)
  have h2 : intPiece .msb0 m.native [] 1 2 = _ := byte_piece m.native (n := 2) (by decide)
  have h3 : intPiece .msb0 m.native [] 1 3 = _ := byte_piece m.native (n := 3) (by decide)
  have hb (b : Byte) := byte_piece m.native (byte_lt b)
  simp only [BitVec.ofNat_toNat, BitVec.setWidth_eq] at hb
  cases c <;> simp only [Ok] at hk
  case var2 x =>
    have hx := two_piece m.native hk
    simp only [sizeArg] at hx
    constructor <;>
    simp [STy.described, STy.aligned, ty, val, bytes, STy.wire, SVariants.wireAt, SFields.wire, Val.ofList, SAttrs.wire, SAttrs.written,
      SAttrs.passes, sizeArg, Given.means, SId.passes, elems_ofList, Base.wire, h1, hx, flat, SAttrs.mark, zerosPiece, bytesPiece, bytesBits, orderBits, settled]
  case var4 l =>
    have h4 := byte_piece m.native (n := l.length) (by omega)
    have h5 (env : Env) : u8.wire .msb0 m.native [] env (.num l.length) = _ := congrArg (fun x => [x]) h4
    have hv : (STy.vec false u8).isVecU8 = true := rfl
    have h6 (env : Env) := bytes_wire m.native env l
    constructor <;>
    simp [STy.described, STy.aligned, ty, val, bytes, STy.wire, SVariants.wireAt, SFields.wire, Val.ofList, SAttrs.wire, SAttrs.written,
      SAttrs.passes, sizeArg, Given.means, SId.passes, elems_ofList, h3, h5, h6, flat_bytes, settled_bytes, flat, SAttrs.mark, zerosPiece, bytesPiece, bytesBits, orderBits, settled, hv, length_byteBits]
  all_goals
    constructor <;>
    simp [STy.described, STy.aligned, ty, val, bytes, STy.wire, SVariants.wireAt, SFields.wire, SFields.wireStored, Val.ofList, SAttrs.wire, SAttrs.written,
      SAttrs.passes, sizeArg, Given.means, SId.passes, elems_ofList, Base.wire, h0, h1, h2, h3, hb, flat, SAttrs.mark, zerosPiece, bytesPiece, bytesBits, orderBits, settled, u8]

theorem of_pair (native : Endian) (a b : Byte) : ∃ x, x < 2 ^ 16 ∧ bytes native (.var2 x) = [1, a, b] := by
  have ha := byte_lt a
  have hb := byte_lt b
  cases native
  · refine ⟨b.toNat * 256 + a.toNat, by omega, ?_⟩
    have e : (b.toNat * 256 + a.toNat) / 256 = b.toNat := by omega
    have f : BitVec.ofNat 8 (b.toNat * 256 + a.toNat) = a := BitVec.eq_of_toNat_eq (by rw [BitVec.toNat_ofNat]; omega)
    simp [bytes, e, f]
  · refine ⟨a.toNat * 256 + b.toNat, by omega, ?_⟩
    have e : (a.toNat * 256 + b.toNat) / 256 = a.toNat := by omega
    have f : BitVec.ofNat 8 (a.toNat * 256 + b.toNat) = b := BitVec.eq_of_toNat_eq (by rw [BitVec.toNat_ofNat]; omega)
    simp [bytes, e, f]

/-- Any bytes begin with a value, or are the beginning of one. -/
theorem every (m : Machine) (hm : 255 ≤ m.mem) (data : List Byte) :
    (∃ c : Choice, c.Ok m ∧ ∃ rest, data = c.bytes m.native ++ rest) ∨
    (∃ c : Choice, c.Ok m ∧ ∃ more, more ≠ [] ∧ data ++ more = c.bytes m.native) := by
  match data with
  | [] => exact .inr ⟨.var1, trivial, [0], by simp, rfl⟩
  | i :: l =>
    have hi := byte_lt i
    have hn (n : Nat) (h : i.toNat = n) : i = .ofNat 8 n :=
      BitVec.eq_of_toNat_eq (by rw [BitVec.toNat_ofNat]; omega)
    by_cases h6 : 6 < i.toNat
    · exact .inl ⟨.var6 i, h6, l, rfl⟩
    by_cases h4 : 4 ≤ i.toNat
    · exact .inl ⟨.var5 i, ⟨h4, by omega⟩, l, rfl⟩
    by_cases h3 : i.toNat = 3
    · rw [hn 3 h3]
      match l with
      | [] => exact .inr ⟨.var4 [], ⟨by simp, by simp⟩, [0], by simp, rfl⟩
      | n :: l =>
        have hl := byte_lt n
        by_cases hs : n.toNat ≤ l.length
        · refine .inl ⟨.var4 (l.take n.toNat), ⟨?_, ?_⟩, l.drop n.toNat, ?_⟩
          · rw [List.length_take]; omega
          · rw [List.length_take]; omega
          · simp [bytes, List.length_take, Nat.min_eq_left hs]
        · have e : (l ++ List.replicate (n.toNat - l.length) (0 : Byte)).length = n.toNat := by simp; omega
          refine .inr ⟨.var4 (l ++ List.replicate (n.toNat - l.length) 0), ⟨?_, ?_⟩, List.replicate (n.toNat - l.length) 0, ?_, ?_⟩
          · omega
          · omega
          · intro h
            have := congrArg List.length h
            simp at this
            omega
          · rw [bytes, e]
            simp
    by_cases h2 : i.toNat = 2
    · rw [hn 2 h2]
      match l with
      | [] => exact .inr ⟨.var3 0 0, trivial, [0, 0], by simp, rfl⟩
      | [a] => exact .inr ⟨.var3 a 0, trivial, [0], by simp, rfl⟩
      | a :: b :: l => exact .inl ⟨.var3 a b, trivial, l, rfl⟩
    by_cases h1 : i.toNat = 1
    · rw [hn 1 h1]
      match l with
      | [] =>
        obtain ⟨x, hx, e⟩ := of_pair m.native 0 0
        exact .inr ⟨.var2 x, hx, [0, 0], by simp, e ▸ rfl⟩
      | [a] =>
        obtain ⟨x, hx, e⟩ := of_pair m.native a 0
        exact .inr ⟨.var2 x, hx, [0], by simp, e ▸ rfl⟩
      | a :: b :: l =>
        obtain ⟨x, hx, e⟩ := of_pair m.native a b
        exact .inl ⟨.var2 x, hx, l, e ▸ rfl⟩
    · rw [hn 0 (by omega)]
      exact .inl ⟨.var1, trivial, l, rfl⟩

theorem short {c : Choice} {m : Machine} (h : c.Ok m) : (c.bytes m.native).length ≤ 257 := by
  cases c <;> simp only [Ok] at h <;> simp only [bytes]
  case var2 => cases m.native <;> simp
  case var4 => simp; omega
  all_goals simp

end Choice

/-- **C90.** Values of the enum of `examples/enums.rs` are written as their id and their fields, and read back, whatever
follows. -/
theorem C90_enum_values_are_id_and_fields (m : Machine) (d : Def) (hd : Choice.ty.compile = some d) (c : Choice)
    (hk : c.Ok m) :
    toBytes ((d.toTy m).write m {} c.val) = .ok (c.bytes m.native) ∧
    ∀ rest, fromBytes ((d.toTy m).read m {}) (c.bytes m.native ++ rest) 0 = .ok ((rest, 0), c.val) := by
  obtain ⟨h1, h2, h3, -⟩ := Choice.static m.native
  exact both_ways m Choice.ty d .msb0 h1 h2 h3 hd {} c.val (Choice.consistent hk) (Choice.described hk).2 _
    (Choice.described hk).1

/-- **C90.** Any bytes are such a value with what follows, or incomplete. In particular no bytes are the last variant,
`id_pat = "_"`. -/
theorem C90_any_bytes_are_an_enum_value_or_incomplete (m : Machine) (hm : 255 ≤ m.mem) (d : Def)
    (hd : Choice.ty.compile = some d) (data : List Byte) :
    (∃ c : Choice, c.Ok m ∧ ∃ rest, data = c.bytes m.native ++ rest ∧
      fromBytes ((d.toTy m).read m {}) data 0 = .ok ((rest, 0), c.val)) ∨
    ∃ n, fromBytes ((d.toTy m).read m {}) data 0 = .err (.incomplete n) := by
  rcases Choice.every m hm data with ⟨c, hk, rest, hb⟩ | ⟨c, hk, more, hne, hb⟩
  · exact .inl ⟨c, hk, rest, hb, hb ▸ (C90_enum_values_are_id_and_fields m d hd c hk).2 rest⟩
  · refine .inr ?_
    have h := (C90_enum_values_are_id_and_fields m d hd c hk).2 []
    rw [List.append_nil, ← hb] at h
    have hc : d.cuttable = true := by
      have : (Choice.ty.compile.map Def.cuttable) = some true := by decide +kernel
      rw [hd] at this
      exact Option.some.inj this
    refine C56_missing_bits_of_definitions_partial m d hc {} data more (by omega) ?_ h ?_
    · rw [hb]
      have := Choice.short hk
      omega
    · have := List.length_pos_iff.mpr hne
      simp
      omega

/-- The input of the example: `hex!("03020102")` is `Var4 { field_a: 2, field_b: [1, 2] }` and written as it was. -/
example (m : Machine) (hm : 255 ≤ m.mem) (d : Def) (hd : Choice.ty.compile = some d) :
    fromBytes ((d.toTy m).read m {}) [3, 2, 1, 2] 0 =
      .ok (([], 0), .variant 3 (.ofList [.num 2, .ofList [.num 1, .num 2]])) ∧
    toBytes ((d.toTy m).write m {} (.variant 3 (.ofList [.num 2, .ofList [.num 1, .num 2]]))) = .ok [3, 2, 1, 2] := by
  obtain ⟨h1, h2⟩ := C90_enum_values_are_id_and_fields m d hd (.var4 [1, 2]) ⟨by decide, by simp; omega⟩
  exact ⟨h2 [], h1⟩

end Deku
