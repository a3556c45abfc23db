import Verif.Props.Consistent
import Verif.Props.Receive

/-! # The examples of the repository, for all inputs: C90 -/

namespace Deku

open Example SourceExample Reader Prim

/-! ### bits of bytes given by arithmetic -/

theorem bits_join {a b : Nat} (n x y : Nat) (hn : n = a + b) (hy : y < 2 ^ b) :
    bitsBE n (x * 2 ^ b + y) = bitsBE a x ++ bitsBE b y := by
  subst hn
  rw [bitsBE_add, Nat.mul_comm, Nat.mul_add_div (Nat.two_pow_pos b), Nat.div_eq_of_lt hy, Nat.add_zero]
  congr 1
  exact bitsBE_congr _ _ _ (Nat.mul_add_mod _ _ _)

theorem bits_half (x : Nat) : bitsBE 16 x = bitsBE 8 (x / 256) ++ bitsBE 8 x := bitsBE_add 8 8 x

theorem bits_word (x : Nat) :
    bitsBE 32 x = bitsBE 8 (x / 2 ^ 24) ++ bitsBE 8 (x / 2 ^ 16) ++ bitsBE 8 (x / 256) ++ bitsBE 8 x := by
  rw [bitsBE_add 24 8, bitsBE_add 16 8, bitsBE_add 8 8]
  simp only [Nat.div_div_eq_div_mul]

/-- A value that the source describes by the bits of `bs`: it is written as `bs`, and read back from `bs`, whatever
follows. -/
theorem both_ways (m : Machine) (t : STy) (d : Def) (o : Order)
    (ht : t.ordered o m.native [] = true) (hi : t.idsNamed = true) (hz : t.sized [] = true) (hd : t.compile = some d)
    (env : Env) (v : Val) (hc : t.consistent o m [] [] env v = true) (ha : t.aligned o m.native env v = true)
    (bs : List Byte) (hb : orderBits o bs = t.described o m.native env v) :
    toBytes ((d.toTy m).write m env v) = .ok bs ∧
    ∀ rest, fromBytes ((d.toTy m).read m env) (bs ++ rest) 0 = .ok ((rest, 0), v) := by
  have hl : (t.described o m.native env v).length = 8 * bs.length := by
    rw [← hb, length_orderBits]
  constructor
  · obtain ⟨out, h1, h2⟩ := C75_consistent_values_are_written_as_described m t d o ht hi hz hd env v hc ha
    unfold Packed at h2
    rw [hl, show (8 - 8 * bs.length % 8) % 8 = 0 by omega, List.replicate_zero, List.append_nil, ← hb] at h2
    rw [h1, orderBits_inj o h2]
  · intro rest
    have h := C75_consistent_values_are_parsed_as_described m t d o ht hi hz hd env v hc ha (bs ++ rest)
      (orderBits o rest) (by rw [orderBits_append, hb])
    rw [h, hl, show 8 * bs.length / 8 = bs.length by omega, show 8 * bs.length % 8 = 0 by omega, List.drop_left]

theorem field_bits (n x : Nat) : bitsBE n ((x : Int) % 2 ^ n).toNat = bitsBE n x := by
  have h : ((x : Int) % 2 ^ n).toNat = x % 2 ^ n := by
    rw [← Int.toNat_natCast (x % 2 ^ n), Int.natCast_emod]
    push_cast
    rfl
  rw [h, bitsBE_mod]

theorem bits2 (x : Nat) : bitsBE 2 ((x : Int) % 4).toNat = bitsBE 2 x := field_bits 2 x
theorem bits3 (x : Nat) : bitsBE 3 ((x : Int) % 8).toNat = bitsBE 3 x := field_bits 3 x
theorem bits4 (x : Nat) : bitsBE 4 ((x : Int) % 16).toNat = bitsBE 4 x := field_bits 4 x
theorem bits6 (x : Nat) : bitsBE 6 ((x : Int) % 64).toNat = bitsBE 6 x := field_bits 6 x
theorem bits8 (x : Nat) : bitsBE 8 ((x : Int) % 256).toNat = bitsBE 8 x := field_bits 8 x
theorem bits13 (x : Nat) : bitsBE 13 ((x : Int) % 8192).toNat = bitsBE 13 x := field_bits 13 x
theorem bits16 (x : Nat) : bitsBE 16 ((x : Int) % 65536).toNat = bitsBE 16 x := field_bits 16 x
theorem bits32 (x : Nat) : bitsBE 32 ((x : Int) % 4294967296).toNat = bitsBE 32 x := field_bits 32 x

/-! ### `examples/ipv4.rs` -/

/-- The fields of an IPv4 header. -/
structure Ipv4 where
  version : Nat
  ihl : Nat
  dscp : Nat
  ecn : Nat
  length : Nat
  identification : Nat
  flags : Nat
  offset : Nat
  ttl : Nat
  protocol : Nat
  checksum : Nat
  src : Nat
  dst : Nat

namespace Ipv4

/-- `Ipv4Header` (examples/ipv4.rs:25-49); `Ipv4Addr` is read as the `u32` (src/impls/ipaddr.rs:10-35). -/
def ty : STy :=
  .struct { endian := some (.lit .big) }
    (.cons { bits := some 4 } u8 (.cons { bits := some 4 } u8 (.cons { bits := some 6 } u8 (.cons { bits := some 2 } u8
    (.cons {} u16 (.cons {} u16 (.cons { bits := some 3 } u8 (.cons { bits := some 13 } u16
    (.cons {} u8 (.cons {} u8 (.cons {} u16 (.cons {} (.base (.uint 4)) (.cons {} (.base (.uint 4)) .nil)))))))))))))

def val (h : Ipv4) : Val :=
  .ofList [.num h.version, .num h.ihl, .num h.dscp, .num h.ecn, .num h.length, .num h.identification, .num h.flags,
    .num h.offset, .num h.ttl, .num h.protocol, .num h.checksum, .num h.src, .num h.dst]

/-- Every field is in the range that the diagram (examples/ipv4.rs:6-24) has room for. -/
def Ok (h : Ipv4) : Prop :=
  h.version < 2 ^ 4 ∧ h.ihl < 2 ^ 4 ∧ h.dscp < 2 ^ 6 ∧ h.ecn < 2 ^ 2 ∧ h.length < 2 ^ 16 ∧ h.identification < 2 ^ 16 ∧
  h.flags < 2 ^ 3 ∧ h.offset < 2 ^ 13 ∧ h.ttl < 2 ^ 8 ∧ h.protocol < 2 ^ 8 ∧ h.checksum < 2 ^ 16 ∧ h.src < 2 ^ 32 ∧
  h.dst < 2 ^ 32

/-- The twenty bytes of the diagram. -/
def bytes (h : Ipv4) : List Byte :=
  [16 * h.version + h.ihl, 4 * h.dscp + h.ecn, h.length / 256, h.length, h.identification / 256, h.identification,
    32 * h.flags + h.offset / 256, h.offset, h.ttl, h.protocol, h.checksum / 256, h.checksum,
    h.src / 2 ^ 24, h.src / 2 ^ 16, h.src / 256, h.src, h.dst / 2 ^ 24, h.dst / 2 ^ 16, h.dst / 256, h.dst].map
    (BitVec.ofNat 8)

theorem static (native : Endian) : ty.ordered .msb0 native [] = true ∧ ty.idsNamed = true ∧ ty.sized [] = true := by
  cases native <;> decide +kernel

theorem consistent {h : Ipv4} (hk : h.Ok) (m : Machine) : ty.consistent .msb0 m [] [] {} h.val = true := by
  obtain ⟨h1, h2, h3, h4, h5, h6, h7, h8, h9, h10, h11, h12, h13⟩ := hk
  simp [ty, val, STy.consistent, SFields.consistent, Val.ofList, SAttrs.consistent, u8, u16, Base.fits, SAttrs.passes,
    SAttrs.parsed, SAttrs.written, sizeArg, Given.means, unsignedFits, padSmall, sizeOf?, Base.has]
  omega

theorem described (h : Ipv4) (native : Endian) : ty.described .msb0 native {} h.val =
    bitsBE 4 h.version ++ bitsBE 4 h.ihl ++ bitsBE 6 h.dscp ++ bitsBE 2 h.ecn ++ bitsBE 16 h.length ++
    bitsBE 16 h.identification ++ bitsBE 3 h.flags ++ bitsBE 13 h.offset ++ bitsBE 8 h.ttl ++ bitsBE 8 h.protocol ++
    bitsBE 16 h.checksum ++ bitsBE 32 h.src ++ bitsBE 32 h.dst := by
  simp [STy.described, ty, val, STy.wire, SFields.wire, Val.ofList, SAttrs.wire, SAttrs.written, SAttrs.mark, u8, u16,
    Base.wire, SAttrs.passes, flat, STy.isVecU8, intPiece, bytesPiece, zerosPiece, orderBits, bytesBits, sizeArg,
    Given.means, fieldBits, endianOf, sizeOf?, bits2, bits3, bits4, bits6, bits8, bits13,
    bits16, bits32]

theorem bytes_eq {h : Ipv4} (hk : h.Ok) : bytesBits h.bytes =
    bitsBE 4 h.version ++ bitsBE 4 h.ihl ++ bitsBE 6 h.dscp ++ bitsBE 2 h.ecn ++ bitsBE 16 h.length ++
    bitsBE 16 h.identification ++ bitsBE 3 h.flags ++ bitsBE 13 h.offset ++ bitsBE 8 h.ttl ++ bitsBE 8 h.protocol ++
    bitsBE 16 h.checksum ++ bitsBE 32 h.src ++ bitsBE 32 h.dst := by
  obtain ⟨h1, h2, h3, h4, h5, h6, h7, h8, h9, h10, h11, h12, h13⟩ := hk
  have e1 : bitsBE 8 (16 * h.version + h.ihl) = bitsBE 4 h.version ++ bitsBE 4 h.ihl := by
    rw [Nat.mul_comm]
    exact bits_join (a := 4) (b := 4) 8 h.version h.ihl (by omega) h2
  have e2 : bitsBE 8 (4 * h.dscp + h.ecn) = bitsBE 6 h.dscp ++ bitsBE 2 h.ecn := by
    rw [Nat.mul_comm]
    exact bits_join (a := 6) (b := 2) 8 h.dscp h.ecn (by omega) h4
  have e3 : bitsBE 8 (32 * h.flags + h.offset / 256) = bitsBE 3 h.flags ++ bitsBE 5 (h.offset / 256) := by
    rw [Nat.mul_comm]
    exact bits_join (a := 3) (b := 5) 8 h.flags (h.offset / 256) (by omega) (by omega)
  have e4 : bitsBE 13 h.offset = bitsBE 5 (h.offset / 256) ++ bitsBE 8 h.offset := bitsBE_add 5 8 h.offset
  simp only [bytes, List.map_cons, List.map_nil, bytesBits, byteBits_ofNat, bits_half, bits_word, List.append_assoc,
    List.append_nil, e1, e2, e3, e4]

theorem aligned (h : Ipv4) (native : Endian) : ty.aligned .msb0 native {} h.val = true := by
  simp [STy.aligned, ty, val, STy.wire, SFields.wire, Val.ofList, SAttrs.wire, SAttrs.written, SAttrs.mark, u8, u16,
    Base.wire, SAttrs.passes, STy.isVecU8, intPiece, bytesPiece, zerosPiece, orderBits, bytesBits, sizeArg,
    Given.means, endianOf, sizeOf?, settled, orderOf]

def core : Def :=
  .struct [] []
    (.cons { sizeAttr := some 4 } (.leaf (some 8) (.uint 1 (.endianBits .big 4)))
    (.cons { sizeAttr := some 4 } (.leaf (some 8) (.uint 1 (.endianBits .big 4)))
    (.cons { sizeAttr := some 6 } (.leaf (some 8) (.uint 1 (.endianBits .big 6)))
    (.cons { sizeAttr := some 2 } (.leaf (some 8) (.uint 1 (.endianBits .big 2)))
    (.cons {} (.leaf (some 16) (.uint 2 (.endian .big)))
    (.cons {} (.leaf (some 16) (.uint 2 (.endian .big)))
    (.cons { sizeAttr := some 3 } (.leaf (some 8) (.uint 1 (.endianBits .big 3)))
    (.cons { sizeAttr := some 13 } (.leaf (some 16) (.uint 2 (.endianBits .big 13)))
    (.cons {} (.leaf (some 8) (.uint 1 (.endian .big)))
    (.cons {} (.leaf (some 8) (.uint 1 (.endian .big)))
    (.cons {} (.leaf (some 16) (.uint 2 (.endian .big)))
    (.cons {} (.leaf (some 32) (.uint 4 (.endian .big)))
    (.cons {} (.leaf (some 32) (.uint 4 (.endian .big))) .nil)))))))))))))
theorem compiled : ty.compile = some core := rfl

/-- What the types of the fields have room for. -/
def Typed (h : Ipv4) : Prop :=
  h.version < 2 ^ 8 ∧ h.ihl < 2 ^ 8 ∧ h.dscp < 2 ^ 8 ∧ h.ecn < 2 ^ 8 ∧ h.length < 2 ^ 16 ∧ h.identification < 2 ^ 16 ∧
  h.flags < 2 ^ 8 ∧ h.offset < 2 ^ 16 ∧ h.ttl < 2 ^ 8 ∧ h.protocol < 2 ^ 8 ∧ h.checksum < 2 ^ 16 ∧ h.src < 2 ^ 32 ∧
  h.dst < 2 ^ 32

theorem has {h : Ipv4} (hk : h.Typed) : core.has h.val = true := by
  obtain ⟨h1, h2, h3, h4, h5, h6, h7, h8, h9, h10, h11, h12, h13⟩ := hk
  simp [core, val, Def.has, DFields.has, Val.ofList, Leaf.has]
  omega

theorem no_padding : padRefusal none = none := if_pos (Nat.two_pow_pos 64)

theorem plain_refusal (s : Option Nat) (f : Env → Val → Option DekuError) (env : Env) (x : Val) :
    ({ sizeAttr := s } : DAttrs).refusal f env x = f (env.at 0) x := by
  simp only [DAttrs.refusal, no_padding]
  cases f (env.at 0) x <;> rfl

theorem bits_refusal (native e : Endian) (W n v : Nat) :
    (Leaf.uint W (.endianBits e n)).refusal native (.num v) = if v < 2 ^ n then none else some .invalidParam := by
  have h : ((v : Int) < 2 ^ n) ↔ v < 2 ^ n := by exact_mod_cast Iff.rfl
  by_cases hv : v < 2 ^ n <;> simp [Leaf.refusal, fieldRefusal, IntCtx.isBits, IntCtx.shape, h, hv]

theorem bytes_refusal (native e : Endian) (W : Nat) (v : Int) :
    (Leaf.uint W (.endian e)).refusal native (.num v) = none := by
  simp [Leaf.refusal, fieldRefusal, IntCtx.isBits]

theorem refusal {h : Ipv4} (hk : h.Typed) (hn : ¬ h.Ok) (native : Endian) :
    core.refusal native {} h.val = some .invalidParam := by
  obtain ⟨h1, h2, h3, h4, h5, h6, h7, h8, h9, h10, h11, h12, h13⟩ := hk
  simp [Ok] at hn
  simp only [core, val, Def.refusal, DFields.refusal, Val.ofList, plain_refusal, bits_refusal, bytes_refusal]
  simp only [Option.or_none, Option.none_or]
  repeat' (split <;> simp only [Option.some_or, Option.none_or])
  all_goals try omega
  rw [if_neg (by omega)]

end Ipv4

/-- **C90.** An `Ipv4Header` whose fields are in range is written as the twenty bytes of the diagram, and read back from
them, whatever follows. -/
theorem C90_ipv4_headers_are_as_in_the_diagram (m : Machine) (d : Def) (hd : Ipv4.ty.compile = some d) (h : Ipv4) (hk : h.Ok) :
    toBytes ((d.toTy m).write m {} h.val) = .ok h.bytes ∧
    ∀ rest, fromBytes ((d.toTy m).read m {}) (h.bytes ++ rest) 0 = .ok ((rest, 0), h.val) := by
  obtain ⟨h1, h2, h3⟩ := Ipv4.static m.native
  exact both_ways m _ d .msb0 h1 h2 h3 hd {} _ (Ipv4.consistent hk m) (h.aligned _) _ ((Ipv4.bytes_eq hk).trans (h.described _).symm)

/-- The fields in twenty bytes, as in the diagram. -/
def Ipv4.read (a b c e f g h i j k l n o p q r s t u v : Byte) : Ipv4 where
  version := a.toNat / 16
  ihl := a.toNat % 16
  dscp := b.toNat / 4
  ecn := b.toNat % 4
  length := 256 * c.toNat + e.toNat
  identification := 256 * f.toNat + g.toNat
  flags := h.toNat / 32
  offset := 256 * (h.toNat % 32) + i.toNat
  ttl := j.toNat
  protocol := k.toNat
  checksum := 256 * l.toNat + n.toNat
  src := 2 ^ 24 * o.toNat + 2 ^ 16 * p.toNat + 256 * q.toNat + r.toNat
  dst := 2 ^ 24 * s.toNat + 2 ^ 16 * t.toNat + 256 * u.toNat + v.toNat

theorem Ipv4.read_ok (a b c e f g h i j k l n o p q r s t u v : Byte) : (Ipv4.read a b c e f g h i j k l n o p q r s t u v).Ok := by
  simp only [Ipv4.Ok, Ipv4.read]
  refine ⟨?_, ?_, ?_, ?_, ?_, ?_, ?_, ?_, ?_, ?_, ?_, ?_, ?_⟩ <;> omega

theorem Ipv4.bytes_read (a b c e f g h i j k l n o p q r s t u v : Byte) :
    (Ipv4.read a b c e f g h i j k l n o p q r s t u v).bytes = [a, b, c, e, f, g, h, i, j, k, l, n, o, p, q, r, s, t, u, v] := by
  simp only [Ipv4.bytes, Ipv4.read, List.map_cons, List.map_nil, List.cons.injEq, and_true]
  refine ⟨?_, ?_, ?_, ?_, ?_, ?_, ?_, ?_, ?_, ?_, ?_, ?_, ?_, ?_, ?_, ?_, ?_, ?_, ?_, ?_⟩ <;>
    (apply BitVec.eq_of_toNat_eq; rw [BitVec.toNat_ofNat]; omega)

/-- **C90.** Any twenty bytes are a header, whose fields are where the diagram has them; writing it again gives these
bytes. -/
theorem C90_any_twenty_bytes_are_an_ipv4_header (m : Machine) (d : Def) (hd : Ipv4.ty.compile = some d)
    (a b c e f g h i j k l n o p q r s t u v : Byte) (rest : List Byte) :
    fromBytes ((d.toTy m).read m {}) ([a, b, c, e, f, g, h, i, j, k, l, n, o, p, q, r, s, t, u, v] ++ rest) 0 =
      .ok ((rest, 0), (Ipv4.read a b c e f g h i j k l n o p q r s t u v).val) ∧
    toBytes ((d.toTy m).write m {} (Ipv4.read a b c e f g h i j k l n o p q r s t u v).val) =
      .ok [a, b, c, e, f, g, h, i, j, k, l, n, o, p, q, r, s, t, u, v] := by
  obtain ⟨h1, h2⟩ := C90_ipv4_headers_are_as_in_the_diagram m d hd _ (Ipv4.read_ok a b c e f g h i j k l n o p q r s t u v)
  rw [Ipv4.bytes_read] at h1 h2
  exact ⟨h2 rest, h1⟩

theorem Ipv4.every {data : List Byte} (hl : data.length = 20) : ∃ header : Ipv4, header.Ok ∧ header.bytes = data := by
  rcases data with _ | ⟨a, _ | ⟨b, _ | ⟨c, _ | ⟨e, _ | ⟨f, _ | ⟨g, _ | ⟨h, _ | ⟨i, _ | ⟨j, _ | ⟨k, _ | ⟨l, _ | ⟨n, _ | ⟨o, _ | ⟨p, _ | ⟨q, _ | ⟨r, _ | ⟨s, _ | ⟨t, _ | ⟨u, _ | ⟨v, _ | ⟨w, data⟩⟩⟩⟩⟩⟩⟩⟩⟩⟩⟩⟩⟩⟩⟩⟩⟩⟩⟩⟩⟩
  all_goals simp only [List.length_cons, List.length_nil] at hl
  all_goals try omega
  exact ⟨_, Ipv4.read_ok a b c e f g h i j k l n o p q r s t u v, Ipv4.bytes_read a b c e f g h i j k l n o p q r s t u v⟩

/-- **C90.** Fewer bytes are incomplete. -/
theorem C90_short_ipv4_headers_are_incomplete (m : Machine) (d : Def) (hd : Ipv4.ty.compile = some d) (data : List Byte)
    (hl : data.length < 20) : ∃ n, fromBytes ((d.toTy m).read m {}) data 0 = .err (.incomplete n) := by
  obtain ⟨header, hk, hb⟩ := Ipv4.every (data := data ++ List.replicate (20 - data.length) 0) (by simp; omega)
  have h := (C90_ipv4_headers_are_as_in_the_diagram m d hd header hk).2 []
  rw [hb, List.append_nil] at h
  have hc : d.cuttable = true := by
    rw [Ipv4.compiled] at hd
    cases hd
    decide +kernel
  refine C56_missing_bits_of_definitions_partial m d hc {} data (List.replicate (20 - data.length) 0) (by omega) ?_ h ?_
  · simp
    omega
  · simp
    omega

/-- **C90.** A header with a field that is too large for the diagram is refused. -/
theorem C90_ipv4_headers_out_of_range_are_refused (m : Machine) (d : Def) (hd : Ipv4.ty.compile = some d) (h : Ipv4)
    (ht : h.Typed) (hn : ¬ h.Ok) : toBytes ((d.toTy m).write m {} h.val) = .err .invalidParam := by
  rw [Ipv4.compiled] at hd
  cases hd
  have := C62_to_bytes_decides m Ipv4.core {} h.val (by cases m.native <;> decide +kernel) (Ipv4.has ht)
  rw [Ipv4.refusal ht hn] at this
  exact this

/-- The input of the example. -/
example (m : Machine) :
    fromBytes ((Ipv4.core.toTy m).read m {})
      [0x45, 0x00, 0x00, 0x4b, 0x0f, 0x49, 0x00, 0x00, 0x80, 0x11, 0x63, 0xa5, 145, 254, 160, 237, 145, 253, 2, 203] 0 =
      .ok (([], 0), .ofList [.num 4, .num 5, .num 0, .num 0, .num 75, .num 0x0f49, .num 0, .num 0, .num 128, .num 17,
        .num 0x63a5, .num 0x91fea0ed, .num 0x91fd02cb]) :=
  (C90_ipv4_headers_are_as_in_the_diagram m Ipv4.core Ipv4.compiled
    ⟨4, 5, 0, 0, 75, 0x0f49, 0, 0, 128, 17, 0x63a5, 0x91fea0ed, 0x91fd02cb⟩ (by unfold Ipv4.Ok; decide)).2 []

/-- A version that does not fit in four bits. -/
example (m : Machine) : toBytes ((Ipv4.core.toTy m).write m {} (Ipv4.val ⟨16, 5, 0, 0, 75, 0, 0, 0, 1, 17, 0, 0, 0⟩)) =
    .err .invalidParam :=
  C90_ipv4_headers_out_of_range_are_refused m Ipv4.core Ipv4.compiled _ (by unfold Ipv4.Typed; decide)
    (by unfold Ipv4.Ok; decide)

end Deku
