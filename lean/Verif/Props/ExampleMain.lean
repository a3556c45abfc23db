import Verif.Props.ExampleFrame

/-! # `examples/example.rs`, for all inputs: C90 -/

namespace Deku

open Example SourceExample Reader Prim

/-- The fields of `DekuTest` (examples/example.rs:27-42). `field_f` is 6, and `num_items` the number of items. -/
structure Sample where
  a : Nat
  b : Nat
  c : Nat
  d : Nat
  e : Nat
  items : List Nat

namespace Sample

/-- `FieldF` (examples/example.rs:12-17). -/
def six : STy := .struct {} (.cons { bits := some 6, assertEq := some (.lit 6) } u8 .nil)

/-- `DekuTest` (examples/example.rs:27-42). -/
def ty : STy :=
  .struct {}
    (.cons {} u8 (.cons { bits := some 7 } u8 (.cons { bits := some 1 } u8 (.cons { endian := some (.lit .big) } u16
    (.cons { bits := some 2 } u8 (.cons {} six (.cons {} u8
    (.cons { count := some (.field 0), endian := some (.lit .big) } (.vec false u16) .nil))))))))

def val (s : Sample) : Val :=
  .ofList [.num s.a, .num s.b, .num s.c, .num s.d, .num s.e, .ofList [.num 6], .num s.items.length,
    .ofList (s.items.map fun (n : Nat) => .num n)]

def Ok (s : Sample) (m : Machine) : Prop :=
  s.a < 2 ^ 8 ∧ s.b < 2 ^ 7 ∧ s.c < 2 ∧ s.d < 65536 ∧ s.e < 4 ∧ s.items.length < 2 ^ 8 ∧ s.items.length ≤ m.mem ∧
  ∀ n ∈ s.items, n < 65536

/-- The bytes of the diagram (examples/example.rs:20-24), then the number of items and the items. -/
def bytes (s : Sample) : List Byte :=
  [.ofNat 8 s.a, .ofNat 8 (2 * s.b + s.c), .ofNat 8 (s.d / 256), .ofNat 8 s.d, .ofNat 8 (64 * s.e + 6),
    .ofNat 8 s.items.length] ++ s.items.flatMap fun n => [.ofNat 8 (n / 256), .ofNat 8 n]

theorem static (native : Endian) : ty.ordered .msb0 native [] = true ∧ ty.idsNamed = true ∧ ty.sized [] = true := by
  cases native <;> decide +kernel

example : ty.compile.isSome = true ∧ (ty.compile.map Def.cuttable) = some true := by decide +kernel

theorem six_consistent (m : Machine) (env : Env) : six.consistent .msb0 m [] [] env (.ofList [.num 6]) = true := by
  cases m with | mk native mem => cases native <;> rfl

theorem word_fits (mem : Nat) (args : List Arg) (ha : sizeOf? args = none) {n : Nat} (h : n < 65536) :
    (Base.uint 2).fits mem args (.num n) = true := by
  simp [Base.fits, ha, unsignedFits, Base.has]
  omega

theorem items_consistent (m : Machine) (env : Env) (l : List Nat) (h : ∀ n ∈ l, n < 65536) (h6 : l.length < 2 ^ 8)
    (h7 : l.length ≤ m.mem) :
    (STy.vec false u16).consistent .msb0 m [.count (.field 0)] [.endian .big] (env.push (.num l.length))
      (.ofList (l.map fun (n : Nat) => .num n)) = true := by
  have e : (Expr.field 0).eval (env.push (.num l.length)) = (l.length : Int) := rfl
  have hs : (l.length : Int) < 2 ^ 64 := by
    have h : l.length < 2 ^ 64 := Nat.lt_of_lt_of_le h6 (Nat.pow_le_pow_right (by omega) (by omega))
    exact_mod_cast h
  simp only [STy.consistent, elems_ofList, isList_ofList, List.length_map, u16, List.all_cons,
    List.all_nil, Lim.good, e, Bool.and_true, Bool.true_and, Bool.not_false, decide_eq_true h7, true_and, decide_eq_true hs]
  rw [List.all_eq_true]
  intro x hx
  obtain ⟨n, hn, rfl⟩ := List.mem_map.mp hx
  exact word_fits m.mem [.endian .big] rfl (h n hn)

theorem consistent {s : Sample} {m : Machine} (hk : s.Ok m) : ty.consistent .msb0 m [] [] {} s.val = true := by
  obtain ⟨h1, h2, h3, h4, h5, h6, h7, h8⟩ := hk
  have hb (env : Env) (args : List Arg) (b : Base) (v : Val) : (STy.base b).consistent .msb0 m [] args env v = b.fits m.mem args v := by
    rw [STy.consistent]
  have h9 (env : Env) := six_consistent m env
  have h10 (env : Env) := items_consistent m env s.items h8 h6 h7
  have h11 := word_fits m.mem [.endian .big] rfl h4
  have hv : (STy.vec false u16).isVecU8 = false := rfl
  simp only [Val.ofList] at h9
  rw [ty, STy.consistent]
  simp [val, h9, h11, hb, SFields.consistent, Val.ofList, SAttrs.consistent, u8, SAttrs.passes,
    SAttrs.parsed, SAttrs.written, sizeArg, Given.means, padSmall, SAttrs.limits, u16]
  refine ⟨?_, ?_, ?_, ?_, ?_, h10 _, .inl hv⟩ <;> simp [Base.fits, sizeOf?, unsignedFits, Base.has] <;> omega

theorem high_bits (e : Endian) {n : Nat} (hn : n ≤ 8) (v : Nat) : fieldBits e .msb0 n v = bitsBE n v := by
  cases e
  · exact leBits_short hn
  · rfl

theorem word_wire (native : Endian) (env : Env) {n : Nat} (h : n < 65536) :
    u16.wire .msb0 native [.endian .big] env (.num n) =
      [{ whole := true, strict := false, bits := bitsBE 8 (n / 256) ++ bitsBE 8 n }] := by
  have e : ((n : Int) % 65536).toNat = n := by omega
  simp [u16, STy.wire, Base.wire, intPiece, bitSized, orderOf, fieldBits, endianOf, sizeOf?, e, bits_half]

theorem words_wire (native : Endian) (env : Env) (l : List Nat) (h : ∀ n ∈ l, n < 65536) :
    (l.map fun (n : Nat) => Val.num n).flatMap (u16.wire .msb0 native [.endian .big] env) =
      l.map fun n => { whole := true, strict := false, bits := bitsBE 8 (n / 256) ++ bitsBE 8 n } := by
  induction l with
  | nil => rfl
  | cons n l ih =>
    simp only [List.map_cons, List.flatMap_cons, word_wire native env (h n (by simp)),
      ih fun k hk => h k (List.mem_cons_of_mem _ hk), List.singleton_append]

theorem settled_words (p : Nat) (l : List Nat) (r : List Piece) :
    settled .msb0 p ((l.map fun n =>
      { whole := true, strict := false, bits := bitsBE 8 (n / 256) ++ bitsBE 8 n }) ++ r) =
      settled .msb0 (p + 16 * l.length) r := by
  induction l generalizing p with
  | nil => simp
  | cons b l ih => simp [settled, ih, length_bitsBE, Nat.mul_add, Nat.add_assoc, Nat.add_comm]

theorem flat_words (l : List Nat) :
    (l.map fun n => ({ whole := true, strict := false, bits := bitsBE 8 (n / 256) ++ bitsBE 8 n } : Piece)).flatMap
      (·.bits) = bytesBits (l.flatMap fun n => [.ofNat 8 (n / 256), .ofNat 8 n]) := by
  induction l with
  | nil => rfl
  | cons b l ih => simp [byteBits_ofNat, ih]

theorem bits1 (x : Nat) : bitsBE 1 ((x : Int) % 2).toNat = bitsBE 1 x := field_bits 1 x
theorem bits7 (x : Nat) : bitsBE 7 ((x : Int) % 128).toNat = bitsBE 7 x := field_bits 7 x

theorem described {s : Sample} {m : Machine} (hk : s.Ok m) :
    bytesBits s.bytes = ty.described .msb0 m.native {} s.val ∧ ty.aligned .msb0 m.native {} s.val = true := by
  obtain ⟨h1, h2, h3, h4, h5, h6, h7, h8⟩ := hk
  have l8 (e : Endian) (v) := high_bits e (n := 8) (by omega) v
  have l7 (e : Endian) (v) := high_bits e (n := 7) (by omega) v
  have l6 (e : Endian) (v) := high_bits e (n := 6) (by omega) v
  have l2 (e : Endian) (v) := high_bits e (n := 2) (by omega) v
  have l1 (e : Endian) (v) := high_bits e (n := 1) (by omega) v
  have e1 : bitsBE 8 (2 * s.b + s.c) = bitsBE 7 s.b ++ bitsBE 1 s.c := by
    rw [Nat.mul_comm]
    exact bits_join (a := 7) (b := 1) 8 s.b s.c (by omega) (by omega)
  have e2 : bitsBE 8 (64 * s.e + 6) = bitsBE 2 s.e ++ bitsBE 6 6 := by
    rw [Nat.mul_comm]
    exact bits_join (a := 2) (b := 6) 8 s.e 6 (by omega) (by omega)
  have w1 (env : Env) := word_wire m.native env h4
  have w2 (env : Env) := words_wire m.native env s.items h8
  have hv : (STy.vec false u16).isVecU8 = false := rfl
  constructor <;>
    simp [STy.described, STy.aligned, ty, six, val, bytes, STy.wire, SFields.wire, Val.ofList, SAttrs.wire, SAttrs.written,
      SAttrs.passes, sizeArg, Given.means, Base.wire, flat, SAttrs.mark, zerosPiece, bytesPiece, orderBits, settled, u8,
      Container.scope, intPiece, sizeOf?, bitSized, orderOf, byteBits_ofNat, bits8, bits2, bits1, bits7, l8, l7, l6, l2, l1,
      e1, e2, w1, w2, hv, elems_ofList, flat_words, settled_words, length_bitsBE]

end Sample

/-- **C90.** The struct of `examples/example.rs` is written as in its diagram and read back, whatever follows. -/
theorem C90_samples_are_as_in_the_diagram (m : Machine) (d : Def) (hd : Sample.ty.compile = some d) (s : Sample)
    (hk : s.Ok m) :
    toBytes ((d.toTy m).write m {} s.val) = .ok s.bytes ∧
    ∀ rest, fromBytes ((d.toTy m).read m {}) (s.bytes ++ rest) 0 = .ok ((rest, 0), s.val) := by
  obtain ⟨h1, h2, h3⟩ := Sample.static m.native
  exact both_ways m Sample.ty d .msb0 h1 h2 h3 hd {} s.val (Sample.consistent hk) (Sample.described hk).2 _
    (Sample.described hk).1

/-- The input of the example. -/
example (m : Machine) (hm : 2 ≤ m.mem) (d : Def) (hd : Sample.ty.compile = some d) :
    fromBytes ((d.toTy m).read m {}) [0xab, 0xa5, 0xab, 0xcd, 0xc6, 0x02, 0xbe, 0xef, 0xc0, 0xfe] 0 =
      .ok (([], 0), .ofList [.num 0xab, .num 0x52, .num 1, .num 0xabcd, .num 3, .ofList [.num 6], .num 2,
        .ofList [.num 0xbeef, .num 0xc0fe]]) :=
  (C90_samples_are_as_in_the_diagram m d hd ⟨0xab, 0x52, 1, 0xabcd, 3, [0xbeef, 0xc0fe]⟩
    (by unfold Sample.Ok; simp; exact hm)).2 []

end Deku
