import Verif.Lemmas.SizedRead
import Verif.Model.Release

/-!
# Integers whose size is given by a field before: C107
-/

namespace Deku

open Prim

/-- **C107.** `struct { len: u8, #[deku(bits = "size(*len)", ..)] value: uW }`, for every unsigned type, endianness, bit
order, and every expression in `len`, in `bits` or in `bytes`: if the size is at least a bit and at most the type, a value
that fits in it is written in just as many bits after `len`, and it is read from any data that starts with these bits. -/
theorem C107_sized_by_a_field_before (m : Machine) (s : Sizing) (hs : s.compiles = true) (hW : 1 ≤ s.W) (size : Nat → Nat)
    (env : Env) (k v : Nat) (hk : k < 256) (h1 : 1 ≤ s.bits (size k)) (hn : s.bits (size k) ≤ 8 * s.W)
    (hv : v < 2 ^ s.bits (size k)) (ha : s.Agrees m.native (size k)) :
    (∃ out, toBytes ((s.record m size).write m env (.ofList [.num k, .num v])) = .ok out ∧
      Packed (s.order.getD .msb0) out (s.image m.native size k v)) ∧
    ∀ data rest, orderBits (s.order.getD .msb0) data = s.image m.native size k v ++ rest →
      fromBytes ((s.record m size).read m env) data 0 =
        .ok ((data.drop ((8 + s.bits (size k)) / 8), s.bits (size k) % 8), .ofList [.num k, .num v]) := by
  obtain ⟨hw, hr⟩ := Sizing.record_both hs hW m size env (p := 0) hk h1 hn hv ha (fun _ => rfl)
  refine ⟨hw.toBytes, fun data rest hd => ?_⟩
  have := hr.parses hd
  rw [show (s.image m.native size k v).length = 8 + s.bits (size k) by
    simp [Sizing.image, length_fieldBits, Reader.length_orderBits]] at this
  rw [this, Nat.add_mod_left]

/-- **C107.** In Msb0 such records can follow each other without gaps: an array of them, whatever their sizes are, is
written as their bits one after the other and read back. -/
theorem C107_records_follow_each_other (m : Machine) (s : Sizing) (hs : s.compiles = true) (hW : 1 ≤ s.W)
    (ho : s.order ≠ some .lsb0) (size : Nat → Nat) (env : Env) (l : List (Nat × Nat))
    (hl : ∀ x ∈ l, x.1 < 256 ∧ 1 ≤ s.bits (size x.1) ∧ s.bits (size x.1) ≤ 8 * s.W ∧ x.2 < 2 ^ s.bits (size x.1)) :
    let t : Ty := .array l.length (s.record m size)
    let value : Val := .ofList (l.map fun x => .ofList [.num x.1, .num x.2])
    let bits := l.flatMap fun x => s.image m.native size x.1 x.2
    (∃ out, toBytes (t.write m env value) = .ok out ∧ Packed .msb0 out bits) ∧
    ∀ data rest, orderBits .msb0 data = bits ++ rest →
      fromBytes (t.read m env) data 0 = .ok ((data.drop (bits.length / 8), bits.length % 8), value) := by
  intro t value bits
  obtain ⟨a, b⟩ := Sizing.records_both hs hW m size env ho l 0 hl
  have hw : t.write m env value = Coll.writeAll ((s.record m size).write m env) (l.map fun x => .ofList [.num x.1, .num x.2]) := by
    simp only [t, value, Ty.write]
    rw [if_pos (by rw [isList_ofList, elems_ofList, List.length_map]; exact ⟨rfl, rfl⟩), elems_ofList]
  rw [hw]
  exact ⟨a.toBytes, fun data rest hd => (b.map Val.ofList).parses hd⟩

/-- **C107.** Every input whose size is in range. -/
theorem C107_every_input_in_range (m : Machine) (s : Sizing) (hs : s.compiles = true) (hW : 1 ≤ s.W) (size : Nat → Nat)
    (env : Env) (b : Byte) (rest : List Byte) (n : Nat) (hn : s.bits (size b.toNat) = n) (h1 : 1 ≤ n) (h8 : n ≤ 8 * s.W) :
    fromBytes ((s.record m size).read m env) (b :: rest) 0 =
      if n ≤ 8 * rest.length then
        .ok ((rest.drop (n / 8), n % 8), .ofList [.num b.toNat, .num (fieldValue (s.endian.getD m.native) (s.order.getD .msb0)
          ((orderBits (s.order.getD .msb0) rest).take n))])
      else .err (.incomplete n) := by
  subst hn
  obtain ⟨hshape, -⟩ := Sizing.ctx_shape hs m (size b.toNat) h1 h8
  have hd := readUnsigned_delivers m.native (s.ctx (size b.toNat)) hW
  rw [hshape] at hd
  have := hd h1 h8 (Sizing.after b rest) rfl (by intro l h; cases h)
  rw [Sizing.after_unread, Reader.length_orderBits] at this
  rw [Sizing.record_first]
  by_cases hl : s.bits (size b.toNat) ≤ 8 * rest.length
  · rw [if_pos hl]
    obtain ⟨r', e, st⟩ := this.1 hl
    rw [e]
    have hb : r'.bitsRead = 8 + s.bits (size b.toNat) := st.bitsRead
    simp only [hb]
    rw [if_pos (by omega), show (8 + s.bits (size b.toNat)) / 8 = s.bits (size b.toNat) / 8 + 1 by omega, List.drop_succ_cons,
      Nat.add_mod_left]
  · rw [if_neg hl]
    obtain ⟨k, r', e, _, hk, _⟩ := this.2 hl
    rw [e, hk (by intro b h; cases h)]

/-- **C107.** For a `u8` a size in bytes, and without an endianness a size that is a multiple of eight bits, does not count:
whatever it is, zero or more than the type, one byte is read. -/
theorem C107_a_size_that_does_not_count (m : Machine) (s : Sizing) (hs : s.compiles = true) (size : Nat → Nat)
    (env : Env) (b : Byte) (rest : List Byte) (h : s.oneByte (size b.toNat)) :
    fromBytes ((s.record m size).read m env) (b :: rest) 0 =
      match rest with
      | [] => .err (.incomplete 8)
      | c :: tl => .ok ((tl, 0), .ofList [.num b.toNat, .num c.toNat]) := by
  rw [Sizing.record_first, Sizing.oneByte_read hs h]
  cases rest with
  | nil => rfl
  | cons c tl =>
    have : readU8Bytes (s.order.getD .msb0) (Sizing.after b (c :: tl)) =
      (.ok c.toNat, { inner := { data := b :: c :: tl, pos := 2, calls := 2 }, bitsRead := 16 }) := by
      simp [readU8Bytes, Sizing.after, Reader.readBytesConstInto, Reader.ioRead, Src.readExact, noFaults, bind, M.bind, M.get, M.modify, pure, M.pure, beNat]
    rw [this]
    simp

/-- **C107**, in part: a size beyond the type is an error, whatever comes after it. Missing: the `u8` of the theorem before, for
which it is not so. -/
theorem C107_a_size_beyond_the_type_partial (m : Machine) (s : Sizing) (hs : s.compiles = true) (size : Nat → Nat)
    (env : Env) (b : Byte) (rest : List Byte) (h : ¬ s.oneByte (size b.toNat)) (hn : 8 * s.W < s.bits (size b.toNat)) :
    fromBytes ((s.record m size).read m env) (b :: rest) 0 = .err .parse := by
  rw [Sizing.record_first, Sizing.beyond_refused hs h hn]

/-- **C107.** A size of zero: nothing is read and the value is 0, but for `bits` with an endianness in Msb0 order, where the
program panics. -/
theorem C107_a_size_of_zero (m : Machine) (s : Sizing) (hs : s.compiles = true) (hW : 1 ≤ s.W) (size : Nat → Nat)
    (env : Env) (b : Byte) (rest : List Byte) (h : ¬ s.oneByte (size b.toNat)) (hn : size b.toNat = 0) :
    fromBytes ((s.record m size).read m env) (b :: rest) 0 =
      if s.inBytes = false ∧ s.endian.isSome ∧ s.order ≠ some .lsb0 then .panic
      else .ok ((rest, 0), .ofList [.num b.toNat, .num 0]) := by
  rw [Sizing.record_first, hn]
  rw [hn] at h
  by_cases hc : s.inBytes = false ∧ s.endian.isSome ∧ s.order ≠ some .lsb0
  · have := Sizing.zero_panics hs hW hc.1 hc.2.1 hc.2.2 m.native (Sizing.after b rest)
    rcases h : readUnsigned m.native s.W (s.ctx 0) (Sizing.after b rest) with ⟨x, r⟩
    rw [h] at this
    simp only at this
    subst this
    rw [if_pos hc]
  · obtain ⟨r, e, hr⟩ := Sizing.zero_reads hs h hc m.native b rest
    rw [e, if_neg hc]
    simp [hr]

/-- **C107.** In `bits`, a value that does not fit the size, or a size beyond the type, is refused when written, by every type. -/
theorem C107_what_does_not_fit_is_not_written (m : Machine) (s : Sizing) (hs : s.compiles = true) (hb : s.inBytes = false)
    (size : Nat → Nat) (env : Env) (k v : Nat) (hk : k < 256) (hv : v < 256 ^ s.W)
    (h : 8 * s.W < size k ∨ 2 ^ size k ≤ v) :
    toBytes ((s.record m size).write m env (.ofList [.num k, .num v])) = .err .invalidParam := by
  rw [Sizing.record_write s m size env k v hk hv]
  obtain ⟨w, e, -⟩ := (Sizing.u8_both m.native .msb0 (p := 0) (fun h => by cases h) hk).1 (Writer.new {}) (Writer.new_at _)
  obtain ⟨h1, h2⟩ := Sizing.ctx_shape_bits hs hb m.native (size k)
  have hr := writeUnsigned_refuses m.native (s.ctx (size k)) h2 hv
  rw [h1] at hr
  have := hr h w
  unfold toBytes
  rw [show ((do (do writeUnsigned m.native 1 .unit k; writeUnsigned m.native s.W (s.ctx (size k)) v); Writer.finalize : M Writer Unit)
    (Writer.new {})) = (.err .invalidParam, w) by simp only [M.bind_def, e, this]]

/-- **C107.** What is parsed with a size in range is written again as the bits it was read from. -/
theorem C107_parsed_is_written_again (m : Machine) (s : Sizing) (hs : s.compiles = true) (hW : 1 ≤ s.W) (size : Nat → Nat)
    (env : Env) (b : Byte) (rest : List Byte) (n : Nat) (hn : s.bits (size b.toNat) = n) (h1 : 1 ≤ n) (h8 : n ≤ 8 * s.W)
    (hl : n ≤ 8 * rest.length) (ha : s.Agrees m.native (size b.toNat)) :
    ∃ v out, fromBytes ((s.record m size).read m env) (b :: rest) 0 = .ok ((rest.drop (n / 8), n % 8), v) ∧
      toBytes ((s.record m size).write m env v) = .ok out ∧
      Packed (s.order.getD .msb0) out ((orderBits (s.order.getD .msb0) (b :: rest)).take (8 + n)) := by
  have hd := Sizing.dense_of_agrees hn h8 ha
  have hp := C107_every_input_in_range m s hs hW size env b rest n hn h1 h8
  rw [if_pos hl] at hp
  have hlen : ((orderBits (s.order.getD .msb0) rest).take n).length = n := by
    rw [List.length_take, Reader.length_orderBits]; omega
  have hlt := fieldValue_dense_lt (l := (orderBits (s.order.getD .msb0) rest).take n) (by rw [hlen]; exact hd)
  have hfb := fieldBits_fieldValue (l := (orderBits (s.order.getD .msb0) rest).take n) (by rw [hlen]; exact hd)
  rw [hlen] at hlt hfb
  subst hn
  obtain ⟨⟨out, hw, hpk⟩, -⟩ := C107_sized_by_a_field_before m s hs hW size env b.toNat _ b.isLt h1 h8 hlt ha
  refine ⟨_, out, hp, hw, ?_⟩
  have : s.image m.native size b.toNat (fieldValue (s.endian.getD m.native) (s.order.getD .msb0)
      ((orderBits (s.order.getD .msb0) rest).take (s.bits (size b.toNat)))) =
      (orderBits (s.order.getD .msb0) (b :: rest)).take (8 + s.bits (size b.toNat)) := by
    have hc : orderBits (s.order.getD .msb0) (b :: rest) = orderBits (s.order.getD .msb0) [b] ++ orderBits (s.order.getD .msb0) rest := by
      cases s.order.getD .msb0 <;> simp [orderBits]
    rw [Sizing.image, hfb, hc, List.take_append, Reader.length_orderBits]
    simp [List.take_of_length_le, Reader.length_orderBits]
  rwa [this] at hpk

/-- **C107**, "no message makes it panic" is false: with an endianness, on the field or on its struct, a sender that says zero
makes every type of this kind panic, whatever they send after it. -/
theorem C107_a_sender_can_make_it_panic (m : Machine) (W : Nat) (hW : 1 ≤ W) (e : Endian) (env : Env) (rest : List Byte) :
    fromBytes ((({ W := W, endian := some e } : Sizing).record m id).read m env) (0 :: rest) 0 = .panic := by
  rw [C107_a_size_of_zero m _ rfl hW id env 0 rest (by rintro ⟨-, h | ⟨h, -⟩⟩ <;> cases h) rfl]
  exact if_pos ⟨rfl, rfl, by simp⟩

/-- **C107**, and a release build does not help in big endian: the assertion that fails, `index < self.size` in
`BoundedBitVec::insert`, is there too. From every state of the reader. -/
theorem C107_a_release_build_panics_too (native : Endian) (s : Sizing) (hW : 1 ≤ s.W) (hb : s.inBytes = false)
    (he : s.endian = some .big) (ho : s.order ≠ some .lsb0) (r : Reader) :
    ((Rel.uintCodec native s.W (s.ctx 0)).read r).1 = .panic := by
  obtain ⟨W, c, e, o⟩ := s
  simp only at hb he hW
  subst hb he
  obtain ⟨k, hk⟩ : ∃ k, 8 * W = k + 1 := ⟨8 * W - 1, by omega⟩
  rcases o with _ | _ | _
  · show ((do let n ← Rel.readBits W .big 0; pure (.num n) : M Reader Val) r).1 = .panic
    simp [Rel.readBits, readBitsInto_zero, Rel.readSlice, hk, insertZeros, bind, M.bind, pure, M.pure, M.panic, M.assert]
  · show ((do let n ← Rel.readBitsOrd W .big 0 .msb0; pure (.num n) : M Reader Val) r).1 = .panic
    simp [Rel.readBitsOrd, readBitsInto_zero, Rel.readSliceOrd, hk, insertZeros, bind, M.bind, pure, M.pure, M.panic, M.assert]
  · exact absurd rfl ho

/-- **C107**, "what is parsed can be written" is false: a `u8` whose size is more than a byte, or zero with a byte other than
zero after it, is parsed but not written. -/
theorem C107_a_byte_that_cannot_be_written (m : Machine) (o : Option Order) (size : Nat → Nat) (env : Env) (b c : Byte)
    (rest : List Byte) (h8 : size b.toNat % 8 = 0) (h : 8 < size b.toNat ∨ size b.toNat = 0 ∧ c ≠ 0) :
    let t := ({ W := 1, order := o } : Sizing).record m size
    ∃ v, fromBytes (t.read m env) (b :: c :: rest) 0 = .ok ((rest, 0), v) ∧ toBytes (t.write m env v) = .err .invalidParam := by
  intro t
  have hs : ({ W := 1, order := o } : Sizing).compiles = true := by cases o <;> rfl
  refine ⟨_, C107_a_size_that_does_not_count m _ hs size env b (c :: rest) ⟨rfl, .inr ⟨rfl, h8⟩⟩, ?_⟩
  refine C107_what_does_not_fit_is_not_written m _ hs rfl size env b.toNat c.toNat b.isLt (by simpa using c.isLt) ?_
  rcases h with h | ⟨h, hc⟩
  · exact .inl (by simpa using h)
  · right
    rw [h]
    have : c.toNat ≠ 0 := fun e => hc (BitVec.eq_of_toNat_eq e)
    omega

/-! ### examples -/

/-- The example of the documentation (src/attributes.rs:836-870): `field_a_len: u8`,
`#[deku(bits = "*field_a_len as usize")] field_a: u8`. -/
def Sizing.documented : Sizing := { W := 1 }

example : Sizing.documented.compiles = true ∧ 1 ≤ Sizing.documented.W ∧ Sizing.documented.Agrees .little 3 ∧
    1 ≤ Sizing.documented.bits 3 ∧ Sizing.documented.bits 3 ≤ 8 * Sizing.documented.W ∧ 5 < 2 ^ Sizing.documented.bits 3 :=
  ⟨rfl, by decide, (by intro h; cases h), by decide, by decide, by decide⟩

example : fromBytes ((Sizing.documented.record ⟨.little, 100⟩ id).read ⟨.little, 100⟩ {}) [3, 0b10100000] 0 =
    .ok (([0b10100000], 3), .ofList [.num 3, .num 5]) := by decide +kernel

example : toBytes ((Sizing.documented.record ⟨.little, 100⟩ id).write ⟨.little, 100⟩ {} (.ofList [.num 3, .num 5])) =
    .ok [3, 0b10100000] := by decide +kernel

/-- `#[deku(bytes = "*len as usize", endian = "big")] value: u32` -/
example : fromBytes ((({ W := 4, inBytes := true, endian := some .big } : Sizing).record ⟨.little, 100⟩ id).read ⟨.little, 100⟩ {})
    [3, 1, 2, 3, 4] 0 = .ok (([4], 0), .ofList [.num 3, .num 0x010203]) := by decide +kernel

/-- Two records after each other: 3 bits and 5 bits. -/
example : toBytes ((Ty.array 2 (Sizing.documented.record ⟨.little, 100⟩ id)).write ⟨.little, 100⟩ {}
    (.ofList [.ofList [.num 3, .num 5], .ofList [.num 5, .num 1]])) = .ok [3, 0b10100000, 0b10100001] := by decide +kernel

/-- A size beyond the type, and one of zero. -/
example : fromBytes ((({ W := 2, endian := some .big } : Sizing).record ⟨.little, 100⟩ id).read ⟨.little, 100⟩ {}) [17, 1, 2, 3] 0 =
    .err .parse := by decide +kernel

example : fromBytes ((({ W := 2, endian := some .big } : Sizing).record ⟨.little, 100⟩ id).read ⟨.little, 100⟩ {}) [0, 1, 2, 3] 0 =
    .panic := by decide +kernel

example : fromBytes ((Sizing.documented.record ⟨.little, 100⟩ id).read ⟨.little, 100⟩ {}) [16, 7] 0 =
    .ok (([], 0), .ofList [.num 16, .num 7]) := by decide +kernel

example : ¬ ({ W := 2, endian := some .big } : Sizing).oneByte 17 ∧ Sizing.documented.oneByte 16 :=
  ⟨(by rintro ⟨h, -⟩; cases h), rfl, .inr ⟨rfl, rfl⟩⟩

end Deku
