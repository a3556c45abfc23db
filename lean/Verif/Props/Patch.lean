import Verif.Lemmas.Patch
import Verif.Props.Consistent
import Verif.Lemmas.Examples

/-!
# Properties of messages that are patched in place: C103

A value inside a message has its own bits, at a place that does not depend on it. Other values of the same size may be
written there without parsing the message.
-/

namespace Deku

open Patch

namespace Patch

theorem settled_mod {o : Order} : ∀ (l : List Piece) (n n' : Nat), n % 8 = n' % 8 → settled o n l = settled o n' l
  | [], _, _, _ => rfl
  | x :: l, n, n', h => by
    simp only [settled, h, settled_mod l (n + x.bits.length) (n' + x.bits.length) (by omega)]

theorem settled_append {o : Order} : ∀ (l l' : List Piece) (n : Nat),
    settled o n (l ++ l') = (settled o n l && settled o (n + (flat l).length) l')
  | [], l', n => by simp [settled, flat]
  | x :: l, l', n => by
    simp only [List.cons_append, settled, settled_append l l', flat, List.flatMap_cons, List.length_append, Bool.and_assoc,
      Nat.add_assoc]

theorem fits_self {o : Order} {m : Machine} {s : Spot} (h : s.ty.consistent o m s.lims s.args s.env s.val = true) :
    Fits o m s s.val := ⟨h, rfl, rfl⟩

theorem overwrite_append (pre old new post : List Bool) (h : new.length = old.length) :
    overwrite pre.length new (pre ++ old ++ post) = pre ++ new ++ post := by
  have h1 : (pre ++ old ++ post).take pre.length = pre := by rw [List.append_assoc, List.take_left']; rfl
  have h2 : (pre ++ old ++ post).drop (pre.length + new.length) = post := by
    rw [h, ← List.length_append, List.drop_left']; rfl
  simp only [overwrite, h1, h2]

/-- The bits of the message around the place. -/
theorem described_split {o : Order} {m : Machine} {t : STy} {env : Env} {v : Val} {p : List Go} {s : Spot}
    (hs : spot o m.native p t [] [] env v = some s) (hc : t.consistent o m [] [] env v = true) (ha : t.aligned o m.native env v = true) :
    s.ty.consistent o m s.lims s.args s.env s.val = true ∧ ∃ pre post, pre.length = s.off ∧
      t.described o m.native env v = pre ++ bitsAt o m.native s s.val ++ post ∧
      settled o pre.length (s.ty.wire o m.native s.args s.env s.val) = true ∧
      ∀ y, Fits o m s y → (bitsAt o m.native s y).length = (bitsAt o m.native s s.val).length ∧
        t.consistent o m [] [] env (put p y v) = true ∧ t.aligned o m.native env (put p y v) = true ∧
        t.described o m.native env (put p y v) = pre ++ bitsAt o m.native s y ++ post := by
  obtain ⟨h1, pre, post, h0, h2, h3⟩ := spot_sound p t [] [] env v s hs hc
  refine ⟨h1, flat pre, flat post, h0, by simp only [STy.described, h2, flat_append, bitsAt], ?_, fun y hy => ?_⟩
  · simp only [STy.aligned, h2, settled_append, Bool.and_eq_true] at ha
    have := ha.1.2
    rwa [Nat.zero_add] at this
  · obtain ⟨h4, h5⟩ := h3 y hy
    refine ⟨length_of_forms hy.2.2, h4, ?_, by simp only [STy.described, h5, flat_append, bitsAt]⟩
    rw [← ha]
    simp only [STy.aligned]
    refine settled_of_forms ?_
    rw [h5, h2]
    simp only [List.map_append, hy.2.2]

end Patch

/-! ## C103 -/

/-- **C103.** The value at a place has its own bits in the message. If another value of the same size is put there, it is
written with exactly these bits changed, and all others as they were. -/
theorem C103_only_its_own_bits_change (m : Machine) (t : STy) (d : Def) (o : Order)
    (ht : t.ordered o m.native [] = true) (hi : t.idsNamed = true) (hz : t.sized [] = true) (hd : t.compile = some d)
    (env : Env) (v : Val) (hc : t.consistent o m [] [] env v = true) (ha : t.aligned o m.native env v = true)
    (p : List Go) (s : Spot) (hs : spot o m.native p t [] [] env v = some s) :
    ∃ out, toBytes ((d.toTy m).write m env v) = .ok out ∧
      s.off + (bitsAt o m.native s s.val).length ≤ 8 * out.length ∧
      ((orderBits o out).drop s.off).take (bitsAt o m.native s s.val).length = bitsAt o m.native s s.val ∧
      ∀ y, Fits o m s y → (bitsAt o m.native s y).length = (bitsAt o m.native s s.val).length ∧
        ∃ out', toBytes ((d.toTy m).write m env (put p y v)) = .ok out' ∧
          orderBits o out' = overwrite s.off (bitsAt o m.native s y) (orderBits o out) := by
  obtain ⟨_, pre, post, h0, h1, _, h2⟩ := described_split hs hc ha
  obtain ⟨out, h3, h4⟩ := C75_consistent_values_are_written_as_described m t d o ht hi hz hd env v hc ha
  unfold Packed at h4
  have hlen := congrArg List.length h4
  simp only [Deku.Reader.length_orderBits, List.length_append, h1] at hlen
  rw [← h0]
  refine ⟨out, h3, by omega, ?_, fun y hy => ?_⟩
  · rw [h4, h1]
    simp only [List.append_assoc]
    rw [List.drop_left' rfl, List.take_left' rfl]
  · obtain ⟨h5, h6, h7, h8⟩ := h2 y hy
    obtain ⟨out', h9, h10⟩ := C75_consistent_values_are_written_as_described m t d o ht hi hz hd env _ h6 h7
    refine ⟨h5, out', h9, ?_⟩
    unfold Packed at h10
    rw [h10, h4, h1, h8, List.append_assoc _ post, List.append_assoc _ post, overwrite_append _ _ _ _ h5]
    simp only [List.length_append, h5]

/-- **C103.** A message, whatever follows it, in which the bits at the place are overwritten is parsed as the same value but
for the new one at the place, and the same number of bits is consumed. -/
theorem C103_a_patched_message_is_parsed (m : Machine) (t : STy) (d : Def) (o : Order)
    (ht : t.ordered o m.native [] = true) (hi : t.idsNamed = true) (hz : t.sized [] = true) (hd : t.compile = some d)
    (env : Env) (v : Val) (hc : t.consistent o m [] [] env v = true) (ha : t.aligned o m.native env v = true)
    (p : List Go) (s : Spot) (hs : spot o m.native p t [] [] env v = some s)
    (data : List Byte) (rest : List Bool) (hb : orderBits o data = t.described o m.native env v ++ rest) :
    ((orderBits o data).drop s.off).take (bitsAt o m.native s s.val).length = bitsAt o m.native s s.val ∧
    ∀ (y : Val) (data' : List Byte), Fits o m s y →
      orderBits o data' = overwrite s.off (bitsAt o m.native s y) (orderBits o data) →
      fromBytes ((d.toTy m).read m env) data' 0 =
        .ok ((data'.drop ((t.described o m.native env v).length / 8), (t.described o m.native env v).length % 8), put p y v) := by
  obtain ⟨_, pre, post, h0, h1, _, h2⟩ := described_split hs hc ha
  rw [← h0]
  refine ⟨?_, fun y data' hy hb' => ?_⟩
  · rw [hb, h1]
    simp only [List.append_assoc]
    rw [List.drop_left' rfl, List.take_left' rfl]
  · obtain ⟨h5, h6, h7, h8⟩ := h2 y hy
    have hl : (t.described o m.native env v).length = (t.described o m.native env (put p y v)).length := by
      simp only [h1, h8, List.length_append, h5]
    rw [hl]
    refine C75_consistent_values_are_parsed_as_described m t d o ht hi hz hd env _ h6 h7 data' rest ?_
    rw [hb', hb, h1, h8, List.append_assoc _ post, List.append_assoc _ post, overwrite_append _ _ _ _ h5]

/-- **C103.** A message inside a message, in whole bytes of the outer one, is parsed on its own from where it begins. -/
theorem C103_a_message_inside_is_parsed_on_its_own (m : Machine) (t : STy) (o : Order)
    (env : Env) (v : Val) (hc : t.consistent o m [] [] env v = true) (ha : t.aligned o m.native env v = true)
    (p : List Go) (s : Spot) (hs : spot o m.native p t [] [] env v = some s) (hl : s.lims = []) (hg : s.args = []) (d' : Def)
    (ht' : s.ty.ordered o m.native [] = true) (hi' : s.ty.idsNamed = true) (hz' : s.ty.sized [] = true)
    (hd' : s.ty.compile = some d') (hn : s.off % 8 = 0)
    (data : List Byte) (rest : List Bool) (hb : orderBits o data = t.described o m.native env v ++ rest) :
    fromBytes ((d'.toTy m).read m {}) (data.drop (s.off / 8)) 0 =
      .ok (((data.drop (s.off / 8)).drop ((bitsAt o m.native s s.val).length / 8), (bitsAt o m.native s s.val).length % 8),
        s.val) := by
  obtain ⟨h1, pre, post, h0, h2, h3, _⟩ := described_split hs hc ha
  obtain ⟨ty, lims, args, e, x, off⟩ := s
  dsimp only at *
  subst hl hg h0
  have hargs : Args [] e {} := by simp [Args]
  have hlims : Lims [] e {} := by simp [Lims]
  rw [consistent_agree o m ty hlims hargs] at h1
  rw [wire_agree o m.native ty hargs, settled_mod _ _ 0 (by simpa using hn)] at h3
  simp only [bitsAt] at h2 ⊢
  rw [wire_agree o m.native ty hargs] at h2 ⊢
  refine C75_consistent_values_are_parsed_as_described m ty d' o ht' hi' hz' hd' {} x h1 h3 _ (post ++ rest) ?_
  rw [← Deku.Reader.drop_orderBits, show 8 * (pre.length / 8) = pre.length by omega, hb, h2]
  simp only [List.append_assoc]
  rw [List.drop_left' rfl]
  rfl

/-- **C103.** The outer message is patched by writing the bytes of another inner message of the same size there. -/
theorem C103_a_message_inside_is_replaced (m : Machine) (t : STy) (d : Def) (o : Order)
    (ht : t.ordered o m.native [] = true) (hi : t.idsNamed = true) (hz : t.sized [] = true) (hd : t.compile = some d)
    (env : Env) (v : Val) (hc : t.consistent o m [] [] env v = true) (ha : t.aligned o m.native env v = true)
    (p : List Go) (s : Spot) (hs : spot o m.native p t [] [] env v = some s) (hl : s.lims = []) (hg : s.args = []) (d' : Def)
    (ht' : s.ty.ordered o m.native [] = true) (hi' : s.ty.idsNamed = true) (hz' : s.ty.sized [] = true)
    (hd' : s.ty.compile = some d') (hn : s.off % 8 = 0) (hw : (bitsAt o m.native s s.val).length % 8 = 0) :
    ∃ out, toBytes ((d.toTy m).write m env v) = .ok out ∧ ∀ y, Fits o m s y →
      ∃ new, toBytes ((d'.toTy m).write m {} y) = .ok new ∧ 8 * new.length = (bitsAt o m.native s s.val).length ∧
        toBytes ((d.toTy m).write m env (put p y v)) =
          .ok (out.take (s.off / 8) ++ new ++ out.drop (s.off / 8 + new.length)) ∧
        ∀ extra, ∃ rest, fromBytes ((d.toTy m).read m env)
          (out.take (s.off / 8) ++ new ++ out.drop (s.off / 8 + new.length) ++ extra) 0 = .ok (rest, put p y v) := by
  obtain ⟨out, h1, _, _, h2⟩ := C103_only_its_own_bits_change m t d o ht hi hz hd env v hc ha p s hs
  obtain ⟨_, pre, post, h0, _, h3, h3'⟩ := described_split hs hc ha
  refine ⟨out, h1, fun y hy => ?_⟩
  obtain ⟨h4, out', h5, h6⟩ := h2 y hy
  obtain ⟨_, k1, k2, _⟩ := h3' y hy
  obtain ⟨ty, lims, args, e, x, off⟩ := s
  dsimp only at *
  subst hl hg h0
  have hargs : Args [] e {} := by simp [Args]
  have hlims : Lims [] e {} := by simp [Lims]
  have hcy := hy.1
  dsimp only at hcy
  rw [consistent_agree o m ty hlims hargs] at hcy
  have hay : ty.aligned o m.native {} y = true := by
    rw [settled_of_forms hy.2.2.symm, wire_agree o m.native ty hargs, settled_mod _ _ 0 (by simpa using hn)] at h3
    exact h3
  obtain ⟨new, h7, h8⟩ := C75_consistent_values_are_written_as_described m ty d' o ht' hi' hz' hd' {} y hcy hay
  have hbits : orderBits o new = bitsAt o m.native ⟨ty, [], [], e, x, pre.length⟩ y := by
    have : bitsAt o m.native ⟨ty, [], [], e, x, pre.length⟩ y = ty.described o m.native {} y := by
      simp only [bitsAt, wire_agree o m.native ty hargs, STy.described]
    unfold Packed at h8
    rw [h8, ← this, h4, hw]
    simp
  have hlen : 8 * new.length = (bitsAt o m.native ⟨ty, [], [], e, x, pre.length⟩ x).length := by
    rw [← h4, ← hbits, Deku.Reader.length_orderBits]
  have hout : out' = out.take (pre.length / 8) ++ new ++ out.drop (pre.length / 8 + new.length) := by
    refine Deku.Reader.orderBits_inj o ?_
    rw [h6, ← hbits, overwrite, Deku.Reader.length_orderBits, orderBits_append, orderBits_append, ← Deku.Reader.drop_orderBits, ← Deku.Reader.take_orderBits,
      show 8 * (pre.length / 8) = pre.length by omega,
      show 8 * (pre.length / 8 + new.length) = pre.length + 8 * new.length by omega]
  refine ⟨new, h7, hlen, hout ▸ h5, fun extra => ?_⟩
  rw [← hout]
  obtain ⟨out2, h9, h10⟩ := C75_consistent_values_round_trip m t d o ht hi hz hd env _ k1 k2
  rw [h5] at h9
  cases h9
  exact h10 extra

/-! ### Examples -/

open Example SourceExample

/-- ```
struct Item {
    #[deku(bits = 4)] kind: u8,
    #[deku(bits = 12, endian = "big")] amount: u16,
}

#[deku(magic = b"M")]
struct Order {
    n: u8,
    #[deku(pad_bytes_before = "1", count = "n")] items: Vec<Item>,
    #[deku(temp, temp_value = "items.len() as u8")] again: u8,
    #[deku(cond = "*n == 2")] note: Option<(u8, u8)>,
}
``` -/
def PatchExample.item : STy :=
  .struct {} (.cons { bits := some 4 } u8 (.cons { bits := some 12, endian := some (.lit .big) } u16 .nil))

open PatchExample

def PatchExample.order : STy :=
  .struct { magic := [0x4d] } (.cons {} u8
    (.cons { padBytesBefore := some 1, count := some (.field 0) } (.vec false item)
    (.cons { temp := some ⟨1, 1⟩ } u8
    (.cons { cond := some (.eq (.field 2) (.lit 2)) } (.option (.pair u8 u8)) .nil))))

def PatchExample.orderValue : Val :=
  .ofList [.num 2, .ofList [.ofList [.num 1, .num 0x234], .ofList [.num 5, .num 0x678]], .some (.ofList [.num 7, .num 8])]

theorem PatchExample.order_checked :
    order.ordered .msb0 .little [] = true ∧ order.idsNamed = true ∧ order.sized [] = true ∧
    order.compile.isSome = true ∧ order.consistent .msb0 mach [] [] {} orderValue = true ∧
    order.aligned .msb0 .little {} orderValue = true ∧
    order.described .msb0 .little {} orderValue = bytesBits [0x4d, 2, 0, 0x12, 0x34, 0x56, 0x78, 2, 7, 8] := by
  decide +kernel

set_option synthInstance.maxSize 1000 in
/-- Where the amount of the second item is, the second item, and the second part of the note. The number of items is not a
place to be changed alone; the list is, for another of two items. -/
theorem PatchExample.order_places :
    ((spot .msb0 .little [.field 1, .elem 1, .field 1] order [] [] {} orderValue).map fun s =>
      (s.off, s.val, bitsAt .msb0 .little s s.val, decide (Fits .msb0 mach s (.num 0xabc)), decide (Fits .msb0 mach s (.num 0x1abc)),
        bitsAt .msb0 .little s (.num 0xabc))) =
      some (44, .num 0x678, [false, true, true, false, false, true, true, true, true, false, false, false], true, false,
        [true, false, true, false, true, false, true, true, true, true, false, false]) ∧
    ((spot .msb0 .little [.field 1, .elem 1] order [] [] {} orderValue).map fun s =>
      (s.off, s.val, s.lims.length, s.args.length, decide (Fits .msb0 mach s (.ofList [.num 9, .num 0xabc])))) =
      some (40, .ofList [.num 5, .num 0x678], 0, 0, true) ∧
    ((spot .msb0 .little [.field 2, .some, .elem 1] order [] [] {} orderValue).map fun s =>
      (s.off, s.val, bitsAt .msb0 .little s s.val)) = some (72, .num 8, byteBits 8) ∧
    (spot .msb0 .little [.field 0] order [] [] {} orderValue).isNone = true ∧
    ((spot .msb0 .little [.field 1] order [] [] {} orderValue).map fun s =>
      (s.off, decide (Fits .msb0 mach s (.ofList [.ofList [.num 0, .num 0], .ofList [.num 0, .num 1]])),
        decide (Fits .msb0 mach s (.ofList [.ofList [.num 0, .num 0]])))) = some (24, true, false) := by
  refine ⟨?_, ?_, ?_, ?_, ?_⟩ <;> decide +kernel

example : ∃ d s, order.compile = some d ∧
    spot .msb0 mach.native [.field 1, .elem 1, .field 1] order [] [] {} orderValue = some s ∧
    fromBytes ((d.toTy mach).read mach {}) ([0x4d, 2, 0, 0x12, 0x34, 0x5a, 0xbc, 2, 7, 8] ++ [99]) 0 =
      .ok (([99], 0), put [.field 1, .elem 1, .field 1] (.num 0xabc) orderValue) ∧
    put [.field 1, .elem 1, .field 1] (.num 0xabc) orderValue =
      .ofList [.num 2, .ofList [.ofList [.num 1, .num 0x234], .ofList [.num 5, .num 0xabc]],
        .some (.ofList [.num 7, .num 8])] := by
  obtain ⟨h1, h2, h3, h4, h5, h6, h7⟩ := order_checked
  obtain ⟨d, hd⟩ := Option.isSome_iff_exists.1 h4
  obtain ⟨s, hs, hv⟩ := Option.map_eq_some_iff.1 order_places.1
  simp only [Prod.mk.injEq] at hv
  obtain ⟨e1, e2, e3, e4, _, e5⟩ := hv
  refine ⟨d, s, hd, hs, ?_, by decide +kernel⟩
  have h := (C103_a_patched_message_is_parsed mach order d .msb0 h1 h2 h3 hd {} orderValue h5 h6 _ s hs
    ([0x4d, 2, 0, 0x12, 0x34, 0x56, 0x78, 2, 7, 8] ++ [99]) (bytesBits [99])
    (by rw [show mach.native = .little from rfl, h7]; decide +kernel)).2 (.num 0xabc)
    ([0x4d, 2, 0, 0x12, 0x34, 0x5a, 0xbc, 2, 7, 8] ++ [99]) (of_decide_eq_true e4)
    (by rw [show mach.native = .little from rfl, e5, e1]; decide +kernel)
  rw [show mach.native = .little from rfl, h7] at h
  exact h

example : ∃ d d' s, order.compile = some d ∧ item.compile = some d' ∧
    spot .msb0 mach.native [.field 1, .elem 1] order [] [] {} orderValue = some s ∧
    fromBytes ((d'.toTy mach).read mach {}) (([0x4d, 2, 0, 0x12, 0x34, 0x56, 0x78, 2, 7, 8] : List Byte).drop (s.off / 8)) 0 =
      .ok (([2, 7, 8], 0), .ofList [.num 5, .num 0x678]) := by
  obtain ⟨h1, h2, h3, h4, h5, h6, h7⟩ := order_checked
  obtain ⟨d, hd⟩ := Option.isSome_iff_exists.1 h4
  obtain ⟨s, hs, hv⟩ := Option.map_eq_some_iff.1 order_places.2.1
  simp only [Prod.mk.injEq] at hv
  obtain ⟨e1, e2, e3, e4, _⟩ := hv
  obtain ⟨d', hd'⟩ := Option.isSome_iff_exists.1 (show item.compile.isSome = true by decide +kernel)
  have hty : ((spot .msb0 .little [.field 1, .elem 1] order [] [] {} orderValue).map (·.ty)) = some item := by rfl
  rw [hs] at hty
  simp only [Option.map_some, Option.some.injEq] at hty
  refine ⟨d, d', s, hd, hd', hs, ?_⟩
  have hbits : (bitsAt .msb0 .little s s.val).length = 16 := by
    have : ((spot .msb0 .little [.field 1, .elem 1] order [] [] {} orderValue).map fun s =>
      (bitsAt .msb0 .little s s.val).length) = some 16 := by decide +kernel
    rw [hs] at this
    simpa using this
  have h := C103_a_message_inside_is_parsed_on_its_own mach order .msb0 {} orderValue h5 h6 _ s hs
    (List.eq_nil_of_length_eq_zero e3) (List.eq_nil_of_length_eq_zero e4) d'
    (by rw [hty]; decide +kernel) (by rw [hty]; decide +kernel) (by rw [hty]; decide +kernel) (by rw [hty]; exact hd')
    (by rw [e1]) [0x4d, 2, 0, 0x12, 0x34, 0x56, 0x78, 2, 7, 8] [] (by rw [show mach.native = .little from rfl, h7]; decide +kernel)
  rw [show mach.native = .little from rfl, hbits, e1, e2] at h
  rw [e1]
  exact h

set_option synthInstance.maxSize 1000 in
/-- **C103** does not hold for a field that an attribute of another refers to, here the number of elements, nor for an element
of a list that ends with a certain element, nor for a field with an `assert_eq`: the message is written with only these bits
changed and is not parsed as the new value. None of them is a place. -/
theorem C103_what_others_depend_on_cannot_be_patched :
    (let t : STy := .struct {} (.cons {} u8 (.cons { count := some (.field 0) } (.vec false u8) .nil))
     let v := Val.ofList [.num 1, .ofList [.num 7]]
     (spot .msb0 .little [.field 0] t [] [] {} v).isNone = true ∧
     (t.compile.map fun d => (toBytes ((d.toTy mach).write mach {} v),
       toBytes ((d.toTy mach).write mach {} (put [.field 0] (.num 0) v)),
       fromBytes ((d.toTy mach).read mach {}) [0, 7] 0)) =
       some (.ok [1, 7], .ok [0, 7], .ok (([7], 0), .ofList [.num 0, .nil]))) ∧
    (let t : STy := .struct {} (.cons { untilEq := some 0 } (.vec false u8) .nil)
     let v := Val.ofList [.ofList [.num 1, .num 2, .num 0]]
     (spot .msb0 .little [.field 0, .elem 1] t [] [] {} v).isNone = true ∧
     (t.compile.map fun d => (toBytes ((d.toTy mach).write mach {} v),
       toBytes ((d.toTy mach).write mach {} (put [.field 0, .elem 1] (.num 0) v)),
       fromBytes ((d.toTy mach).read mach {}) [1, 0, 0] 0)) =
       some (.ok [1, 2, 0], .ok [1, 0, 0], .ok (([0], 0), .ofList [.ofList [.num 1, .num 0]]))) ∧
    (let t : STy := .struct {} (.cons { assertEq := some (.lit 1) } u8 .nil)
     let v := Val.ofList [.num 1]
     (spot .msb0 .little [.field 0] t [] [] {} v).isNone = true ∧
     (t.compile.map fun d => (toBytes ((d.toTy mach).write mach {} v), fromBytes ((d.toTy mach).read mach {}) [2] 0)) =
       some (.ok [1], .err .assertion)) := by
  refine ⟨⟨?_, ?_⟩, ⟨?_, ?_⟩, ?_, ?_⟩ <;> decide +kernel

/-- **C103** needs the same size: the name is a string, and with a longer one what follows moves. -/
theorem C103_another_size_moves_what_follows :
    let t : STy := .struct {} (.cons {} (.base .cstring) (.cons {} u8 .nil))
    let v := Val.ofList [.ofList [.num 97], .num 5]
    ((spot .msb0 .little [.field 0] t [] [] {} v).map fun s =>
      (decide (Fits .msb0 mach s (.ofList [.num 98])), decide (Fits .msb0 mach s (.ofList [.num 98, .num 99])))) =
      some (true, false) ∧
    (t.compile.map fun d => (toBytes ((d.toTy mach).write mach {} v),
      toBytes ((d.toTy mach).write mach {} (put [.field 0] (.ofList [.num 98, .num 99]) v)))) =
      some (.ok [97, 0, 5], .ok [98, 99, 0, 5]) := by
  refine ⟨?_, ?_⟩ <;> decide +kernel

end Deku
