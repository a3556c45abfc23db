import Verif.Lemmas.Canon
import Verif.Lemmas.Examples
import Verif.Props.Chain

/-!
# C49: a successful parse re-serialises to the same bits

`Ty.Canon` is the class of definitions in which every bit of a message is represented in the value and
read and written in the same way. The latter is what is missing for the full statement: there are
layouts of integers and lists of bytes that are read and written differently
(`C49_lsb0_big_endian_is_rejected`, `C49_unaligned_bytes_are_mirrored`).
-/

namespace Deku

open Reader Writer Coll Example

variable {o : Order} {m : Machine} {t : Ty} {env : Env}

/-- In the middle of a stream, at any alignment: what the parser consumed is what the serialiser of the
value it returned produces. -/
theorem C49_reserialises_the_bits_consumed_partial {P : Nat → Prop} {Q : Val → Nat → Prop} {p : Nat}
    (h : t.Canon m o false P Q env) (hp : P p) {r r' : Reader} {v : Val} (hr : r.At p)
    (he : t.read m env r = (.ok v, r')) {w : Writer} (hw : w.At o p) :
    ∃ n w', r.unread o = (r.unread o).take n ++ r'.unread o ∧ r'.bitsRead = r.bitsRead + n ∧
      t.write m env v w = (.ok (), w') ∧ w'.produced o = w.produced o ++ (r.unread o).take n := by
  obtain ⟨n, hn, s, hwr, _⟩ := Ty.canon m t false P Q env h p r v r' hp hr.live (fun _ => hr.noPeek) he
  obtain ⟨w', e, hs, _⟩ := hwr w hw
  exact ⟨n, w', by rw [s.unread, List.take_append_drop], s.bitsRead, e, hs.produced⟩

/-- `from_bytes` and `to_bytes`: the bits of the input that were consumed, filled up with zeros. -/
theorem C49_to_bytes_after_from_bytes_partial {Q : Val → Nat → Prop} (h : t.Canon m o false (· = 0) Q env)
    {data rest : List Byte} {b : Nat} {v : Val}
    (he : fromBytes (t.read m env) data 0 = .ok ((rest, b), v)) :
    ∃ n out, 8 * data.length + b = 8 * rest.length + n ∧ toBytes (t.write m env v) = .ok out ∧
      orderBits o out = (orderBits o data).take n ++ List.replicate ((8 - n % 8) % 8) false := by
  obtain ⟨r, e, hb, rfl, rfl⟩ := fromBytes_ok_iff.1 he
  rw [readFrom_zero] at e
  have hr := Reader.new_at data
  obtain ⟨n, hn, s, hwr, _⟩ := Ty.canon m t false _ Q env h 0 _ v r rfl hr.live (fun _ => hr.noPeek) e
  rw [Reader.new_unread] at hn hwr
  obtain ⟨out, ho, hout⟩ := hwr.toBytes
  have hbit : r.bitsRead = n := by rw [s.bitsRead]; simp [Reader.new]
  have hl : ((orderBits o data).take n).length = n := by rw [List.length_take, Nat.min_eq_left hn]
  refine ⟨n, out, ?_, ho, by rw [hout, hl]⟩
  rw [length_orderBits] at hn
  simp only [List.length_drop, hbit]
  omega

/-- A message of whole bytes: `to_bytes` gives back exactly the bytes in front of the rest. -/
theorem C49_whole_bytes_partial {Q : Val → Nat → Prop} (h : t.Canon m o false (· = 0) Q env)
    {data rest : List Byte} {v : Val} (he : fromBytes (t.read m env) data 0 = .ok ((rest, 0), v)) :
    ∃ out, toBytes (t.write m env v) = .ok out ∧ data = out ++ rest := by
  obtain ⟨n, out, hn, ho, hb⟩ := C49_to_bytes_after_from_bytes_partial h he
  obtain ⟨r, _, hle, hrest, _⟩ := fromBytes_ok_iff.1 he
  refine ⟨out, ho, ?_⟩
  have hlen : rest.length = data.length - r.bitsRead / 8 := by rw [hrest, List.length_drop]
  have hn8 : n = 8 * (r.bitsRead / 8) := by omega
  rw [hn8, orderBits_take, show (8 - 8 * (r.bitsRead / 8) % 8) % 8 = 0 by omega, List.replicate_zero,
    List.append_nil] at hb
  rw [orderBits_inj _ hb, hrest, List.take_append_drop]

/-- `TryFrom`: a byte string that is accepted is the serialisation of the value. -/
theorem C49_to_bytes_after_try_from_partial {Q : Val → Nat → Prop} (h : t.Canon m o false (· = 0) Q env)
    {data : List Byte} {v : Val} (he : tryFrom (t.read m env) data = .ok v) :
    toBytes (t.write m env v) = .ok data := by
  unfold tryFrom fromReader at he
  rw [readFrom_zero] at he
  have hr := Reader.new_at data
  cases hf : t.read m env (Reader.new { data := data }) with
  | mk x r =>
    rw [hf] at he
    cases x with
    | ok v' =>
      simp only at he
      split at he
      · simp at he
      · split at he
        · simp at he
        · rename_i h1 h2
          simp at he
          subst he
          obtain ⟨n, hn, s, hwr, _⟩ := Ty.canon m t false _ Q env h 0 _ v' r rfl hr.live
            (fun _ => hr.noPeek) hf
          rw [Reader.new_unread] at hn hwr
          obtain ⟨out, ho, hout⟩ := hwr.toBytes
          have hbit : r.bitsRead = n := by rw [s.bitsRead]; simp [Reader.new]
          rw [length_orderBits] at hn
          have hn8 : n = 8 * data.length := by omega
          subst hn8
          rw [List.take_of_length_le (by rw [length_orderBits]; omega), length_orderBits,
            show (8 - 8 * data.length % 8) % 8 = 0 by omega, List.replicate_zero, List.append_nil] at hout
          rw [ho, orderBits_inj _ hout]
    | err e => simp at he
    | panic => simp at he

/-- Two byte strings that are accepted as the same value are equal: there is only one way to encode a
value. -/
theorem C49_only_one_encoding_partial {Q : Val → Nat → Prop} (h : t.Canon m o false (· = 0) Q env)
    {data data' : List Byte} {v : Val} (he : tryFrom (t.read m env) data = .ok v)
    (he' : tryFrom (t.read m env) data' = .ok v) : data = data' := by
  have h1 := C49_to_bytes_after_try_from_partial h he
  rw [C49_to_bytes_after_try_from_partial h he'] at h1
  simpa using h1.symm

/-- Integers are represented completely, in every layout in which all their bits are used. -/
theorem C49_integers {native e : Endian} {W n : Nat} {ctx : IntCtx} {s : Option Nat} {P : Nat → Prop}
    (hW : 1 ≤ W) (hs : ctx.shape native W = (e, n, o)) (h1 : 1 ≤ n) (hn : n ≤ 8 * W)
    (hc : ∀ p, P p → Prim.Compatible native W ctx p) :
    (Ty.prim s fun _ => uintCodec native W ctx).Canon m o false P
      (fun v q => (∃ k : Nat, v = .num k) ∧ shift P n q) env := by
  simp only [Ty.Canon]
  exact uint_canon hW hs h1 hn hc

/-! ## Examples -/

namespace Example

/-- A message in which every bit is represented:
```
#[deku(magic = b"\xAB")]
struct Record {
    #[deku(bits = 4)] version: u8,
    #[deku(bits = 4)] flags: u8,
    #[deku(temp, temp_value = "self.items.len() as u8")] count: u8,
    #[deku(count = "count", endian = "big")] items: Vec<u16>,
    #[deku(cond = "*flags == 1")] extra: Option<u8>,
    shape: Shapes,
    #[deku(read_all, bits = 4)] tail: Vec<u8>,
}
``` -/
def record : Ty := .struct (fun _ => []) none [0xab] <|
  .cons {} u4T <| .cons {} u4T <|
  .temp {} u8T (some fun v => match v with
    | .cons _ (.cons _ (.cons items _)) => .num items.elems.length
    | _ => .num 0) <|
  .cons {} (.vec 2 (.count (var 0)) u16be) <|
  .cons { cond := some fun env => decide (var 2 env = 1), default := fun _ => .none } (.option u8T) <|
  .cons {} shapes <| .cons {} (.vec 1 .end u4T) .nil

theorem leaf_canon {native e : Endian} {W n : Nat} {ctx : IntCtx} {s : Option Nat} {m : Machine}
    {pk : Bool} {P : Nat → Prop} {Q : Val → Nat → Prop} {env : Env} (hW : 1 ≤ W)
    (hs : ctx.shape native W = (e, n, .msb0)) (h1 : 1 ≤ n) (hn : n ≤ 8 * W)
    (hQ : ∀ p k, P p → Q (.num ((k : Nat) : Int)) (p + n)) :
    (Ty.prim s fun _ => uintCodec native W ctx).Canon m .msb0 pk P Q env := by
  simp only [Ty.Canon]
  refine (uint_canon hW hs h1 hn fun p _ => ?_).mono (fun _ h => h) ?_
  · simp only [Prim.Compatible, hs]
    split
    · exact fun h => by simp at h
    · simp
  · rintro _ _ ⟨⟨k, rfl⟩, p, hp, rfl⟩
    exact ⟨rfl, hQ p k hp⟩

theorem u8_canon {pk : Bool} {P : Nat → Prop} {Q : Val → Nat → Prop} {env : Env}
    (hQ : ∀ p k, P p → Q (.num ((k : Nat) : Int)) (p + 8)) : u8T.Canon mach .msb0 pk P Q env :=
  leaf_canon (e := .little) (n := 8) (by decide) rfl (by decide) (by decide) hQ

theorem u4_canon {pk : Bool} {P : Nat → Prop} {Q : Val → Nat → Prop} {env : Env}
    (hQ : ∀ p k, P p → Q (.num ((k : Nat) : Int)) (p + 4)) : u4T.Canon mach .msb0 pk P Q env :=
  leaf_canon (e := .little) (n := 4) (by decide) rfl (by decide) (by decide) hQ

theorem u16_canon {pk : Bool} {P : Nat → Prop} {Q : Val → Nat → Prop} {env : Env}
    (hQ : ∀ p k, P p → Q (.num ((k : Nat) : Int)) (p + 16)) : u16be.Canon mach .msb0 pk P Q env :=
  leaf_canon (e := .big) (n := 16) (by decide) rfl (by decide) (by decide) hQ

/-- A field without attributes. -/
theorem plain_canon {T : (Nat → Prop) → (Val → Nat → Prop) → Env → Prop}
    {wr : Env → Val → M Writer Unit} {P : Nat → Prop} {Q : Val → Nat → Prop} {env : Env}
    (h : T (shift P 0) Q (env.at 0)) : ({} : Attrs).Canon .msb0 T wr P Q env := by
  refine ⟨rfl, rfl, .inl rfl, rfl, rfl, fun _ => ⟨rfl, Q, h, ?_⟩, fun h => by simp [Attrs.isRead] at h⟩
  intro raw v q hq hv
  simp at hv
  subst hv
  exact ⟨rfl, hq⟩

theorem shapes_canon {pk : Bool} {P : Nat → Prop} {env : Env} :
    shapes.Canon mach .msb0 pk P anyV env := by
  simp only [shapes, Ty.Canon]
  refine ⟨.inl trivial, fun v _ => ∃ k : Nat, v = Val.num k, ?_, ?_⟩
  · have h : u8T.Canon mach .msb0 pk (shift P (8 * ([] : List Byte).length))
      (fun v _ => ∃ k : Nat, v = Val.num k) env := u8_canon fun p k _ => ⟨k, rfl⟩
    simp only [u8T, Ty.Canon] at h
    refine h.mono (fun _ h => h) fun v q hq => ⟨?_, hq⟩
    cases shapeVariants.select { ctx := [] } v <;> simp only [ite_self]
  · rintro x ⟨_, k, rfl⟩ i hsel
    simp only [shapeVariants, Variants.select, Variants.firstMatch, Variants.defaultAt,
      Bool.false_eq_true, if_false] at hsel
    by_cases h1 : Val.num k = .num 1
    · simp only [h1, decide_true, if_true, Option.some.injEq] at hsel
      subst hsel
      simp only [shapeVariants, Variants.CanonAt, Fields.Canon, Bool.false_eq_true, if_false]
      exact ⟨fun _ => by rw [h1], fun _ _ => trivial⟩
    · by_cases h2 : Val.num k = .num 2
      · simp [h2] at hsel
        subst hsel
        simp only [shapeVariants, Variants.CanonAt, Fields.Canon, Bool.false_eq_true, if_false]
        exact ⟨fun _ => by rw [h2], anyV, plain_canon (u4_canon fun _ _ _ => trivial), fun _ _ => ⟨anyV,
          plain_canon (u4_canon fun _ _ _ => trivial), fun _ _ _ _ => trivial⟩⟩
      · simp only [h1, h2, decide_false, Bool.false_eq_true, if_false] at hsel
        split at hsel
        · rename_i j hj
          split at hj
          · simp at hj hsel
            subst hj
            subst hsel
            simp only [shapeVariants, Variants.CanonAt, Fields.CanonStored, Fields.Canon, if_true]
            exact ⟨trivial, trivial, fun _ _ => trivial⟩
          · simp at hj
        · simp at hsel

theorem record_canon {P : Nat → Prop} : record.Canon mach .msb0 false P anyV {} := by
  simp only [record, Ty.Canon, Fields.Canon]
  refine ⟨trivial, .inr (.inl rfl), anyV, plain_canon (u4_canon fun _ _ _ => trivial), fun ver _ => ⟨anyV,
    plain_canon (u4_canon fun _ _ _ => trivial), fun flags _ => ⟨fun v _ => ∃ k : Nat, v = Val.num k,
    plain_canon (u8_canon fun _ k _ => ⟨k, rfl⟩), ?_⟩⟩⟩
  rintro _ ⟨_, count, rfl⟩
  refine ⟨fun v _ => ∃ vs, v = Val.ofList vs ∧ vs.length = count, plain_canon ?_, ?_⟩
  · refine ⟨by decide, fun _ _ => True, fun _ _ => trivial, fun _ => u16_canon fun _ _ _ => trivial, ?_⟩
    intro vs q hl _
    refine ⟨vs, rfl, ?_⟩
    simpa [LimitE.Met, var, Env.push, Env.at] using hl
  · rintro _ ⟨_, vs, rfl, hl⟩
    refine ⟨anyV, ⟨rfl, rfl, .inl rfl, rfl, rfl, fun _ => ⟨rfl, anyV, ?_, ?_⟩, ?_⟩, ?_⟩
    · exact u8_canon fun _ _ _ => trivial
    · intro raw v q _ hv
      simp at hv
      exact ⟨hv.symm, trivial⟩
    · intro _ p _
      exact ⟨fun _ => Writes.pure _ p, trivial⟩
    · intro extra _
      refine ⟨anyV, plain_canon shapes_canon, fun shape _ => ⟨anyV, plain_canon ?_, fun tl _ _ _ => ?_⟩⟩
      · refine ⟨by decide, fun _ _ => True, fun _ _ => trivial, ?_, fun _ _ _ _ => trivial⟩
        intro j p _
        refine u4_canon ?_
        rintro q k rfl
        exact ⟨by omega, trivial⟩
      · refine ⟨?_, trivial⟩
        simp only [id, elems_ofList, hl]

end Example

/-- The theorems apply to `Record`. -/
example {data : List Byte} {v : Val} (he : tryFrom (record.read mach {}) data = .ok v) :
    toBytes (record.write mach {} v) = .ok data := C49_to_bytes_after_try_from_partial record_canon he

example : tryFrom (record.read mach {}) [0xab, 0x31, 2, 0, 5, 1, 0, 9, 7, 0xcd] =
      .ok (.ofList [.num 3, .num 1, .ofList [.num 5, .num 256], .some (.num 9),
        .variant 2 (.ofList [.num 7]), .ofList [.num 0xc, .num 0xd]]) ∧
    toBytes (record.write mach {} (.ofList [.num 3, .num 1, .ofList [.num 5, .num 256], .some (.num 9),
        .variant 2 (.ofList [.num 7]), .ofList [.num 0xc, .num 0xd]])) =
      .ok [0xab, 0x31, 2, 0, 5, 1, 0, 9, 7, 0xcd] := by decide +kernel

/-- In the middle of a byte. -/
example {r r' : Reader} {v : Val} (hr : r.At 3) (he : record.read mach {} r = (.ok v, r')) {w : Writer}
    (hw : w.At .msb0 3) :
    ∃ n w', r.unread .msb0 = (r.unread .msb0).take n ++ r'.unread .msb0 ∧ r'.bitsRead = r.bitsRead + n ∧
      record.write mach {} v w = (.ok (), w') ∧
      w'.produced .msb0 = w.produced .msb0 ++ (r.unread .msb0).take n :=
  C49_reserialises_the_bits_consumed_partial (record_canon (P := (· = 3))) rfl hr he hw

/-! ## Where it fails -/

/-- A big endian number of 12 bits in Lsb0 order, all of whose bits are represented: the value that is
read from `[0x12, 0x34]` is refused by the writer. -/
theorem C49_lsb0_big_endian_is_rejected :
    let t : Ty := .prim (some 12) fun _ => uintCodec .little 2 (.endianBitsOrder .big 12 .lsb0)
    fromBytes (t.read mach {}) [0x12, 0x34] 0 = .ok (([0x34], 4), .num 0x1204) ∧
    toBytes (t.write mach {} (.num 0x1204)) = .err .invalidParam := by decide +kernel

/-- `struct { #[deku(bits = 4)] a: u8, #[deku(count = "1")] b: Vec<u8>, #[deku(bits = 4)] c: u8 }`:
`ReadExact` takes the bits of `b` in Lsb0 order, they are written in Msb0 order. -/
theorem C49_unaligned_bytes_are_mirrored :
    let t : Ty := .struct (fun _ => []) none [] <| .cons {} u4T <|
      .cons {} (.bytes (fun _ => 1) fun _ => .unit) <| .cons {} u4T .nil
    let v := Val.ofList [.num 1, .ofList [.num 0x42], .num 3]
    fromBytes (t.read mach {}) [0x12, 0x34] 0 = .ok (([], 0), v) ∧
    toBytes (t.write mach {} v) = .ok [0x14, 0x23] := by decide +kernel

/-- Padding is not represented: it is written as zeros. -/
theorem C49_padding_is_lost :
    let t : Ty := .struct (fun _ => []) none [] <| .cons { padAfter := some fun _ => 4 } u4T .nil
    fromBytes (t.read mach {}) [0x3f] 0 = .ok (([], 0), .ofList [.num 3]) ∧
    toBytes (t.write mach {} (.ofList [.num 3])) = .ok [0x30] := by decide +kernel

/-- A temporary field without `temp_value` is read but not written. -/
theorem C49_temporary_field_is_lost :
    let t : Ty := .struct (fun _ => []) none [] <| .temp {} u8T none <| .cons {} u8T .nil
    fromBytes (t.read mach {}) [0x3f, 2] 0 = .ok (([], 0), .ofList [.num 2]) ∧
    toBytes (t.write mach {} (.ofList [.num 2])) = .ok [2] := by decide +kernel

/-- An id that selects the `default` variant is replaced by the id of this variant. -/
theorem C49_default_variant_changes_the_id :
    let t : Ty := .enum (fun _ => []) [] (.typed (some 8) fun _ => uintCodec .little 1 .unit)
      (fun _ _ => (uintCodec .little 1 .unit).write)
      (.cons { pat := fun _ x => decide (x = .num 1), id := some (.num 1), default := true }
        (.cons {} u8T .nil) .nil)
    fromBytes (t.read mach {}) [7, 2] 0 = .ok (([], 0), .variant 0 (.ofList [.num 2])) ∧
    toBytes (t.write mach {} (.variant 0 (.ofList [.num 2]))) = .ok [1, 2] := by decide +kernel

/-- A field with a `cond` that is not met is not read, but its default value is written, unless it is
an `Option`. -/
theorem C49_unread_field_is_written :
    fromBytes (condTy.read mach {}) [0, 5] 0 = .ok (([5], 0), .ofList [.num 0, .num 0]) ∧
    toBytes (condTy.write mach {} (.ofList [.num 0, .num 0])) = .ok [0, 0] := by decide +kernel

end Deku
