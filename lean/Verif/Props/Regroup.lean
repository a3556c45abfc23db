import Verif.Lemmas.Counts
import Verif.Lemmas.Examples

/-!
# Properties of ways to write the same definition: C84

Two definitions mean the same (`Ty.Same`, `Spec/Regroup.lean`) if reading takes the same bits, fails with the same error,
leaves the reader in the same state and gives corresponding values, and if corresponding values are written the same way.
Which values correspond is a function `f`; `P` holds of the values that are read.
-/

namespace Deku

variable {m : Machine} {t u : Ty} {P : Val → Prop} {f : Val → Val}

/-! ## What it means -/

theorem Ty.Same.readFrom (h : t.Same m u P f) (env : Env) (off : Nat) :
    Deku.readFrom (u.read m env) off = (do let v ← Deku.readFrom (t.read m env) off; pure (f v)) := by
  unfold Deku.readFrom
  rw [h.read]
  split
  · simp only [bind_assoc]
  · rfl

/-- **C84.** Definitions that mean the same cannot be told apart: not by the functions that read, from bytes or from any
stream, from any bit on, nor by those that write, to bytes, bits, a slice or any sink. -/
theorem C84_same_in_all_functions (h : t.Same m u P f) (env : Env) :
    (∀ data off, fromBytes (u.read m env) data off = (fromBytes (t.read m env) data off).map fun x => (x.1, f x.2)) ∧
    (∀ src off, fromReaderOn (u.read m env) src off =
      ((fromReaderOn (t.read m env) src off).1.map fun x => (x.1, f x.2), (fromReaderOn (t.read m env) src off).2)) ∧
    (∀ data, tryFrom (u.read m env) data = (tryFrom (t.read m env) data).map f) ∧
    (∀ r v r', t.read m env r = (.ok v, r') → P v) ∧
    (∀ v, P v → toBytes (u.write m env (f v)) = toBytes (t.write m env v) ∧
      toBits (u.write m env (f v)) = toBits (t.write m env v) ∧
      (∀ buf, toSlice (u.write m env (f v)) buf = toSlice (t.write m env v) buf) ∧
      ∀ sink, writeTo (u.write m env (f v)) sink = writeTo (t.write m env v) sink) := by
  have hr : ∀ src off, fromReader (u.read m env) src off = (fromReader (t.read m env) src off).map fun x => (x.1, f x.2) := by
    intro src off
    unfold fromReader
    rw [h.readFrom]
    rcases e : Deku.readFrom (t.read m env) off (Reader.new src) with ⟨v | _ | _, r⟩
    · rw [M.bind_ok e]; rfl
    · rw [M.bind_err e]; rfl
    · rw [M.bind_panic e]; rfl
  refine ⟨fun data off => ?_, fun src off => ?_, fun data => ?_, h.values env, fun v hv => ?_⟩
  · unfold fromBytes
    rw [h.readFrom]
    rcases e : Deku.readFrom (t.read m env) off (Reader.new { data := data }) with ⟨v | _ | _, r⟩
    · rw [M.bind_ok e]
      show (if _ then _ else _ : Res _) = _
      dsimp only
      split <;> rfl
    · rw [M.bind_err e]; rfl
    · rw [M.bind_panic e]; rfl
  · unfold fromReaderOn
    rw [h.readFrom]
    rcases e : Deku.readFrom (t.read m env) off (Reader.new src) with ⟨v | _ | _, r⟩
    · rw [M.bind_ok e]; rfl
    · rw [M.bind_err e]; rfl
    · rw [M.bind_panic e]; rfl
  · unfold tryFrom
    rw [hr]
    rcases fromReader (t.read m env) { data := data } 0 with ⟨n, v⟩ | _ | _
    · dsimp only [Res.map]
      split
      · rfl
      · split <;> rfl
    · rfl
    · rfl
  · rw [h.write env v hv]
    exact ⟨rfl, rfl, fun _ => rfl, fun _ => rfl⟩

/-! ## Fields in a struct of their own -/

/-- **C84.** Fields can be moved into a struct of their own, which is passed what they need: whatever their attributes, and
whatever the attributes of the fields before and after. The fields inside see the arguments and each other, those behind see
the struct; only `temp` fields stay outside. -/
theorem C84_fields_in_a_struct_of_their_own (m : Machine) (pre inner post : Fields) (args : Env → List Val)
    (hn : inner.noTemp = true) :
    Fields.Same m (together pre inner post args) (apart pre inner post args) (Val.HasAt inner.arity pre.arity)
      (Val.flatAt pre.arity) :=
  together_same m pre inner post args hn

/-- **C84.** The value with the inner struct can be got back from the one without. -/
theorem C84_no_value_is_lost (pre inner : Fields) (v : Val) (h : Val.HasAt inner.arity pre.arity v) :
    Val.nestAt inner.arity pre.arity (v.flatAt pre.arity) = v :=
  Val.nestAt_flatAt h

/-- **C84.** `SIZE_BITS` is the same. -/
theorem C84_the_size_is_the_same (pre inner post : Fields) (args : Env → List Val) (h1 : pre.ConstPads)
    (h2 : inner.ConstPads) (h3 : post.ConstPads) :
    (together pre inner post args).size = (apart pre inner post args).size :=
  together_size pre inner post args h1 h2 h3

/-! ## Attributes -/

/-- **C84.** The magic of a struct can be part of the magic of its first field. -/
theorem C84_magic_of_the_struct_or_of_its_first_field (m : Machine) (args : Env → List Val)
    (seek : Option (Env → Option SeekFrom)) (magic : List Byte) (a : Attrs) (ha : a.seek = none) (t : Ty) (rest : Fields) :
    Ty.Same m (.struct args seek magic (.cons a t rest))
      (.struct args seek [] (.cons { a with magic := magic ++ a.magic } t rest)) (Val.IsListOf (rest.arity + 1)) id :=
  magicFirst_same m args seek magic a ha t rest

/-- **C84.** Padding after a field is padding before the next one, if that has no `seek` and no `magic`. -/
theorem C84_padding_after_or_before (m : Machine) (pre : Fields) (a b : Attrs) (t u : Ty) (rest : Fields) (p : Env → Int)
    (hp : ∀ env off, p (env.at off) = p env) (ha : a.padAfter = none) (hb : b.padBefore = none) (hs : b.seek = none)
    (hm : b.magic = []) (ho : a.padOrder = b.padOrder) :
    Fields.Same m (pre.append (.cons { a with padAfter := some p } t (.cons b u rest)))
      (pre.append (.cons a t (.cons { b with padBefore := some p } u rest)))
      (Val.IsListOf (pre.append (.cons { a with padAfter := some p } t (.cons b u rest))).arity) id :=
  ((padBetween_alike m a b t u rest p hp ha hb hs hm ho).behind pre).same

/-- **C84.** A `temp` field is read like any other field, and left out of the value. -/
theorem C84_temporary_fields_are_read_like_others (m : Machine) (pre : Fields) (a : Attrs) (t : Ty)
    (value : Option (Val → Val)) (post : Fields) (env : Env) :
    (pre.append (.temp a t value post)).read m env =
      (do let v ← (pre.append (.cons a t post)).read m env; pure (v.dropAt pre.arity)) :=
  temp_read m a t value post pre env

/-- **C84.** A `temp` field with a `temp_value` is written like any other field that has this value. -/
theorem C84_temporary_fields_are_written_like_others (m : Machine) (pre : Fields) (a : Attrs) (t : Ty) (value : Val → Val)
    (post : Fields) (env : Env) (v : Val) (hv : v.AtLeast pre.arity) :
    (pre.append (.temp a t (some value) post)).write m env v v =
      ((pre.under sameScope (Val.dropAt pre.arity) 0).append
        (.cons a t (post.under sameScope (Val.dropAt pre.arity) 0))).write m env
          (Val.insertAt (value v) pre.arity v) (Val.insertAt (value v) pre.arity v) :=
  temp_write m a t value post v _ _ (Val.dropAt_insertAt _ _ hv) pre 0 env v hv

/-! ## Types -/

/-- **C84.** A struct with one field without attributes is that field. -/
theorem C84_a_newtype_is_its_field (m : Machine) (args : Env → List Val) (t : Ty) :
    Ty.Same m (t.under (passed args)) (.struct args none [] (.cons {} (t.under onlyCtx) .nil)) (fun _ => True)
      (fun v => .cons v .nil) :=
  newtype_same m args t

/-- **C84.** An `Option` that is there is what is in it. -/
theorem C84_an_option_that_is_there (m : Machine) (t : Ty) : Ty.Same m t (.option t) (fun _ => True) .some :=
  option_same m t

/-- **C84.** A tuple is a struct of its elements. -/
theorem C84_a_tuple_is_a_struct (m : Machine) (args : Env → List Val) (a b : Ty) :
    Ty.Same m (.pair (a.under (passed args)) (b.under (passed args)))
      (.struct args none [] (.cons {} (a.under onlyCtx) (.cons {} (b.under onlyCtx) .nil))) (Val.IsListOf 2) id :=
  pair_same m args a b

/-- **C84.** An array is a struct of its elements. -/
theorem C84_an_array_is_a_struct (m : Machine) (args : Env → List Val) (n : Nat) (t : Ty) :
    Ty.Same m (.array n (t.under (passed args))) (.struct args none [] (Fields.copies (t.under onlyCtx) n))
      (Val.IsListOf n) id :=
  copies_same m args n t

/-- **C84.** An array of arrays is a longer array. -/
theorem C84_an_array_of_arrays_is_an_array (m : Machine) (n k : Nat) (t : Ty) :
    Ty.Same m (.array n (.array k t)) (.array (n * k) t)
      (fun v => Val.IsListOf n v ∧ ∀ x ∈ v.elems, Val.IsListOf k x) Val.concat :=
  concat_same m n k t

/-- **C84.** An array is a `Vec` with that `count`, if the elements are not zero-sized, do not move back, and fit into
memory. -/
theorem C84_an_array_is_a_counted_vec (m : Machine) (n size : Nat) (t : Ty) (hz : size ≠ 0) (hm : n ≤ m.mem)
    (hn : n < 2 ^ 64) (ht : ∀ env r v r', t.read m env r = (.ok v, r') → r.bitsRead ≤ r'.bitsRead) :
    Ty.Same m (.array n t) (.vec size (.count fun _ => n) t) (Val.IsListOf n) id :=
  arrayVec_same m n size t hz hm hn ht

/-- **C84.** If the elements have a fixed size, a `count` is a number of bits. -/
theorem C84_a_count_is_a_number_of_bits (m : Machine) (size k : Nat) (hk : 0 < k) (n : Env → Int) (t : Ty) (ht : t.Takes k)
    (hn : ∀ env, n env ≤ m.mem ∧ n env * k < 2 ^ 64) :
    Ty.Same m (.vec size (.count n) t) (.vec size (.bits fun env => n env * k) t) (fun v => v.isList = true) id :=
  countBits_same m size k hk n t (Ty.Takes.counts m t k ht) hn

/-- **C84.** A number of bytes is a number of bits. -/
theorem C84_a_number_of_bytes_is_a_number_of_bits (m : Machine) (size : Nat) (n : Env → Int) (t : Ty)
    (hn : ∀ env, n env * 8 < 2 ^ 64) :
    Ty.Same m (.vec size (.bytes n) t) (.vec size (.bits fun env => n env * 8) t) (fun v => v.isList = true) id :=
  bytesBits_same m size n t hn

/-- **C84.** The id of an enum can be a field before it, which the enum gets through its context. -/
theorem C84_the_id_before_the_enum_is_read_the_same (m : Machine) (args : Env → List Val) (magic : List Byte)
    (size : Option Nat) (c : Env → Codec) (store store' : Nat → Env → Val → M Writer Unit) (vs : Variants)
    (hv : vs.noIdPat = true) (env : Env) :
    (Ty.enum args magic (.typed size c) store vs).read m env =
      (do let v ← (idInFront args magic size c store' vs).read m env; pure v.second) :=
  idInFront_read m args magic size c store store' vs hv env

/-- **C84.** It is written the same if the field has the id of the variant. -/
theorem C84_the_id_before_the_enum_is_written_the_same (m : Machine) (args : Env → List Val) (magic : List Byte)
    (size : Option Nat) (c : Env → Codec) (store store' : Nat → Env → Val → M Writer Unit) (vs : Variants)
    (hv : vs.noIdPat = true) (env : Env) (i : Nat) (x fs : Val) (hx : vs.idOf i = some x) :
    (Ty.enum args magic (.typed size c) store vs).write m env (.variant i fs) =
      (idInFront args magic size c store' vs).write m env (.cons x (.cons (.variant i fs) .nil)) :=
  idInFront_write m args magic size c store store' vs hv env i x fs hx

/-! ## Inside other definitions -/

/-- **C84.** One step after the other. -/
theorem C84_step_by_step {w : Ty} {Q : Val → Prop} {g : Val → Val} (h : t.Same m u P f) (h' : u.Same m w Q g) :
    t.Same m w (fun v => P v ∧ Q (f v)) (fun v => g (f v)) :=
  h.trans h'

theorem C84_in_a_struct {fs gs : Fields} (h : fs.Same m gs P f) (args : Env → List Val)
    (seek : Option (Env → Option SeekFrom)) (magic : List Byte) :
    Ty.Same m (.struct args seek magic fs) (.struct args seek magic gs) P f :=
  h.struct args seek magic

theorem C84_in_a_variant {fs gs : Fields} (h : fs.Same m gs P f) (args : Env → List Val) (magic : List Byte) (id : IdSrc)
    (store : Nat → Env → Val → M Writer Unit) (vs : Variants) (i : Nat) (hf : vs.HasFields fs i) :
    Ty.Same m (.enum args magic id store vs) (.enum args magic id store (vs.withFields gs i)) (Val.AtVariant P i)
      (Val.mapVariant f i) :=
  h.variant args magic id store vs i hf

/-- Fields without attributes. -/
theorem Attrs.Through.plain : Attrs.Through P f {} {} where
  seek := rfl
  magic := rfl
  padBefore := rfl
  padOrder := rfl
  usesOffset := rfl
  skip := rfl
  cond := rfl
  padAfter := rfl
  default _ h := Bool.noConfusion h
  assert _ _ _ := rfl
  assertEq _ _ _ := by simp
  map := ⟨fun _ _ => rfl, fun _ _ => rfl⟩
  unmap := ⟨fun _ _ => rfl, fun _ _ => rfl⟩

/-- **C84.** A field of another type that means the same, with attributes that see the other value: the fields behind it see
it through `f`. -/
theorem C84_in_a_field {a b : Attrs} (ha : Attrs.Through P f a b) (h : t.Same m u P f) (pre post : Fields) :
    Fields.Same m (around pre a t post f) (pre.append (.cons b u post)) (Val.At P pre.arity) (Val.mapAt f pre.arity) :=
  around_same ha h post pre

theorem C84_in_an_option (h : t.Same m u P f) : Ty.Same m (.option t) (.option u) (Val.AllSome P) (Val.mapSome f) :=
  h.option

theorem C84_in_a_tuple (h : t.Same m u P f) (a : Ty) :
    Ty.Same m (.pair t a) (.pair u a) (Val.At P 0) (Val.mapAt f 0) ∧
    Ty.Same m (.pair a t) (.pair a u) (Val.At P 1) (Val.mapAt f 1) :=
  ⟨h.pairLeft a, h.pairRight a⟩

theorem C84_in_an_array (h : t.Same m u P f) (n : Nat) : Ty.Same m (.array n t) (.array n u) (Val.All P) (Val.mapAll f) :=
  h.array n

/-- **C84.** In a `Vec` with any limit; `until` sees the elements through `f`. -/
theorem C84_in_a_vec (h : t.Same m u P f) (n : Nat) (l : LimitE) :
    Ty.Same m (.vec n (l.through f) t) (.vec n l u) (Val.All P) (Val.mapAll f) :=
  h.vec n l

/-! ## Examples -/

namespace Example

/-- `kind: u8` -/
def header : Fields := .cons {} u8T .nil

/-- ```
struct Body {
    len: u8,
    #[deku(count = "len")]
    data: Vec<u8>,
    #[deku(cond = "kind == 1", default = "9")]
    flag: u8,
}
```
with `ctx = "kind: u8"` -/
def body : Fields :=
  .cons {} u8T <|
  .cons {} (.vec 1 (.count (var 0)) u8T) <|
  .cons { cond := some fun env => decide (env.ctx = [.num 1]), default := fun _ => .num 9 } u8T .nil

/-- `#[deku(pad_bits_before = "len")] crc: u8`, where `len` is the first field of the body. -/
def trailer : Fields := .cons { padBefore := some (var 2) } u8T .nil

def kindOf (env : Env) : List Val := env.vars.take 1

def flat : Ty := .struct (fun _ => []) none [] (apart header body trailer kindOf)
def grouped : Ty := .struct (fun _ => []) none [] (together header body trailer kindOf)

def flatVal : Val := .cons (.num 1) <| .cons (.num 2) <| .cons (.ofList [.num 5, .num 6]) <| .cons (.num 7) <|
  .cons (.num 255) .nil

def groupedVal : Val := .cons (.num 1) <| .cons (.cons (.num 2) <| .cons (.ofList [.num 5, .num 6]) <| .cons (.num 7) .nil) <|
  .cons (.num 255) .nil

end Example

open Example

example : grouped.Same mach flat (Val.HasAt 3 1) (Val.flatAt 1) :=
  C84_in_a_struct (C84_fields_in_a_struct_of_their_own mach header body trailer kindOf rfl) _ _ _

/-- The same bytes, the same rest: two bits of padding, so the last field ends two bits into the next byte. -/
example : fromBytes (flat.read mach {}) [1, 2, 5, 6, 7, 0x3f, 0xc0, 8] 0 = .ok (([0xc0, 8], 2), flatVal) ∧
    fromBytes (grouped.read mach {}) [1, 2, 5, 6, 7, 0x3f, 0xc0, 8] 0 = .ok (([0xc0, 8], 2), groupedVal) ∧
    Val.flatAt 1 groupedVal = flatVal ∧ Val.nestAt 3 1 flatVal = groupedVal := by
  refine ⟨?_, ?_, ?_, ?_⟩ <;> decide +kernel

example : toBytes (flat.write mach {} flatVal) = .ok [1, 2, 5, 6, 7, 0x3f, 0xc0] ∧
    toBytes (grouped.write mach {} groupedVal) = .ok [1, 2, 5, 6, 7, 0x3f, 0xc0] := by
  refine ⟨?_, ?_⟩ <;> decide +kernel

/-- The same error. -/
example : fromBytes (flat.read mach {}) [1, 2, 5] 0 = .err (.incomplete 8) ∧
    fromBytes (grouped.read mach {}) [1, 2, 5] 0 = .err (.incomplete 8) := by
  refine ⟨?_, ?_⟩ <;> decide +kernel

theorem Example.u8_takes : u8T.Takes 8 := by
  rw [u8T, Ty.Takes]
  exact fun _ => Counts.uintCodec .little .little 1 8 .msb0 .unit rfl (by decide) (by decide)

theorem Example.u4_takes : u4T.Takes 4 := by
  rw [u4T, Ty.Takes]
  exact fun _ => Counts.uintCodec .little .little 1 4 .msb0 (.bits 4) rfl (by decide) (by decide)

/-- Two nibbles. -/
theorem Example.nibbles_take : (Ty.pair u4T u4T).Takes 8 := by
  rw [Ty.Takes]
  exact ⟨4, 4, u4_takes, u4_takes, rfl⟩

/-- Three pairs of nibbles: `count = "3"` and `bits_read = "24"`. -/
example : Ty.Same mach (.vec 2 (.count fun _ => 3) (.pair u4T u4T)) (.vec 2 (.bits fun _ => 3 * 8) (.pair u4T u4T))
    (fun v => v.isList = true) id :=
  C84_a_count_is_a_number_of_bits mach 2 8 (by decide) (fun _ => 3) _ nibbles_take fun _ => ⟨by decide, by decide⟩

example : Ty.Same mach (.array 4 u8T) (.vec 1 (.count fun _ => (4 : Nat)) u8T) (Val.IsListOf 4) id :=
  C84_an_array_is_a_counted_vec mach 4 1 u8T (by decide) (by decide) (by decide) fun env r v r' h => by
    rw [Ty.Takes.counts mach u8T 8 u8_takes env r v r' h]
    exact Nat.le_add_right _ _

/-- The last part of a field twice: `[[u8; 2]; 3]` is `[u8; 6]`, and that is a `Vec<u8>`. -/
example : Ty.Same mach (.array 3 (.array 2 u8T)) (.vec 1 (.count fun _ => (6 : Nat)) u8T)
    (fun v => (Val.IsListOf 3 v ∧ ∀ x ∈ v.elems, Val.IsListOf 2 x) ∧ Val.IsListOf 6 v.concat) (fun v => id v.concat) :=
  C84_step_by_step (C84_an_array_of_arrays_is_an_array mach 3 2 u8T)
    (C84_an_array_is_a_counted_vec mach 6 1 u8T (by decide) (by decide) (by decide) fun env r v r' h => by
      rw [Ty.Takes.counts mach u8T 8 u8_takes env r v r' h]
      exact Nat.le_add_right _ _)

/-- The fields before and after a field that changes: `[[u8; 2]; 3]` between two bytes. -/
example : Fields.Same mach (around header {} (.array 3 (.array 2 u8T)) header Val.concat)
    (header.append (.cons {} (.array 6 u8T) header))
    (Val.At (fun v => Val.IsListOf 3 v ∧ ∀ x ∈ v.elems, Val.IsListOf 2 x) 1) (Val.mapAt Val.concat 1) :=
  C84_in_a_field Attrs.Through.plain
    (C84_an_array_of_arrays_is_an_array mach 3 2 u8T) header header

/-- `Shape` of the other examples without its `id_pat` variant:
`enum { #[deku(id = 1)] Empty, #[deku(id = 2)] Pair(u4, u4) }` -/
def Example.plainShapes : Variants :=
  .cons { pat := fun _ x => decide (x = .num 1), id := some (.num 1) } .nil <|
  .cons { pat := fun _ x => decide (x = .num 2), id := some (.num 2) } (.cons {} u4T <| .cons {} u4T .nil) .nil

def Example.noStore (_ : Nat) (_ : Env) (_ : Val) : M Writer Unit := M.panic

/-- With the id in the enum and as a field before it. -/
example :
    fromBytes ((Ty.enum (fun _ => []) [] (.typed (some 8) fun _ => uintCodec .little 1 .unit) noStore plainShapes).read mach {})
      [2, 0x34] 0 = .ok (([], 0), .variant 1 (.cons (.num 3) (.cons (.num 4) .nil))) ∧
    fromBytes ((idInFront (fun _ => []) [] (some 8) (fun _ => uintCodec .little 1 .unit) noStore plainShapes).read mach {})
      [2, 0x34] 0 = .ok (([], 0), .cons (.num 2) (.cons (.variant 1 (.cons (.num 3) (.cons (.num 4) .nil))) .nil)) ∧
    plainShapes.noIdPat = true ∧ plainShapes.idOf 1 = some (.num 2) := by
  refine ⟨?_, ?_, ?_, ?_⟩ <;> decide +kernel

/-- Two bits of padding after the first field or before the second one. -/
example : Fields.Same mach (header.append (.cons { padAfter := some fun _ => 2 } u8T header))
    (header.append (.cons {} u8T (.cons { padBefore := some fun _ => 2 } u8T .nil))) (Val.IsListOf 3) id :=
  C84_padding_after_or_before mach header {} {} u8T u8T .nil (fun _ => 2) (fun _ _ => rfl) rfl rfl rfl rfl rfl

/-- `temp, temp_value = "7"` after the first of two fields. -/
example :
    fromBytes ((Ty.struct (fun _ => []) none [] (header.append (.temp {} u8T (some fun _ => .num 7) header))).read mach {})
      [1, 7, 3] 0 = .ok (([], 0), .ofList [.num 1, .num 3]) ∧
    fromBytes ((Ty.struct (fun _ => []) none [] (header.append (.cons {} u8T header))).read mach {})
      [1, 7, 3] 0 = .ok (([], 0), .ofList [.num 1, .num 7, .num 3]) ∧
    (Val.ofList [.num 1, .num 7, .num 3]).dropAt 1 = Val.ofList [.num 1, .num 3] := by
  refine ⟨?_, ?_, ?_⟩ <;> decide +kernel

/-! ## Where it fails -/

/-- **C84.** A struct whose only content is its magic is zero-sized: an array of two reads two magics, a `Vec` with
`count = "2"` reads none, and both write two. -/
theorem C84_a_vec_of_zero_sized_elements_is_not_read :
    fromBytes ((Ty.array 2 (.struct (fun _ => []) none [7] .nil)).read mach {}) [7, 7] 0 =
      .ok (([], 0), .ofList [.nil, .nil]) ∧
    fromBytes ((Ty.vec 0 (.count fun _ => 2) (.struct (fun _ => []) none [7] .nil)).read mach {}) [7, 7] 0 =
      .ok (([7, 7], 0), .nil) ∧
    toBytes ((Ty.vec 0 (.count fun _ => 2) (.struct (fun _ => []) none [7] .nil)).write mach {} (.ofList [.nil, .nil])) =
      .ok [7, 7] := by
  refine ⟨?_, ?_, ?_⟩ <;> decide +kernel

/-- **C84.** Padding after a field is not padding before the next one if that has a magic: the padding comes after the
magic. -/
theorem C84_padding_before_comes_after_the_magic :
    toBytes ((Ty.struct (fun _ => []) none []
      (.cons { padAfter := some fun _ => 8 } u8T (.cons { magic := [9] } u8T .nil))).write mach {} (.ofList [.num 1, .num 2])) =
        .ok [1, 0, 9, 2] ∧
    toBytes ((Ty.struct (fun _ => []) none []
      (.cons {} u8T (.cons { padBefore := some fun _ => 8, magic := [9] } u8T .nil))).write mach {} (.ofList [.num 1, .num 2])) =
        .ok [1, 9, 0, 2] := by
  refine ⟨?_, ?_⟩ <;> decide +kernel

end Deku
