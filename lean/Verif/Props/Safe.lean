import Verif.Lemmas.Safe
import Verif.Lemmas.Examples

/-!
# Parsing untrusted input does not panic: C50
-/

namespace Deku

open Reader Coll Example

/-- **C50** (part). No input and no offset makes `from_bytes` panic, for the definitions `Ty.Safe`
describes; an offset beyond the end of the input is only allowed for if the definition is safe there.
The conditions are needed: see the counterexamples below. Not covered: exhausted memory (`hmem`: the
machine can hold one element per bit of the input), panics inside attribute expressions. -/
theorem C50_from_bytes_never_panics_partial (m : Machine) (len : Nat) (t : Ty) (env : Env) (s s' : Stage)
    (R : Val → Prop) (hmem : 8 * len + 1 ≤ m.mem) (ht : t.Safe m len env s s' R)
    (data : List Byte) (hd : data.length ≤ len) (off : Nat) (ho : 8 * data.length < off → s.past = true) :
    fromBytes (t.read m env) data off ≠ .panic := by
  have h := readFrom_panicless (Ty.panicless hmem t env s s' R ht) hd ho
  unfold fromBytes
  cases hx : readFrom (t.read m env) off (Reader.new { data := data }) with
  | mk x r =>
    rw [hx] at h
    cases x with
    | ok v => simp only; split <;> simp
    | err e => simp
    | panic => simp at h

/-- **C50** (part), for `from_reader`. -/
theorem C50_from_reader_never_panics_partial (m : Machine) (len : Nat) (t : Ty) (env : Env) (s s' : Stage)
    (R : Val → Prop) (hmem : 8 * len + 1 ≤ m.mem) (ht : t.Safe m len env s s' R)
    (data : List Byte) (hd : data.length ≤ len) (off : Nat) (ho : 8 * data.length < off → s.past = true) :
    fromReader (t.read m env) { data := data } off ≠ .panic := by
  have h := readFrom_panicless (Ty.panicless hmem t env s s' R ht) hd ho
  unfold fromReader
  cases hx : readFrom (t.read m env) off (Reader.new { data := data }) with
  | mk x r =>
    rw [hx] at h
    cases x with
    | ok v => simp
    | err e => simp
    | panic => simp at h

/-- **C50** (part), for `TryFrom`. -/
theorem C50_try_from_never_panics_partial (m : Machine) (len : Nat) (t : Ty) (env : Env) (s s' : Stage)
    (R : Val → Prop) (hmem : 8 * len + 1 ≤ m.mem) (ht : t.Safe m len env s s' R)
    (data : List Byte) (hd : data.length ≤ len) : tryFrom (t.read m env) data ≠ .panic := by
  have h := C50_from_reader_never_panics_partial m len t env s s' R hmem ht data hd 0 (by omega)
  unfold tryFrom
  cases hx : fromReader (t.read m env) { data := data } 0 with
  | ok v => obtain ⟨n, v⟩ := v; simp only; split <;> (try split) <;> simp
  | err e => simp
  | panic => exact absurd hx h

/-- **C50** (part), with a condition that is read off the definition: sizes of integers are between 1
and the size of the type; counts are bounded whatever is read; the elements of a `Vec` with another
limit read something and do not seek; a `Vec<u8>` with a count does not occur together with padding or
seeks, and not (with count 0) in the elements of a `read_all` list. -/
theorem C50_structural_partial (m : Machine) (len : Nat) (t : Ty) (env : Env) (s : Stage)
    (hmem : 8 * len + 1 ≤ m.mem) (ht : t.Tame m len s)
    (data : List Byte) (hd : data.length ≤ len) (off : Nat) (ho : 8 * data.length < off → s.past = true) :
    fromBytes (t.read m env) data off ≠ .panic :=
  C50_from_bytes_never_panics_partial m len t env s s _ hmem
    (Ty.Tame.safe t env s s ht (Stage.le_refl s)) data hd off ho

/-- **C50**, the leaves: in every state of the reader, an integer of between one bit and all its bits is
read without panic. -/
theorem C50_integers (native e : Endian) (W n : Nat) (ctx : IntCtx) (o : Order) (len : Nat) (s : Stage)
    (hW : 1 ≤ W) (hs : ctx.shape native W = (e, n, o)) (h1 : 1 ≤ n) (h2 : n ≤ 8 * W) :
    Panicless len s (uintCodec native W ctx).read .fresh fun v =>
      ∃ k : Nat, v = .num k ∧ (Prim.Dense e n o → k < 2 ^ n) :=
  uint_panicless hW hs h1 h2

namespace Example

theorem u8_panicless {len : Nat} {s : Stage} :
    Panicless len s (uintCodec .little 1 .unit).read .fresh fun v => ∃ k : Nat, v = .num k ∧ k < 256 :=
  (uint_panicless (e := .little) (n := 8) (o := .msb0) (by decide) rfl (by decide) (by decide)).mono
    (Stage.le_refl _) (Stage.le_refl _) fun _ ⟨k, h1, h2⟩ => ⟨k, h1, h2 fun h => by simp at h⟩

theorem u16_panicless {len : Nat} {s : Stage} :
    Panicless len s (uintCodec .little 2 (.endian .big)).read .fresh fun _ => True :=
  (uint_panicless (e := .big) (n := 16) (o := .msb0) (by decide) rfl (by decide) (by decide)).mono
    (Stage.le_refl _) (Stage.le_refl _) fun _ _ => trivial

theorem u4_panicless {len : Nat} {s : Stage} :
    Panicless len s (uintCodec .little 1 (.bits 4)).read .fresh fun _ => True :=
  (uint_panicless (e := .little) (n := 4) (o := .msb0) (by decide) rfl (by decide) (by decide)).mono
    (Stage.le_refl _) (Stage.le_refl _) fun _ _ => trivial

theorem u16_moves : Moves (uintCodec .little 2 (.endian .big)).read :=
  uint_moves (e := .big) (n := 16) (o := .msb0) (by decide) rfl (by decide) (by decide)

theorem u8_eats : Eats (uintCodec .little 1 .unit).read :=
  uint_eats (e := .little) (n := 8) (o := .msb0) (by decide) rfl (by decide) (by decide)

theorem u8_moves : Moves (uintCodec .little 1 .unit).read :=
  uint_moves (e := .little) (n := 8) (o := .msb0) (by decide) rfl (by decide) (by decide)

/-- A field without attributes. -/
theorem plain_safe {ty : Env → Stage → Stage → (Val → Prop) → Prop} {env : Env} {s t : Stage} {R : Val → Prop}
    (h : ty (env.at 0) s t R) : ({} : Attrs).Safe ty env s t R :=
  ⟨fun f h => by simp at h, fun off h0 => ⟨t, fun _ => ⟨R, by rw [h0 rfl]; exact h, fun _ _ hr hm _ => by
    simp at hm; rw [← hm]; exact hr⟩, fun h => by simp [Attrs.isRead] at h, Stage.le_refl _⟩⟩

/-- `struct { count: u8, #[deku(count = "count", endian = "big")] items: Vec<u16>,
#[deku(count = "count")] data: Vec<u8>, #[deku(read_all)] tail: Vec<u8> }`: the count is bounded by its
type. (`read_all` lists of `u8` are not read by the fast path.) -/
def counted : Ty := .struct (fun _ => []) none [] <|
  .cons {} u8T <| .cons {} (.vec 2 (.count (var 0)) u16be) <| .cons {} (.bytes (var 1) fun _ => .unit) <|
  .cons {} (.vec 1 .end u8T) .nil

theorem counted_safe (m : Machine) (len : Nat) (hm : 255 ≤ m.mem) :
    counted.Safe m len {} .fresh .fresh fun _ => True := by
  simp only [counted, Ty.Safe, Fields.Safe]
  refine ⟨by simp, .fresh, fun v => ∃ k : Nat, v = .num k ∧ k < 256, plain_safe ?_, fun c hc => ⟨.fresh, fun _ => True, plain_safe ?_, fun xs _ =>
    ⟨.fresh, fun _ => True, plain_safe ?_, fun ds _ =>
    ⟨.fresh, fun _ => True, plain_safe ?_, fun tl _ => ⟨Stage.le_refl _, trivial⟩⟩⟩⟩⟩
  · exact u8_panicless
  · obtain ⟨k, rfl, hk⟩ := hc
    refine ⟨by simp, fun _ => ⟨.fresh, .fresh, fun _ => True, u16_panicless, ⟨?_, u16_moves, Stage.le_refl _,
      Stage.le_refl _, Stage.le_refl _, fun _ => Stage.le_refl _⟩, fun _ _ => trivial⟩⟩
    simp [var, Env.push, Env.at]
    omega
  · obtain ⟨k, rfl, hk⟩ := hc
    refine ⟨rfl, ?_, by simp [Stage.fresh], fun _ _ => trivial⟩
    simp [var, Env.push, Env.at]
    omega
  · exact ⟨by simp, fun _ => ⟨⟨false, true⟩, .fresh, fun _ => True, u8_panicless.mono (Stage.le_refl _)
      (Stage.le_refl _) fun _ _ => trivial, ⟨u8_eats, Stage.le_refl _, fun h => h, fun h => h⟩, fun _ _ => trivial⟩⟩

/-- Up to 1 GiB of input on a machine with memory for it, with any offset inside it. -/
example (data : List Byte) (hd : data.length ≤ 2 ^ 30) (off : Nat) (ho : off ≤ 8 * data.length) :
    fromBytes (counted.read ⟨.little, 2 ^ 34⟩ {}) data off ≠ .panic :=
  C50_from_bytes_never_panics_partial _ (2 ^ 30) _ _ .fresh .fresh _ (by decide) (counted_safe _ _ (by decide))
    data hd off (by omega)

/-- The condition is met by a definition that uses padding, conditions and an enum with a typed id. -/
def framed : Ty := .struct (fun _ => []) none [0xab] <|
  .cons {} u4T <| .cons {} u4T <|
  .cons { cond := some fun env => decide (var 1 env = 1), default := fun _ => .none } (.option u8T) <|
  .cons { padBefore := some fun _ => 12 } (.vec 2 (.until fun _ vs => decide (vs.head? = some (.num 0))) u16be) <|
  .cons {} (.vec 4 .end shapes) .nil

theorem framed_tame (m : Machine) (len : Nat) : framed.Tame m len .any := by
  have h8 : Panicless len .any (uintCodec .little 1 .unit).read .any fun _ => True :=
    u8_panicless.mono (Stage.le_refl _) (Stage.le_any _) fun _ _ => trivial
  have h4 : Panicless len .any (uintCodec .little 1 (.bits 4)).read .any fun _ => True :=
    u4_panicless.mono (Stage.le_refl _) (Stage.le_any _) fun _ _ => trivial
  have h16 : Panicless len .any (uintCodec .little 2 (.endian .big)).read .any fun _ => True :=
    u16_panicless.mono (Stage.le_refl _) (Stage.le_any _) fun _ _ => trivial
  have e16 : Eats (uintCodec .little 2 (.endian .big)).read :=
    uint_eats (e := .big) (n := 16) (o := .msb0) (by decide) rfl (by decide) (by decide)
  have m4 : Moves (uintCodec .little 1 (.bits 4)).read :=
    uint_moves (e := .little) (n := 4) (o := .msb0) (by decide) rfl (by decide) (by decide)
  have hany : (⟨Stage.any.past, true⟩ : Stage) = .any := rfl
  simp only [framed, Ty.Tame, Fields.Tame, Attrs.Tame, LimitE.Tame, LimitE.stage, u4T, u8T, u16be, shapes,
    shapeVariants, Variants.Tame, Ty.Runs, Fields.Runs, Variants.Runs, Ty.Hungry, hany]
  simp [h8, h4, h16, e16, u16_moves, u8_moves, u8_eats, m4, show Stage.any.past = true from rfl]

example (data : List Byte) (hd : data.length ≤ 2 ^ 30) (off : Nat) :
    fromBytes (framed.read ⟨.little, 2 ^ 34⟩ {}) data off ≠ .panic :=
  C50_structural_partial _ (2 ^ 30) _ _ .any (by decide) (framed_tame _ _) data hd off (fun _ => rfl)

end Example

/-! ### counterexamples -/

namespace Example

def u64be : Ty := .prim (some 64) fun _ => uintCodec .little 8 (.endian .big)

end Example

/-- **C50 is false for fields of no bits**, which are excluded by the statement: a `u16` field with
`bits = "0"`. -/
theorem C50_zero_bits_panic :
    fromBytes ((Ty.prim (some 0) fun _ => uintCodec .little 2 (.endianBits .little 0)).read mach {}) [1, 2] 0 =
      .panic := by decide +kernel

/-- **C50 is false**: a count from the input that cannot be allocated. The capacity is reserved before
the first element is read (`C27_large_count_panics`), so eight bytes of input are enough. -/
theorem C50_large_count_panics :
    fromBytes ((Ty.struct (fun _ => []) none [] <| .cons {} u64be <|
      .cons {} (.vec 2 (.count (var 0)) u16be) .nil).read mach {})
      [0xff, 0xff, 0xff, 0xff, 0xff, 0xff, 0xff, 0xff, 1, 2] 0 = .panic := by decide +kernel

/-- **C50 is false**: a `Vec<u8>` with a count of 2^61 or more; `count * 8` overflows when the error is
built. -/
theorem C50_large_byte_count_panics :
    fromBytes ((Ty.struct (fun _ => []) none [] <| .cons {} u64be <|
      .cons {} (.bytes (var 0) fun _ => .unit) .nil).read mach {})
      [0x20, 0, 0, 0, 0, 0, 0, 0, 1, 2, 3, 4] 0 = .panic := by decide +kernel

/-- **C50 is false**: `bytes_read` of 2^61 or more; the conversion to bits overflows. -/
theorem C50_large_size_limit_panics :
    fromBytes ((Ty.struct (fun _ => []) none [] <| .cons {} u64be <|
      .cons {} (.vec 2 (.bytes (var 0)) u16be) .nil).read mach {})
      [0x20, 0, 0, 0, 0, 0, 0, 0, 1, 2, 3, 4] 0 = .panic := by decide +kernel

/-- **C50 is false**: padding leads beyond the end of the input without an error, and a `Vec<u8>` with a
count, even 0, then computes `end - pos`. -/
theorem C50_bytes_beyond_the_end_panic :
    fromBytes ((Ty.struct (fun _ => []) none [] <|
      .cons { padBefore := some fun _ => 16 } (.bytes (fun _ => 0) fun _ => .unit) .nil).read mach {}) [1] 0 =
      .panic ∧
    fromBytes ((Ty.bytes (fun _ => 0) fun _ => .unit).read mach {}) [] 16 = .panic := by decide +kernel

/-- **C50 is false**: the elements of a `read_all` list begin with a `Vec<u8>` that can be empty. `end`
has put back a byte, and the fast path asserts that it does not find one when it reads nothing. -/
theorem C50_empty_bytes_in_read_all_panic :
    fromBytes ((Ty.vec 8 .end (.struct (fun _ => []) none [] <|
      .cons {} (.bytes (fun _ => 0) fun _ => .unit) <| .cons {} u8T .nil)).read mach {}) [1, 2] 0 = .panic := by
  decide +kernel

/-- **C50 is false**: elements that seek back. The `Vec` subtracts the position it started at. -/
theorem C50_elements_that_seek_back_panic :
    fromBytes ((Ty.struct (fun _ => []) none [] <| .cons {} u16be <|
      .cons {} (.vec 1 (.count fun _ => 2) <| .struct (fun _ => []) (some fun _ => some (.start 0)) [] <|
        .cons {} u8T .nil) .nil).read mach {}) [1, 2, 3, 4] 0 = .panic := by decide +kernel

/-- **C50 is false**: elements that read nothing but padding do not fail beyond the end, so the list
grows until the memory is exhausted. -/
theorem C50_padding_elements_never_end :
    fromBytes ((Ty.vec 1 (.until fun _ _ => false) <| .struct (fun _ => []) none [] <|
      .cons { padBefore := some (fun _ => 8), skip := some .all } u8T .nil).read mach {}) [1, 2] 0 =
      .panic := by decide +kernel

end Deku
