import Verif.Lemmas.Examples

/-!
# Properties of derived structs and enums: C36, C37, C38, C42
-/

namespace Deku

open Reader Writer Coll Example

variable {o : Order}

/-! ## C36 -/

/-- **C36.** A value that fits the definition of a struct and that `to_bytes` accepts is returned by
`from_bytes`, whatever comes after the message; the rest starts at the first bit not consumed. -/
theorem C36_struct_round_trip (m : Machine) (args : Env → List Val)
    (seek : Option (Env → Option SeekFrom)) (magic : List Byte) (fs : Fields) (env : Env) (v : Val)
    (Q : Nat → Prop) (h : (Ty.struct args seek magic fs).Fits m o (· = 0) Q env v) (out : List Byte)
    (hout : toBytes ((Ty.struct args seek magic fs).write m env v) = .ok out) :
    ∃ n, n ≤ 8 * out.length ∧ 8 * out.length < n + 8 ∧ Q n ∧
      ∀ extra, fromBytes ((Ty.struct args seek magic fs).read m env) (out ++ extra) 0 =
        .ok (((out ++ extra).drop (n / 8), n % 8), v) :=
  (Ty.sound m o _ _ _ _ _ h).round_trip hout

/-- **C36.** If the definition makes whole bytes, the rest is exactly what was appended. -/
theorem C36_rest_is_what_was_appended (m : Machine) (args : Env → List Val)
    (seek : Option (Env → Option SeekFrom)) (magic : List Byte) (fs : Fields) (env : Env) (v : Val)
    (h : (Ty.struct args seek magic fs).Fits m o (· = 0) (fun n => n % 8 = 0) env v) (out : List Byte)
    (hout : toBytes ((Ty.struct args seek magic fs).write m env v) = .ok out) (extra : List Byte) :
    fromBytes ((Ty.struct args seek magic fs).read m env) (out ++ extra) 0 = .ok ((extra, 0), v) := by
  obtain ⟨n, h1, h2, h3, h4⟩ := (Ty.sound m o _ _ _ _ _ h).round_trip hout
  rw [h4, show n / 8 = out.length by omega, List.drop_left, h3]

/-- Every list of at most 1000 elements makes a value of the example that fits. -/
example (items : List Int) (h : items.length ≤ 1000) (out : List Byte)
    (hout : toBytes (packet.write mach {} (packetValue items (.some (.num 7)))) = .ok out) :
    ∃ n, n ≤ 8 * out.length ∧ 8 * out.length < n + 8 ∧ any n ∧
      ∀ extra, fromBytes (packet.read mach {}) (out ++ extra) 0 =
        .ok (((out ++ extra).drop (n / 8), n % 8), packetValue items (.some (.num 7))) :=
  C36_struct_round_trip _ _ _ _ _ _ _ _ (packet_fits items h) out hout

/-- One of these values is accepted. -/
example : toBytes (packet.write mach {} (packetValue [0x1234, 5] (.some (.num 7)))) =
    .ok [0xab, 0x31, 2, 0x12, 0x34, 0, 5, 7, 0, 9] := by decide +kernel

/-- A value whose count does not say how long its list is does not fit, and does not round-trip. -/
theorem C36_wrong_count_does_not_round_trip :
    toBytes (packet.write mach {} (.ofList [.num 3, .num 0, .num 2, .ofList [.num 1], .none, .num 9])) =
      .ok [0xab, 0x30, 2, 0, 1, 0, 9] ∧
    fromBytes (packet.read mach {}) [0xab, 0x30, 2, 0, 1, 0, 9] 0 ≠
      .ok (([], 0), .ofList [.num 3, .num 0, .num 2, .ofList [.num 1], .none, .num 9]) := by
  constructor <;> decide +kernel

/-- `#[deku(count = "2", bits = "4")] x: Vec<u8>` is written as two halves of a byte and read as two
bytes, though the count is right. -/
theorem C36_byte_list_with_bits_does_not_round_trip :
    let t : Ty := .struct (fun _ => []) none [] (.cons {} (.bytes (fun _ => 2) (fun _ => .bits 4)) .nil)
    toBytes (t.write mach {} (.ofList [.ofList [.num 1, .num 2]])) = .ok [0x12] ∧
    fromBytes (t.read mach {}) [0x12] 0 = .err (.incomplete 16) ∧
    fromBytes (t.read mach {}) [0x12, 0x34] 0 = .ok (([], 0), .ofList [.ofList [.num 0x12, .num 0x34]]) := by
  decide +kernel

/-! ## C37 -/

/-- Reading a derived enum with an id of its own: the magic, the id, the selection. -/
theorem enum_read_run {m : Machine} {args : Env → List Val} {magic : List Byte} {sz : Option Nat}
    {c : Env → Codec} {store : Nat → Env → Val → M Writer Unit} {vs : Variants} {env : Env} {r r1 r2 : Reader}
    {x : Val} (hm : magicRead m.native magic r = (.ok (), r1))
    (hx : (c { ctx := args env }).read r1 = (.ok x, r2)) :
    (Ty.enum args magic (.typed sz c) store vs).read m env r =
      dispatch (vs.select { ctx := args env } x) (vs.readAt m { ctx := args env } x true) r2 := by
  rw [Ty.read_enum, M.bind_ok hm]
  simp only [IdSrc.get]
  rw [M.bind_ok hx]
  rfl

/-- **C37.** The id read selects the first variant whose pattern matches it, or the default variant if
none does, and then exactly the fields of this variant are read. -/
theorem C37_reads_the_selected_variant (m : Machine) (args : Env → List Val) (magic : List Byte)
    (sz : Option Nat) (c : Env → Codec) (store : Nat → Env → Val → M Writer Unit) (vs : Variants) (env : Env)
    (r r1 r2 : Reader) (x : Val) (hm : magicRead m.native magic r = (.ok (), r1))
    (hx : (c { ctx := args env }).read r1 = (.ok x, r2)) (i : Nat) (a : VAttrs) (fs : Fields)
    (hi : vs.toList[i]? = some (a, fs)) (hp : a.idPat = false)
    (hs : Selects { ctx := args env } x vs.toList i) :
    (Ty.enum args magic (.typed sz c) store vs).read m env r =
      match fs.read m { ctx := args env } r2 with
      | (.ok v, r3) => (.ok (.variant i v), r3)
      | (.err e, r3) => (.err e, r3)
      | (.panic, r3) => (.panic, r3) := by
  rw [enum_read_run hm hx, Variants.select_some.2 hs]
  simp only [dispatch, Variants.readAt_eq m _ x true hi, hp, Bool.false_and, Bool.false_eq_true, if_false]
  rw [M.bind_def]
  rcases fs.read m { ctx := args env } r2 with ⟨y, r3⟩
  cases y <;> rfl

/-- **C37.** A variant that stores the id gets it as its first field. -/
theorem C37_reads_the_stored_id (m : Machine) (args : Env → List Val) (magic : List Byte)
    (sz : Option Nat) (c : Env → Codec) (store : Nat → Env → Val → M Writer Unit) (vs : Variants) (env : Env)
    (r r1 r2 : Reader) (x : Val) (hm : magicRead m.native magic r = (.ok (), r1))
    (hx : (c { ctx := args env }).read r1 = (.ok x, r2)) (i : Nat) (a : VAttrs) (fa : Attrs) (ft : Ty)
    (fs : Fields) (hi : vs.toList[i]? = some (a, .cons fa ft fs)) (hp : a.idPat = true)
    (hs : Selects { ctx := args env } x vs.toList i) :
    (Ty.enum args magic (.typed sz c) store vs).read m env r =
      match fs.read m (Env.push { ctx := args env } x) r2 with
      | (.ok v, r3) => (.ok (.variant i (.cons x v)), r3)
      | (.err e, r3) => (.err e, r3)
      | (.panic, r3) => (.panic, r3) := by
  rw [enum_read_run hm hx, Variants.select_some.2 hs]
  simp only [dispatch, Variants.readAt_eq m _ x true hi, hp, Bool.and_self, if_true, Fields.readStored]
  rw [M.bind_def, M.bind_def]
  rcases fs.read m (Env.push { ctx := args env } x) r2 with ⟨y, r3⟩
  cases y <;> rfl

/-- **C37.** An id that no pattern matches, without a default variant, is a `Parse` error. -/
theorem C37_unknown_id_is_a_parse_error (m : Machine) (args : Env → List Val) (magic : List Byte)
    (sz : Option Nat) (c : Env → Codec) (store : Nat → Env → Val → M Writer Unit) (vs : Variants) (env : Env)
    (r r1 r2 : Reader) (x : Val) (hm : magicRead m.native magic r = (.ok (), r1))
    (hx : (c { ctx := args env }).read r1 = (.ok x, r2))
    (hn : ∀ a ∈ vs.toList, a.1.pat { ctx := args env } x = false ∧ a.1.default = false) :
    (Ty.enum args magic (.typed sz c) store vs).read m env r = (.err .parse, r2) := by
  rw [enum_read_run hm hx, Variants.select_none.2 hn]
  rfl

/-- **C37.** Every id is one of the two cases: it selects exactly one variant, or it is unknown. -/
theorem C37_selection_is_determined (env : Env) (x : Val) (vs : Variants) :
    (∃ i, Selects env x vs.toList i ∧ ∀ j, Selects env x vs.toList j → j = i) ∨
    ((∀ j, ¬ Selects env x vs.toList j) ∧
      ∀ a ∈ vs.toList, a.1.pat env x = false ∧ a.1.default = false) := by
  cases h : vs.select env x with
  | some i =>
    refine .inl ⟨i, Variants.select_some.1 h, fun j hj => ?_⟩
    have := Variants.select_some.2 hj
    rw [h] at this
    simpa using this.symm
  | none =>
    refine .inr ⟨fun j hj => ?_, Variants.select_none.1 h⟩
    have := Variants.select_some.2 hj
    rw [h] at this
    simp at this

/-- **C37.** Writing a variant emits the magic, the id of the variant, and its fields. -/
theorem C37_writes_the_id (m : Machine) (args : Env → List Val) (magic : List Byte) (sz : Option Nat)
    (c : Env → Codec) (store : Nat → Env → Val → M Writer Unit) (vs : Variants) (env : Env) (i : Nat)
    (a : VAttrs) (fs : Fields) (hi : vs.toList[i]? = some (a, fs)) (hp : a.idPat = false) (x : Val)
    (hid : a.id = some x) (v : Val) (p : Nat) (idBits fieldBits : List Bool)
    (hx : Writes .msb0 (p + 8 * magic.length) ((c { ctx := args env }).write x) idBits)
    (hf : Writes .msb0 (p + 8 * magic.length + idBits.length) (fs.write m { ctx := args env } v v)
      fieldBits) :
    Writes .msb0 p ((Ty.enum args magic (.typed sz c) store vs).write m env (.variant i v))
      (bytesBits magic ++ (idBits ++ fieldBits)) := by
  simp only [Ty.write, Variants.writeAt_eq m _ _ (store i) v hi, Variants.writeAt, hid, hp]
  have hm := magicWrite_writes (o := .msb0) (p := p) m.native magic (by simp)
  refine hm.bind ?_
  rw [length_orderBits]
  exact hx.bind hf

/-- **C37.** A variant whose fields fit, and whose id is not claimed by an earlier variant, round-trips. -/
theorem C37_enum_round_trip (m : Machine) (args : Env → List Val) (magic : List Byte) (sz : Option Nat)
    (c : Env → Codec) (store : Nat → Env → Val → M Writer Unit) (vs : Variants) (env : Env) (i : Nat)
    (a : VAttrs) (fs : Fields) (hi : vs.toList[i]? = some (a, fs)) (hp : a.idPat = false ∨ fs = .nil)
    (x : Val)
    (hid : a.id = some x) (hown : a.pat { ctx := args env } x = true)
    (hfirst : ∀ j b, j < i → vs.toList[j]? = some b → b.1.pat { ctx := args env } x = false)
    (hm : magic = [] ∨ ByteSafe o (· = 0)) (R Q : Nat → Prop)
    (hx : SoundOn o (shift (· = 0) (8 * magic.length)) (c { ctx := args env }).read
      ((c { ctx := args env }).write x) x R) (v : Val)
    (hf : fs.Fits m o R Q { ctx := args env } v v) (out : List Byte)
    (hout : toBytes ((Ty.enum args magic (.typed sz c) store vs).write m env (.variant i v)) = .ok out) :
    ∃ n, n ≤ 8 * out.length ∧ 8 * out.length < n + 8 ∧ Q n ∧
      ∀ extra, fromBytes ((Ty.enum args magic (.typed sz c) store vs).read m env) (out ++ extra) 0 =
        .ok (((out ++ extra).drop (n / 8), n % 8), .variant i v) := by
  have h : (Ty.enum args magic (.typed sz c) store vs).Fits m o (· = 0) Q env (.variant i v) := by
    simp only [Ty.Fits]
    refine ⟨hm, i, v, rfl, Variants.fitsAt m o _ _ (store i) ?_ hi⟩
    simp only [Variants.FitsAt]
    exact .inl ⟨hp, x, R, hid, Variants.select_some.2 ⟨_, hi, .inl ⟨hown, hfirst⟩⟩, hx, hf⟩
  exact (Ty.sound m o _ _ _ _ _ h).round_trip hout

/-- **C37.** The same when the id comes from the context, as in a struct that has it as another field
(partial: not for a variant with `id_pat` and a field, see the next theorem). -/
theorem C37_context_id_round_trip_partial (m : Machine) (args : Env → List Val) (magic : List Byte)
    (e : Env → Val) (store : Nat → Env → Val → M Writer Unit) (vs : Variants) (env : Env) (i : Nat)
    (a : VAttrs) (fs : Fields) (hi : vs.toList[i]? = some (a, fs)) (hp : a.idPat = false ∨ fs = .nil)
    (hs : Selects { ctx := args env } (e { ctx := args env }) vs.toList i)
    (hm : magic = [] ∨ ByteSafe o (· = 0)) (Q : Nat → Prop) (v : Val)
    (hf : fs.Fits m o (shift (· = 0) (8 * magic.length)) Q { ctx := args env } v v) (out : List Byte)
    (hout : toBytes ((Ty.enum args magic (.ctx e) store vs).write m env (.variant i v)) = .ok out) :
    ∃ n, n ≤ 8 * out.length ∧ 8 * out.length < n + 8 ∧ Q n ∧
      ∀ extra, fromBytes ((Ty.enum args magic (.ctx e) store vs).read m env) (out ++ extra) 0 =
        .ok (((out ++ extra).drop (n / 8), n % 8), .variant i v) := by
  have h : (Ty.enum args magic (.ctx e) store vs).Fits m o (· = 0) Q env (.variant i v) := by
    simp only [Ty.Fits]
    refine ⟨hm, i, v, rfl, Variants.fitsAt m o _ _ (store i) ?_ hi⟩
    simp only [Variants.FitsAt]
    exact ⟨Variants.select_some.2 hs, .inl ⟨hp, hf⟩⟩
  exact (Ty.sound m o _ _ _ _ _ h).round_trip hout

/-- **C37.** If the id comes from the context, the first field of an `id_pat` variant is an ordinary
field to the reader, but the writer takes it for the id. The value round-trips if what is written for it
is what the field reads (partial: in general this is not so, see below). -/
theorem C37_context_id_pattern_round_trip_partial (m : Machine) (args : Env → List Val)
    (magic : List Byte) (e : Env → Val) (store : Nat → Env → Val → M Writer Unit) (vs : Variants)
    (env : Env) (i : Nat) (a : VAttrs) (fa : Attrs) (ft : Ty) (fs : Fields)
    (hi : vs.toList[i]? = some (a, .cons fa ft fs)) (hp : a.idPat = true)
    (hs : Selects { ctx := args env } (e { ctx := args env }) vs.toList i)
    (hm : magic = [] ∨ ByteSafe o (· = 0)) (x xs : Val) (R Q : Nat → Prop)
    (hx : SoundOn o (shift (· = 0) (8 * magic.length)) (fa.read m.native (ft.read m) { ctx := args env })
      (store i { ctx := args env } x) x R)
    (hf : fs.Fits m o R Q (Env.push { ctx := args env } x) (.cons x xs) xs) (out : List Byte)
    (hout : toBytes ((Ty.enum args magic (.ctx e) store vs).write m env (.variant i (.cons x xs))) =
      .ok out) :
    ∃ n, n ≤ 8 * out.length ∧ 8 * out.length < n + 8 ∧ Q n ∧
      ∀ extra, fromBytes ((Ty.enum args magic (.ctx e) store vs).read m env) (out ++ extra) 0 =
        .ok (((out ++ extra).drop (n / 8), n % 8), .variant i (.cons x xs)) := by
  have h : (Ty.enum args magic (.ctx e) store vs).Fits m o (· = 0) Q env (.variant i (.cons x xs)) := by
    simp only [Ty.Fits]
    refine ⟨hm, i, _, rfl, Variants.fitsAt m o _ _ (store i) ?_ hi⟩
    simp only [Variants.FitsAt, Fields.FitsFirst]
    exact ⟨Variants.select_some.2 hs, .inr ⟨hp, x, xs, R, rfl, hx, hf⟩⟩
  exact (Ty.sound m o _ _ _ _ _ h).round_trip hout

/-- The id 4 from the context selects the second variant; its field is written as the `u16` it is. -/
example (k : Nat) (out : List Byte)
    (hout : toBytes ((ctxPattern 4 .unit).write mach {} (.variant 1 (.ofList [.num k]))) = .ok out) :
    ∃ n, n ≤ 8 * out.length ∧ 8 * out.length < n + 8 ∧ any n ∧
      ∀ extra, fromBytes ((ctxPattern 4 .unit).read mach {}) (out ++ extra) 0 =
        .ok (((out ++ extra).drop (n / 8), n % 8), .variant 1 (.ofList [.num k])) := by
  refine C37_context_id_pattern_round_trip_partial (o := .msb0) mach (fun _ => []) []
    (fun _ => .num (4 : Nat)) _ (ctxPatternVariants .unit) {} 1 _ _ _ _ rfl rfl ⟨_, rfl, .inl ⟨by decide, ?_⟩⟩ (.inl rfl) (.num k) .nil any any ?_ ?_ out hout
  · intro j b hj hb
    match j, hj with
    | 0, _ => simp [Variants.toList, ctxPatternVariants] at hb; subst hb; decide
  · have hr : ∀ rd : Env → M Reader Val, ({} : Attrs).read mach.native rd {} = rd {} := fun rd => by
      funext r
      simp only [Attrs.read, seekRead, magicRead, padRead, M.pure_bind, M.get_bind_run]
      simp [Attrs.value, Attrs.isRead, Attrs.check, Attrs.applyMap, M.bind_def]
      show _ = rd (Env.at {} 0) r
      rcases rd (Env.at {} 0) r with ⟨x, r'⟩
      cases x <;> rfl
    rw [hr]
    exact (uint_sound_msb (e := .little) (n := 16) (by decide) rfl (by decide) (by decide)
      (.inr (.inl rfl))).mono (fun _ h => h) fun _ _ => trivial
  · simp only [Fields.Fits]
    exact fun _ _ => trivial

/-- The third variant has `id_pat` and no field. -/
example : toBytes ((ctxPattern 9 .unit).write mach {} (.variant 2 .nil)) = .ok [] ∧
    fromBytes ((ctxPattern 9 .unit).read mach {}) [1] 0 = .ok (([1], 0), .variant 2 .nil) := by
  decide +kernel

/-- **C37 is false** of an `id_pat` variant with an id from the context and attributes that change how
its first field is read, here `endian = "big"` of the enum: the field is written in native order. -/
theorem C37_context_id_pattern_field_loses_its_attributes :
    fromBytes ((ctxPattern 4 (.endian .big)).read mach {}) [0x12, 0x34] 0 =
      .ok (([], 0), .variant 1 (.ofList [.num 0x1234])) ∧
    toBytes ((ctxPattern 4 (.endian .big)).write mach {} (.variant 1 (.ofList [.num 0x1234]))) =
      .ok [0x34, 0x12] := by decide +kernel

/-- The same with `bits = 4` on the field: it is written as a whole byte. -/
theorem C37_context_id_pattern_field_loses_its_size :
    let t : Ty := .struct (fun _ => []) none [] (.cons {} (.enum (fun _ => []) [] (.ctx fun _ => .num 1)
      (fun _ _ => (uintCodec .little 1 .unit).write)
      (.cons { pat := fun _ _ => true, id := none, idPat := true } (.cons {} u4T .nil) .nil))
      (.cons {} u4T .nil))
    fromBytes (t.read mach {}) [0x12] 0 = .ok (([], 0), .ofList [.variant 0 (.ofList [.num 1]), .num 2]) ∧
    toBytes (t.write mach {} (.ofList [.variant 0 (.ofList [.num 1]), .num 2])) = .ok [0x01, 0x20] := by
  decide +kernel

/-- The hypotheses hold for the second variant of the example, whose id is also in the range of a later
one. -/
example (out : List Byte)
    (hout : toBytes (shapes.write mach {} (.variant 1 (.ofList [.num 5, .num 6]))) = .ok out) :
    ∃ n, n ≤ 8 * out.length ∧ 8 * out.length < n + 8 ∧ any n ∧
      ∀ extra, fromBytes (shapes.read mach {}) (out ++ extra) 0 =
        .ok (((out ++ extra).drop (n / 8), n % 8), .variant 1 (.ofList [.num 5, .num 6])) := by
  refine C37_enum_round_trip (o := .msb0) mach _ _ _ _ _ shapeVariants {} 1 _ _ rfl (.inl rfl) (.num 2)
    rfl (by decide) ?_ (.inl rfl) any any
    u8_sound _ ?_ out hout
  · intro j b hj hb
    match j, hj with
    | 0, _ => simp [Variants.toList, shapeVariants] at hb; subst hb; decide
  · simp only [Fields.Fits, Val.ofList]
    exact ⟨_, _, any, rfl, plain (u4_fits any_all), _, _, any, rfl, plain (u4_fits any_all),
      fun _ _ => trivial⟩

example : toBytes (shapes.write mach {} (.variant 1 (.ofList [.num 5, .num 6]))) = .ok [2, 0x56] ∧
    fromBytes (shapes.read mach {}) [2, 0x56, 0xff] 0 =
      .ok (([0xff], 0), .variant 1 (.ofList [.num 5, .num 6])) ∧
    fromBytes (shapes.read mach {}) [7, 0x56] 0 = .ok (([0x56], 0), .variant 2 (.ofList [.num 7])) ∧
    fromBytes (shapes.read mach {}) [99] 0 = .err .parse := by decide +kernel

/-! ## C38 -/

/-- Unless the endianness is given by `endian` alone, the id is stored with the arguments it is read
with. -/
theorem IdAttrs.store_eq {ia : IdAttrs} (h : ia.endian = none ∨ ia.idEndian ≠ none) :
    ia.storeCtx = ia.idCtx := by
  unfold IdAttrs.storeCtx IdAttrs.idCtx
  cases hi : ia.idEndian with
  | some e => rfl
  | none =>
    rcases h with h | h
    · rw [h]
    · exact absurd hi h

/-- **C38.** The id that was read is written back as the same bits, if the endianness is given by
`id_endian` or not at all (partial: with `endian` alone this is false, see below). -/
theorem C38_id_written_as_read_partial (native e : Endian) (W n : Nat) (ia : IdAttrs)
    (ctx store : IntCtx) (hi : ia.endian = none ∨ ia.idEndian ≠ none) (hc : ia.idCtx = some ctx)
    (hst : ia.storeCtx = some store) (hW : 1 ≤ W) (hs : ctx.shape native W = (e, n, o)) (h1 : 1 ≤ n)
    (hn : n ≤ 8 * W) (p : Nat) (hcp : Prim.Compatible native W ctx p) :
    Canonical o p (uintCodec native W ctx).read (uintCodec native W store).write := by
  rw [IdAttrs.store_eq hi, hc] at hst
  simp at hst
  subst hst
  exact uint_canonical hW hs h1 hn hcp

/-- **C38.** An enum value in a variant that stores its id round-trips, under the same condition. -/
theorem C38_stored_id_round_trip_partial (m : Machine) (args : Env → List Val) (magic : List Byte)
    (e : Endian) (W n : Nat) (ia : IdAttrs) (ctx store : IntCtx)
    (hia : ia.endian = none ∨ ia.idEndian ≠ none) (hc : ia.idCtx = some ctx)
    (hst : ia.storeCtx = some store) (hW : 1 ≤ W) (hsh : ctx.shape m.native W = (e, n, o)) (h1 : 1 ≤ n)
    (hn : n ≤ 8 * W) (sz : Option Nat) (vs : Variants) (env : Env) (i : Nat) (a : VAttrs) (fa : Attrs)
    (ft : Ty) (fs : Fields) (hi : vs.toList[i]? = some (a, .cons fa ft fs)) (hp : a.idPat = true)
    (hid : a.id = none) (x xs : Val) (hs : Selects { ctx := args env } x vs.toList i)
    (hm : magic = [] ∨ ByteSafe o (· = 0))
    (hcp : ∀ p, shift (· = 0) (8 * magic.length) p → Prim.Compatible m.native W ctx p)
    (hx : ctx.isBits = true ∨ n = 8 * W ∨ ∀ k : Nat, x = .num k → k < 2 ^ n) (Q : Nat → Prop)
    (hf : fs.Fits m o (shift (shift (· = 0) (8 * magic.length)) n) Q (Env.push { ctx := args env } x)
      (.cons x xs) xs) (out : List Byte)
    (hout : toBytes ((Ty.enum args magic (.typed sz fun _ => uintCodec m.native W ctx)
      (fun _ _ => (uintCodec m.native W store).write) vs).write m env (.variant i (.cons x xs))) = .ok out) :
    ∃ n, n ≤ 8 * out.length ∧ 8 * out.length < n + 8 ∧ Q n ∧
      ∀ extra, fromBytes ((Ty.enum args magic (.typed sz fun _ => uintCodec m.native W ctx)
          (fun _ _ => (uintCodec m.native W store).write) vs).read m env) (out ++ extra) 0 =
        .ok (((out ++ extra).drop (n / 8), n % 8), .variant i (.cons x xs)) := by
  rw [IdAttrs.store_eq hia, hc] at hst
  simp at hst
  subst hst
  have h : (Ty.enum args magic (.typed sz fun _ => uintCodec m.native W ctx)
      (fun _ _ => (uintCodec m.native W ctx).write) vs).Fits m o (· = 0) Q env
      (.variant i (.cons x xs)) := by
    simp only [Ty.Fits]
    refine ⟨hm, i, _, rfl, Variants.fitsAt m o _ _ _ ?_ hi⟩
    simp only [Variants.FitsAt, Fields.FitsStored]
    exact .inr ⟨hp, hid, x, xs, _, rfl, ⟨Variants.select_some.2 hs, uint_sound hW hsh h1 hn hx hcp⟩, hf⟩
  exact (Ty.sound m o _ _ _ _ _ h).round_trip hout

/-- A big endian 16 bit id given by `id_endian`, stored by the first variant for ids above 2. -/
example (x : Nat) (hx : 2 < x) (out : List Byte)
    (hout : toBytes ((idEnum (.endian .big) (.endian .big)).write mach {}
      (.variant 1 (.ofList [.num x, .num 4]))) = .ok out) :
    ∃ n, n ≤ 8 * out.length ∧ 8 * out.length < n + 8 ∧ any n ∧
      ∀ extra, fromBytes ((idEnum (.endian .big) (.endian .big)).read mach {}) (out ++ extra) 0 =
        .ok (((out ++ extra).drop (n / 8), n % 8), .variant 1 (.ofList [.num x, .num 4])) := by
  refine C38_stored_id_round_trip_partial (o := .msb0) mach _ [] .big 2 16 { idEndian := some .big }
    (.endian .big) (.endian .big) (.inr (by simp)) rfl rfl (by omega) rfl (by omega) (by omega) _ idVariants
    {} 1 _ _ _ _ rfl rfl rfl (.num x) _ ?_ (.inl rfl) ?_ (.inr (.inl rfl)) any ?_ out hout
  · refine ⟨_, rfl, .inl ⟨by simp; omega, ?_⟩⟩
    intro j b hj hb
    match j, hj with
    | 0, _ => simp [Variants.toList, idVariants] at hb; subst hb; simp; omega
  · intro p _; simp [Prim.Compatible, IntCtx.isBits, IntCtx.shape]
  · simp only [Fields.Fits]
    exact ⟨_, _, any, rfl, plain (u8_fits any_all), fun _ _ => trivial⟩

/-- **C38 is false** with `endian` alone: the id is read big endian and stored with the endianness of
the machine. -/
theorem C38_counterexample_endian_only :
    let ia : IdAttrs := { endian := some .big }
    ∃ ctx store, ia.idCtx = some ctx ∧ ia.storeCtx = some store ∧
      fromBytes ((idEnum ctx store).read mach {}) [0x12, 0x34, 9] 0 =
        .ok (([], 0), .variant 1 (.ofList [.num 0x1234, .num 9])) ∧
      toBytes ((idEnum ctx store).write mach {} (.variant 1 (.ofList [.num 0x1234, .num 9]))) =
        .ok [0x34, 0x12, 9] := by
  refine ⟨.endian .big, .unit, rfl, rfl, ?_, ?_⟩ <;> decide +kernel

/-! ## C42 -/

/-- **C42.** A field with a condition that is false is not read: nothing is consumed, it has its default
value. -/
theorem C42_false_condition_reads_nothing (a : Attrs) (c : Env → Bool) (native : Endian)
    (rd : Env → M Reader Val) (env : Env) (r : Reader) (hs : a.seek = none) (hm : a.magic = [])
    (hb : a.padBefore = none) (ha : a.padAfter = none) (hskip : a.skip = none) (hcond : a.cond = some c)
    (hc : c (env.at (if a.usesOffset then r.bitsRead else 0)) = false)
    (hok : ∀ env v, a.assert env v = true) (heq : ∀ env, a.assertEq env = none) :
    a.read native rd env r =
      (.ok (a.default (env.at (if a.usesOffset then r.bitsRead else 0))), r) := by
  simp only [Attrs.read, hs, hm, hb, ha, seekRead, magicRead, padRead, M.pure_bind, M.get_bind_run]
  simp [Attrs.value, Attrs.isRead, Attrs.check, hskip, hcond, hc, hok, heq, M.bind_def, M.pure_run]

/-- **C42.** With a condition that is true, the field is read as if it had none. -/
theorem C42_true_condition_reads_the_field (a : Attrs) (c : Env → Bool) (native : Endian)
    (rd : Env → M Reader Val) (env : Env) (hskip : a.skip = none) (hcond : a.cond = some c)
    (hc : ∀ off, c (env.at off) = true) :
    a.read native rd env = Attrs.read { a with cond := none } native rd env := by
  have h : ∀ off, a.value rd (env.at off) = Attrs.value { a with cond := none } rd (env.at off) := by
    intro off
    simp [Attrs.value, Attrs.isRead, hskip, hcond, hc]
    rfl
  simp only [Attrs.read, h]
  rfl

/-- **C42.** A field with `skip` and a condition for it is either both read and written or neither. -/
theorem C42_skip_is_symmetric (a : Attrs) (env : Env) (h : a.skip = some .all) :
    a.isRead env = a.isWritten env := by
  unfold Attrs.isRead Attrs.isWritten
  rw [h]
  cases a.cond <;> rfl

/-- **C42.** Such a field round-trips: read back is what was written, or the default value if it is
skipped. (Partial: a condition without `skip` is not looked at when writing, see below.) -/
theorem C42_skip_cond_round_trip_partial (m : Machine) (a : Attrs) (t : Ty) (P Q : Nat → Prop) (env : Env)
    (x : Val) (hskip : a.skip = some .all) (hs : a.seek = none) (hm : a.magic = [])
    (hb : a.padBefore = none) (ha : a.padAfter = none) (ho : a.usesOffset = false)
    (hmap : a.map (env.at 0) (a.unmap (env.at 0) x) = .ok x)
    (hread : a.isRead (env.at 0) = true → t.Fits m o P Q (env.at 0) (a.unmap (env.at 0) x))
    (hskipped : a.isRead (env.at 0) = false → a.default (env.at 0) = x ∧ ∀ p, P p → Q p) :
    SoundOn o P (a.read m.native (t.read m) env) (a.write m.native (t.write m) env x) x Q := by
  have hV : a.ValueFits o (t.Fits m o) (t.write m) P Q (env.at 0) x := by
    have hw := C42_skip_is_symmetric a (env.at 0) hskip
    cases hr : a.isRead (env.at 0) with
    | true => exact .inl ⟨hr, by rw [← hw, hr], hmap, hread hr⟩
    | false =>
      exact .inr ⟨hr, (hskipped hr).1, (hskipped hr).2, fun h => by rw [← hw, hr] at h; simp at h⟩
  have h0 : ∀ v, padBits a.padAfter ((env.at 0).push v) = 0 := fun v => by rw [ha]; rfl
  have hP : shift P (8 * a.magic.length + padBits a.padBefore env) = P := by
    funext q
    rw [hm, hb]
    exact propext ⟨fun ⟨p, hp, hq⟩ => by simp [padBits] at hq; rwa [hq], fun h => ⟨q, h, by simp [padBits]⟩⟩
  refine Attrs.sound (T := t.Fits m o) m.native (fun P Q env x => Ty.sound m o t P Q env x) ?_
  refine ⟨hs, ho, .inl hm, .inl hb, .inl ha, Q, ?_, ?_⟩
  · rw [hP]; exact hV
  · intro q hq; rw [h0] at hq; exact shift_zero hq

/-- **C42.** An optional field with a condition round-trips if it is there exactly when the condition
is true. -/
theorem C42_optional_round_trip_partial (m : Machine) (a : Attrs) (c : Env → Bool) (t : Ty)
    (P Q : Nat → Prop) (env : Env) (x : Val) (hskip : a.skip = none) (hcond : a.cond = some c)
    (hs : a.seek = none) (hm : a.magic = []) (hb : a.padBefore = none) (ha : a.padAfter = none)
    (ho : a.usesOffset = false) (hmap : a.map = fun _ v => .ok v) (hunmap : a.unmap = fun _ v => v)
    (hd : a.default = fun _ => .none)
    (htrue : c (env.at 0) = true → ∃ y, x = .some y ∧ t.Fits m o P Q (env.at 0) y)
    (hfalse : c (env.at 0) = false → x = .none ∧ ∀ p, P p → Q p) :
    SoundOn o P (a.read m.native ((Ty.option t).read m) env)
      (a.write m.native ((Ty.option t).write m) env x) x Q := by
  have hV : a.ValueFits o ((Ty.option t).Fits m o) ((Ty.option t).write m) P Q (env.at 0) x := by
    have hr : a.isRead (env.at 0) = c (env.at 0) := by simp [Attrs.isRead, hskip, hcond]
    have hw : a.isWritten (env.at 0) = true := by simp [Attrs.isWritten, hskip]
    cases hc : c (env.at 0) with
    | true =>
      obtain ⟨y, hy, hf⟩ := htrue hc
      refine .inl ⟨by rw [hr, hc], hw, by rw [hmap, hunmap], ?_⟩
      rw [hunmap]
      simp only [Ty.Fits]
      exact ⟨y, hy, hf⟩
    | false =>
      obtain ⟨hx, hPQ⟩ := hfalse hc
      refine .inr ⟨by rw [hr, hc], by rw [hd, hx], hPQ, fun _ p _ => ?_⟩
      rw [hunmap, hx]
      simp only [Ty.write]
      exact Writes.pure o p
  have h0 : ∀ v, padBits a.padAfter ((env.at 0).push v) = 0 := fun v => by rw [ha]; rfl
  have hP : shift P (8 * a.magic.length + padBits a.padBefore env) = P := by
    funext q
    rw [hm, hb]
    exact propext ⟨fun ⟨p, hp, hq⟩ => by simp [padBits] at hq; rwa [hq], fun h => ⟨q, h, by simp [padBits]⟩⟩
  refine Attrs.sound (T := (Ty.option t).Fits m o) m.native
    (fun P Q env x => Ty.sound m o (.option t) P Q env x) ?_
  refine ⟨hs, ho, .inl hm, .inl hb, .inl ha, Q, ?_, ?_⟩
  · rw [hP]; exact hV
  · intro q hq; rw [h0] at hq; exact shift_zero hq

/-- A skipped and a present optional field. -/
example : fromBytes (packet.read mach {}) [0xab, 0x30, 0, 0, 9, 0xff] 0 =
      .ok (([0xff], 0), packetValue [] .none) ∧
    toBytes (packet.write mach {} (packetValue [] .none)) = .ok [0xab, 0x30, 0, 0, 9] := by
  decide +kernel

/-- **C42 is false** for a condition without `skip`: the field is written although its condition is
false. What is written is not what is read. -/
theorem C42_counterexample_cond_is_ignored_on_write :
    toBytes (condTy.write mach {} (.ofList [.num 0, .num 5])) = .ok [0, 5] ∧
    fromBytes (condTy.read mach {}) [0, 5] 0 = .ok (([5], 0), .ofList [.num 0, .num 0]) := by
  decide +kernel

end Deku
