import Verif.Lemmas.Size
import Verif.Lemmas.Examples

/-!
# C46: `DekuSize` matches what is written and read

`Ty.size` is the constant `SIZE_BITS` the macro computes. It is compared with what happens to the source
and the sink.
-/

namespace Deku

open Reader Writer

variable {m : Machine} {t : Ty} {env : Env} {k : Nat}

/-- A definition of fixed size has a `SIZE_BITS`. -/
theorem C46_defined (h : t.Regular) : ∃ k, t.size = some k := by
  obtain ⟨k, hk, _⟩ := Ty.largest t h
  exact ⟨k, hk⟩

theorem largest_of (h : t.Regular) (hk : t.size = some k) : Largest t.Sizes k t.Inhabited t.EnumFree := by
  obtain ⟨k', hk', hl⟩ := Ty.largest t h
  rw [hk] at hk'
  simp at hk'
  subst hk'
  exact hl

/-- Without enums, every successful read uses up exactly `SIZE_BITS` bits of the source. -/
theorem C46_read_partial (h : t.Regular) (he : t.EnumFree) (hk : t.size = some k) {r r' : Reader} {v : Val}
    (hr : r.Good) (hx : t.read m env r = (.ok v, r')) :
    r'.used = r.used + k ∧ r'.bitsRead = r.bitsRead + k := by
  obtain ⟨h1, n, h2, h3⟩ := Ty.uses m t env h r v r' hr hx
  have := (largest_of h hk).only he n h2
  have := hr.used_eq
  have := h1.used_eq
  omega

/-- Without enums, every successful write adds exactly `SIZE_BITS` bits. -/
theorem C46_write_partial (h : t.Regular) (he : t.EnumFree) (hk : t.size = some k) {w w' : Writer} {v : Val}
    {u : Unit} (hw : w.Appending) (hx : t.write m env v w = (.ok u, w')) :
    8 * w'.inner.data.length + w'.leftover.length = 8 * w.inner.data.length + w.leftover.length + k := by
  obtain ⟨h1, n, h2, h3⟩ := Ty.puts m t env v h w u w' hw hx
  have := (largest_of h hk).only he n h2
  have := hw.atEnd
  have := h1.atEnd
  simp only [Writer.total] at h3
  omega

/-- In general `SIZE_BITS` is an upper bound. -/
theorem C46_read_bound_partial (h : t.Regular) (hk : t.size = some k) {r r' : Reader} {v : Val}
    (hr : r.Good) (hx : t.read m env r = (.ok v, r')) :
    r'.used ≤ r.used + k ∧ r'.bitsRead ≤ r.bitsRead + k := by
  obtain ⟨h1, n, h2, h3⟩ := Ty.uses m t env h r v r' hr hx
  have := (largest_of h hk).bound n h2
  have := hr.used_eq
  have := h1.used_eq
  omega

theorem C46_write_bound_partial (h : t.Regular) (hk : t.size = some k) {w w' : Writer} {v : Val}
    {u : Unit} (hw : w.Appending) (hx : t.write m env v w = (.ok u, w')) :
    8 * w'.inner.data.length + w'.leftover.length ≤ 8 * w.inner.data.length + w.leftover.length + k := by
  obtain ⟨h1, n, h2, h3⟩ := Ty.puts m t env v h w u w' hw hx
  have := (largest_of h hk).bound n h2
  have := hw.atEnd
  have := h1.atEnd
  simp only [Writer.total] at h3
  omega

/-- The bound is tight: it is one of the sizes the definition allows, and without enums the only one. -/
theorem C46_sizes (h : t.Regular) (hi : t.Inhabited) (hk : t.size = some k) :
    t.Sizes k ∧ (∀ n, t.Sizes n → n ≤ k) ∧ (t.EnumFree → ∀ n, t.Sizes n ↔ n = k) := by
  have hl := largest_of h hk
  exact ⟨hl.attained hi, hl.bound, fun he n => ⟨hl.only he n, fun hn => hn ▸ hl.attained hi⟩⟩

/-- An enum over fields without enums has a variant all of whose messages are of `SIZE_BITS` bits. -/
theorem C46_largest_variant_partial {args : Env → List Val} {magic : List Byte} {id : IdSrc}
    {store : Nat → Env → Val → M Writer Unit} {vs : Variants} (h : (Ty.enum args magic id store vs).Regular)
    (hne : vs ≠ .nil) (he : vs.EnumFree) (hi : vs.Inhabited)
    (hk : (Ty.enum args magic id store vs).size = some k) :
    ∃ i, (∀ env r fs r', r.Good → (Ty.enum args magic id store vs).read m env r = (.ok (.variant i fs), r') →
        r'.used = r.used + k) ∧
      (∀ env w fs u w', w.Appending →
        (Ty.enum args magic id store vs).write m env (.variant i fs) w = (.ok u, w') →
        8 * w'.inner.data.length + w'.leftover.length =
          8 * w.inner.data.length + w.leftover.length + k) := by
  obtain ⟨d, hd, hdl⟩ := IdSrc.largest h
  have hr := h
  simp only [Ty.Regular] at hr
  obtain ⟨j, hj, _, _, hf⟩ := Variants.largest vs id.inMessage hr.2
  rw [Ty.size_enum, hd, hj] at hk
  have hk : k = 8 * magic.length + d + j := by injection hk with hk; exact hk.symm
  obtain ⟨i, hi⟩ := hf hne he hi
  have hex : ∀ n, enumSizes magic id vs i n → n = k := by
    intro n ⟨x, y, hx, ⟨z, u, hz, hu, e'⟩, e⟩
    have := (hdl z).1 hz
    have := (hi u).1 hu
    omega
  refine ⟨i, fun env r fs r' hr hx => ?_, fun env w fs u w' hw hx => ?_⟩
  · obtain ⟨_, n, ⟨i', fs', hv, hn⟩, hu⟩ :=
      enum_uses (fun typed env x i hv => Variants.uses m vs env x typed i hv) h env r _ r' hr hx
    simp at hv
    rw [← hv.1] at hn
    have := hex n hn
    omega
  · obtain ⟨h1, n, hn, hu⟩ :=
      enum_puts (fun env i v h1 h2 => Variants.puts m vs env id (store i) i v h1 h2) h env i fs w u w' hw hx
    have := hex n hn
    have := hw.atEnd
    have := h1.atEnd
    simp only [Writer.total] at hu
    omega

/-! ### the entry points -/

theorem new_appending : (Writer.new {}).Appending :=
  ⟨⟨⟨Nat.le_refl _, by simp [Writer.new]⟩, by simp [Writer.new]⟩, ⟨rfl, rfl⟩, rfl⟩

theorem new_good (data : List Byte) : (Reader.new { data := data }).Good :=
  ⟨rfl, by intro l h; simp [Reader.new] at h, by intro l h; simp [Reader.new] at h,
    by simp [Synced, Reader.new, Reader.rest, leftoverBits], by simp [Reader.new, Reader.rest, leftoverBits]⟩

/-- `from_reader` and `from_bytes` consume the offset and `SIZE_BITS` bits; less for a small variant. -/
theorem C46_from_bytes_partial (h : t.Regular) (hk : t.size = some k) {data tl : List Byte} {off b : Nat}
    {v : Val} (hx : fromBytes (t.read m env) data off = .ok ((tl, b), v)) :
    8 * (data.length - tl.length) + b ≤ off + k ∧
    (t.EnumFree → 8 * (data.length - tl.length) + b = off + k) := by
  unfold fromBytes at hx
  rcases hq : readFrom (t.read m env) off (Reader.new { data := data }) with ⟨v' | e | _, r⟩
  · rw [hq] at hx
    simp only at hx
    split at hx
    · rename_i hle
      simp at hx
      obtain ⟨⟨rfl, rfl⟩, rfl⟩ := hx
      have hpre : Uses (fun _ => (· = off)) (if off ≠ 0 then skipBits off .msb0 else Pure.pure ()) :=
        Uses.ite (fun _ => skipBits_uses off .msb0) fun h0 => Uses.pure (by omega)
      have e : readFrom (t.read m env) off =
          ((if off ≠ 0 then skipBits off .msb0 else Pure.pure ()) >>= fun _ => t.read m env) := by
        unfold readFrom
        split <;> rfl
      rw [e] at hq
      obtain ⟨h1, n, ⟨i, j, hi, hj, e⟩, h2⟩ :=
        (hpre.seq fun _ => Ty.uses m t env h) _ _ _ (new_good data) hq
      rw [(new_good data).used_eq, h1.used_eq] at h2
      have h0 : (Reader.new { data := data }).bitsRead = 0 := rfl
      rw [h0] at h2
      have hl := largest_of h hk
      have := hl.bound j hj
      rw [List.length_drop]
      refine ⟨by omega, fun he => ?_⟩
      have := hl.only he j hj
      omega
    · simp at hx
  · rw [hq] at hx; simp at hx
  · rw [hq] at hx; simp at hx

/-- `to_bits` gives `SIZE_BITS` bits, `to_bytes` as many bytes as are needed for them. -/
theorem C46_to_bits_partial (h : t.Regular) (hk : t.size = some k) {v : Val} :
    (∀ bits, toBits (t.write m env v) = .ok bits →
      bits.length ≤ k ∧ (t.EnumFree → bits.length = k)) ∧
    (∀ bs, toBytes (t.write m env v) = .ok bs →
      bs.length ≤ (k + 7) / 8 ∧ (t.EnumFree → bs.length = (k + 7) / 8)) := by
  have hl := largest_of h hk
  have ht : (Writer.new {}).total = 0 := rfl
  refine ⟨fun bits hx => ?_, fun bs hx => ?_⟩
  · unfold toBits at hx
    rcases hq : t.write m env v (Writer.new {}) with ⟨u | e | _, w⟩
    · rw [hq] at hx
      simp at hx
      subst hx
      obtain ⟨h1, n, h2, h3⟩ := Ty.puts m t env v h _ u w new_appending hq
      have hb := hl.bound n h2
      have ha := h1.atEnd
      rw [ht] at h3
      simp only [Writer.total] at h3
      rw [List.length_append, length_bytesBits]
      refine ⟨by omega, fun he => ?_⟩
      have := hl.only he n h2
      omega
    · rw [hq] at hx; simp at hx
    · rw [hq] at hx; simp at hx
  · unfold toBytes at hx
    rcases hq : t.write m env v (Writer.new {}) with ⟨u | e | _, w⟩
    · rw [M.bind_ok hq] at hx
      obtain ⟨h1, n, h2, h3⟩ := Ty.puts m t env v h _ u w new_appending hq
      have hb := hl.bound n h2
      have ha := h1.atEnd
      rw [ht] at h3
      simp only [Writer.total] at h3
      obtain ⟨w', e', hg⟩ := ((finalize_done h1.wf).took h1.wf).ok h1.healthy
      rw [e'] at hx
      simp at hx
      subst hx
      have hlen := hg.len
      have ha' := (hg.appending h1).atEnd
      have h8 := h1.wf.2
      have h8' := hg.wf.2
      rw [List.length_replicate] at hlen
      refine ⟨by omega, fun he => ?_⟩
      have := hl.only he n h2
      omega
    · rw [M.bind_err hq] at hx; simp at hx
    · rw [M.bind_panic hq] at hx; simp at hx

/-- The integers have the sizes they declare. -/
theorem C46_integers {native e : Endian} {W n : Nat} {ctx : IntCtx} {o : Order} (hW : 1 ≤ W)
    (hs : ctx.shape native W = (e, n, o)) (h1 : 1 ≤ n) (hn : n ≤ 8 * W) :
    (Ty.prim (some n) fun _ => uintCodec native W ctx).Regular := by
  simp only [Ty.Regular]
  exact ⟨n, rfl, fun _ => uint_measures hW hs h1 hn⟩

namespace Example

theorem u8_regular : u8T.Regular :=
  C46_integers (e := .little) (n := 8) (o := .msb0) (by decide) rfl (by decide) (by decide)
theorem u4_regular : u4T.Regular :=
  C46_integers (e := .little) (n := 4) (o := .msb0) (by decide) rfl (by decide) (by decide)
theorem u16_regular : u16be.Regular :=
  C46_integers (e := .big) (n := 16) (o := .msb0) (by decide) rfl (by decide) (by decide)

theorem plain_regular (t : Ty) : ({} : Attrs).Regular t :=
  ⟨rfl, rfl, rfl, ⟨0, rfl⟩, ⟨0, rfl⟩, .inl rfl⟩

/-- ```
#[deku(magic = b"\xAB")]
struct Fixed {
    #[deku(bits = 4)] a: u8,
    #[deku(pad_bits_before = "2", endian = "big", magic = b"x")] b: [u16; 3],
    c: (u8, u8),
    shape: Shapes,
}
``` -/
def fixed (last : Ty) : Ty := .struct (fun _ => []) none [0xab] <|
  .cons { sizeAttr := some 4 } u4T <|
  .cons { padBefore := some fun _ => 2, magic := [120] } (.array 3 u16be) <|
  .cons {} (.pair u8T u8T) <| .cons {} last .nil

theorem fixed_regular {last : Ty} (h : last.Regular) : (fixed last).Regular := by
  simp only [fixed, Ty.Regular, Fields.Regular]
  exact ⟨trivial, ⟨rfl, rfl, rfl, ⟨0, rfl⟩, ⟨0, rfl⟩, .inr rfl⟩, u4_regular,
    ⟨rfl, rfl, rfl, ⟨2, fun _ => rfl⟩, ⟨0, rfl⟩, .inl rfl⟩, u16_regular, plain_regular _,
    ⟨u8_regular, u8_regular⟩, plain_regular _, h, trivial⟩

theorem shapes_regular : shapes.Regular := by
  simp only [shapes, shapeVariants, Ty.Regular, Variants.Regular, Fields.Regular, Fields.RestRegular,
    IdSrc.inMessage, Bool.false_eq_true, if_false, if_true]
  have h8 := uint_measures (native := .little) (W := 1) (ctx := .unit) (e := .little) (n := 8) (o := .msb0)
    (by decide) rfl (by decide) (by decide)
  exact ⟨⟨8, rfl, fun _ => h8, fun _ _ => h8.2⟩, ⟨fun _ => by simp, trivial⟩,
    ⟨fun _ => by simp, plain_regular _, u4_regular, plain_regular _, u4_regular, trivial⟩,
    ⟨trivial, trivial, trivial⟩, trivial⟩

theorem shapes_size : shapes.size = some 16 := rfl
theorem fixed_size : (fixed shapes).size = some (8 + 4 + (8 + 2 + 48) + 16 + 16) := rfl

/-- The hypotheses are met by a struct without enums, by one with an enum, and by the enum. -/
example : (fixed u8T).Regular ∧ (fixed u8T).EnumFree ∧ (fixed u8T).Inhabited ∧
    (fixed u8T).size = some 94 :=
  ⟨fixed_regular u8_regular, by simp [fixed, Ty.EnumFree, Fields.EnumFree, u4T, u8T, u16be],
    by simp [fixed, Ty.Inhabited, Fields.Inhabited, u4T, u8T, u16be], rfl⟩

example : (fixed shapes).Regular ∧ shapes.Regular ∧ shapeVariants.EnumFree ∧ shapeVariants.Inhabited ∧
    shapeVariants ≠ .nil :=
  ⟨fixed_regular shapes_regular, shapes_regular,
    by simp [shapeVariants, Variants.EnumFree, Fields.EnumFree, Ty.EnumFree, u4T, u8T],
    by simp [shapeVariants, Variants.Inhabited, Fields.Inhabited, Ty.Inhabited, u4T, u8T],
    by simp [shapeVariants]⟩

/-- Messages of the smallest and of the largest size. -/
example : toBytes (shapes.write mach {} (.variant 0 .nil)) = .ok [1] ∧
    toBytes (shapes.write mach {} (.variant 1 (.ofList [.num 3, .num 4]))) = .ok [2, 0x34] ∧
    fromBytes (shapes.read mach {}) [2, 0x34, 7] 0 = .ok (([7], 0), .variant 1 (.ofList [.num 3, .num 4])) := by
  decide +kernel

end Example

/-! ### what goes wrong without the hypotheses -/

open Example

/-- A temporary field is not counted, though it is read and written:
`struct { #[deku(temp, temp_value = "7")] a: u8, b: u8 }`. -/
theorem C46_temporary_fields_are_not_counted :
    let t : Ty := .struct (fun _ => []) none [] <| .temp {} u8T (some fun _ => .num 7) <| .cons {} u8T .nil
    t.size = some 8 ∧ toBytes (t.write mach {} (.ofList [.num 1])) = .ok [7, 1] ∧
      fromBytes (t.read mach {}) [7, 1] 0 = .ok (([], 0), .ofList [.num 1]) := by
  decide +kernel

/-- A skipped field is counted, though it is neither read nor written:
`struct { #[deku(skip)] a: u8, b: u8 }`. -/
theorem C46_skipped_fields_are_counted :
    let t : Ty := .struct (fun _ => []) none [] <| .cons { skip := some .all } u8T <| .cons {} u8T .nil
    t.size = some 16 ∧ toBytes (t.write mach {} (.ofList [.num 0, .num 1])) = .ok [1] ∧
      fromBytes (t.read mach {}) [1] 0 = .ok (([], 0), .ofList [.num 0, .num 1]) := by
  decide +kernel

/-- A field with a condition is counted even when it is absent. -/
theorem C46_absent_fields_are_counted :
    condTy.size = some 16 ∧
      fromBytes (condTy.read mach {}) [2, 9] 0 = .ok (([9], 0), .ofList [.num 2, .num 0]) := by
  decide +kernel

/-- The size given by `bits` for the elements of an array is counted once:
`struct { #[deku(bits = 4)] a: [u8; 4] }`. -/
theorem C46_bits_of_an_array_are_counted_once :
    let t : Ty := .struct (fun _ => []) none [] <| .cons { sizeAttr := some 4 } (.array 4 u4T) .nil
    t.size = some 4 ∧ toBytes (t.write mach {} (.ofList [.ofList [.num 1, .num 2, .num 3, .num 4]])) =
        .ok [0x12, 0x34] ∧
      fromBytes (t.read mach {}) [0x12, 0x34] 0 =
        .ok (([], 0), .ofList [.ofList [.num 1, .num 2, .num 3, .num 4]]) := by
  decide +kernel

/-- A `bytes` attribute on a `u8` is counted, but the integer is of one byte:
`struct { #[deku(bytes = 2)] a: u8 }`. -/
theorem C46_bytes_of_u8_are_not_used :
    let t : Ty := .struct (fun _ => []) none [] <|
      .cons { sizeAttr := some 16 } (.prim (some 8) fun _ => uintCodec .little 1 (.bytes 2)) .nil
    t.size = some 16 ∧ toBytes (t.write mach {} (.ofList [.num 5])) = .ok [5] := by
  decide +kernel

end Deku
