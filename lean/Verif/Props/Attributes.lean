import Verif.Spec.Attributes
import Verif.Lemmas.Asserts
import Verif.Lemmas.Examples

/-!
# Properties of the attributes of types and fields: C39, C40, C41
-/

namespace Deku

open Reader Writer Coll Example

variable {o : Order} {p : Nat}

/-! ## C39 -/

theorem magicRead_exact (native : Endian) (magic : List Byte) {r : Reader} (hf : r.Healthy)
    (hw : r.WF) :
    (bytesBits magic <+: r.unread .msb0 →
      ∃ r', magicRead native magic r = (.ok (), r') ∧ Step .msb0 (8 * magic.length) r r') ∧
    (¬ bytesBits magic <+: r.unread .msb0 →
      ∃ e r', magicRead native magic r = (.err e, r') ∧ MagicFails magic (r.unread .msb0) e) := by
  induction magic generalizing r with
  | nil => exact ⟨fun _ => ⟨r, rfl, Step.refl _ hf hw⟩, fun h => absurd (List.nil_prefix) h⟩
  | cons c cs ih =>
    obtain ⟨hok, hshort⟩ := u8Read_delivers native r hf hw
    by_cases hlen : 8 ≤ (r.unread .msb0).length
    · obtain ⟨r1, e1, s1⟩ := hok hlen
      simp only [] at e1
      generalize hb : byteOf (present .msb0 ((r.unread .msb0).take 8)) = b at e1
      have hu : r.unread .msb0 = byteBits b ++ r1.unread .msb0 := by
        rw [s1.unread, ← hb, present, byteBits_byteOf _ (by simp; omega), List.take_append_drop]
      simp only [magicRead]
      rw [M.bind_ok e1]
      by_cases hc : c = b
      · subst hc
        simp only [ne_eq, not_true_eq_false, if_false]
        rw [hu, bytesBits_cons, List.prefix_append_right_inj]
        obtain ⟨h1, h2⟩ := ih s1.healthy s1.wf
        refine ⟨fun h => ?_, fun h => ?_⟩
        · obtain ⟨r2, e2, s2⟩ := h1 h
          refine ⟨r2, e2, ?_⟩
          have := s1.trans s2
          rwa [show 8 + 8 * cs.length = 8 * (c :: cs).length by simp; omega] at this
        · obtain ⟨e, r2, e2, hm⟩ := h2 h
          refine ⟨e, r2, e2, ?_⟩
          rcases hm with ⟨k, c', b', g1, g2, g3, g4⟩ | ⟨k, n, g1, g2, g3, g4⟩
          · refine .inl ⟨k + 1, c', b', by simpa using g1, g2, ?_, g4⟩
            rw [List.take_succ_cons, List.cons_append, bytesBits_cons, List.prefix_append_right_inj]
            exact g3
          · refine .inr ⟨k + 1, n, by simp; omega, ?_, by simp; omega, g4⟩
            rw [List.take_succ_cons, bytesBits_cons, List.prefix_append_right_inj]
            exact g2
      · rw [if_pos hc]
        refine ⟨fun h => ?_, fun _ => ⟨.parse, r1, rfl, .inl ⟨0, c, b, rfl, Ne.symm hc, ?_, rfl⟩⟩⟩
        · exfalso
          rw [bytesBits_cons, hu] at h
          have h := (List.prefix_append _ _).trans h
          have h := List.prefix_of_prefix_length_le h (List.prefix_append _ _) (by simp)
          have h := List.IsPrefix.eq_of_length h (by simp)
          exact hc (byteBits_inj h)
        · rw [hu]; simp
    · obtain ⟨k, r1, e1, _⟩ := hshort hlen
      refine ⟨fun h => ?_, fun _ => ⟨.incomplete k, r1, ?_, .inr ⟨0, k, by simp, by simp, by omega, rfl⟩⟩⟩
      · have := h.length_le
        simp at this
        omega
      · simp only [magicRead]
        rw [M.bind_err e1]

/-- **C39.** A struct with a magic reads as the struct without it after exactly the magic bytes, and
fails if these do not come next (after the struct's own seek, if it has one). -/
theorem C39_struct_needs_its_magic (m : Machine) (args : Env → List Val)
    (seek : Option (Env → Option SeekFrom)) (magic : List Byte) (fs : Fields) (env : Env)
    (r0 r : Reader) (h0 : seekRead seek { ctx := args env } r0 = (.ok (), r)) (hf : r.Healthy) (hw : r.WF) :
    MagicThen magic ((Ty.struct args seek magic fs).read m env r0)
      ((Ty.struct args none [] fs).read m env) r := by
  obtain ⟨h1, h2⟩ := magicRead_exact m.native magic hf hw
  refine ⟨fun h => ?_, fun h => ?_⟩
  · obtain ⟨r', e, s⟩ := h1 h
    refine ⟨r', s, ?_⟩
    simp only [Ty.read]
    rw [M.bind_ok h0, M.bind_ok e]
    simp only [seekRead, magicRead, M.pure_bind]
  · obtain ⟨e, r', e1, s⟩ := h2 h
    refine ⟨e, r', ?_, s⟩
    simp only [Ty.read]
    rw [M.bind_ok h0, M.bind_err e1]

/-- **C39.** The same for an enum. -/
theorem C39_enum_needs_its_magic (m : Machine) (args : Env → List Val) (magic : List Byte)
    (id : IdSrc) (store : Nat → Env → Val → M Writer Unit) (vs : Variants) (env : Env) (r : Reader)
    (hf : r.Healthy) (hw : r.WF) :
    MagicThen magic ((Ty.enum args magic id store vs).read m env r)
      ((Ty.enum args [] id store vs).read m env) r := by
  obtain ⟨h1, h2⟩ := magicRead_exact m.native magic hf hw
  refine ⟨fun h => ?_, fun h => ?_⟩
  · obtain ⟨r', e, s⟩ := h1 h
    refine ⟨r', s, ?_⟩
    rw [Ty.read_enum, Ty.read_enum, M.bind_ok e]
    rfl
  · obtain ⟨e, r', e1, s⟩ := h2 h
    refine ⟨e, r', ?_, s⟩
    rw [Ty.read_enum, M.bind_err e1]

/-- **C39.** The same for a field (after its own seek). -/
theorem C39_field_needs_its_magic (native : Endian) (a : Attrs) (rd : Env → M Reader Val) (env : Env)
    (r0 r : Reader) (h0 : seekRead a.seek env r0 = (.ok (), r)) (hf : r.Healthy) (hw : r.WF) :
    MagicThen a.magic (a.read native rd env r0)
      ({ a with seek := none, magic := [] }.read native rd env) r := by
  obtain ⟨h1, h2⟩ := magicRead_exact native a.magic hf hw
  refine ⟨fun h => ?_, fun h => ?_⟩
  · obtain ⟨r', e, s⟩ := h1 h
    refine ⟨r', s, ?_⟩
    simp only [Attrs.read]
    rw [M.bind_ok h0, M.bind_ok e]
    simp only [seekRead, magicRead, M.pure_bind]
    rfl
  · obtain ⟨e, r', e1, s⟩ := h2 h
    refine ⟨e, r', ?_, s⟩
    simp only [Attrs.read]
    rw [M.bind_ok h0, M.bind_err e1]

theorem magicWrite_then (native : Endian) (magic : List Byte) (hp : o = .msb0 ∨ p % 8 = 0)
    (g : M Writer Unit) :
    WritesThen o p (orderBits o magic) (magicWrite native magic >>= fun _ => g) g := by
  intro w hw
  obtain ⟨w', e, _⟩ := magicWrite_writes native magic (fun h => hp.resolve_left (by simp [h])) w hw
  have h := (magicWrite_writes native magic (fun h => hp.resolve_left (by simp [h]))).run hw e
  exact ⟨w', h.1, h.2, by rw [M.bind_ok e]⟩

/-- **C39.** Writing a struct emits its magic before anything else, whatever the value. -/
theorem C39_struct_writes_its_magic_partial (m : Machine) (args : Env → List Val) (magic : List Byte)
    (fs : Fields) (env : Env) (v : Val) (hp : o = .msb0 ∨ p % 8 = 0) :
    WritesThen o p (orderBits o magic) ((Ty.struct args none magic fs).write m env v)
      ((Ty.struct args none [] fs).write m env v) := by
  have := magicWrite_then (p := p) m.native magic hp (fs.write m { ctx := args env } v v)
  simpa only [Ty.write, seekWrite, magicWrite, Coll.writeAll, M.pure_bind] using this

/-- **C39.** The same for an enum. -/
theorem C39_enum_writes_its_magic_partial (m : Machine) (args : Env → List Val) (magic : List Byte)
    (id : IdSrc) (store : Nat → Env → Val → M Writer Unit) (vs : Variants) (env : Env) (i : Nat) (v : Val)
    (hp : o = .msb0 ∨ p % 8 = 0) :
    WritesThen o p (orderBits o magic) ((Ty.enum args magic id store vs).write m env (.variant i v))
      ((Ty.enum args [] id store vs).write m env (.variant i v)) := by
  have := magicWrite_then (p := p) m.native magic hp (vs.writeAt m { ctx := args env } id (store i) i v)
  simpa only [Ty.write, magicWrite, Coll.writeAll, M.pure_bind] using this

/-- **C39.** The same for a field. -/
theorem C39_field_writes_its_magic_partial (native : Endian) (a : Attrs) (hs : a.seek = none)
    (wr : Env → Val → M Writer Unit) (env : Env) (v : Val) (hp : o = .msb0 ∨ p % 8 = 0) :
    WritesThen o p (orderBits o a.magic) (a.write native wr env v)
      ({ a with magic := [] }.write native wr env v) := by
  have := magicWrite_then (p := p) native a.magic hp ({ a with magic := [] }.write native wr env v)
  simp only [Attrs.write, hs, seekWrite, magicWrite, Coll.writeAll, M.pure_bind] at this ⊢
  exact this

/-- An input on which the hypotheses hold: a reader four bits into a byte. -/
example : MagicThen [0xab] ((Ty.struct (fun _ => []) none [0xab] .nil).read mach {}
      { inner := { data := [0xab, 0xb0], pos := 1 }, leftover := some (.bits [true, false, true, false]), bitsRead := 4 })
    ((Ty.struct (fun _ => []) none [] .nil).read mach {})
      { inner := { data := [0xab, 0xb0], pos := 1 }, leftover := some (.bits [true, false, true, false]), bitsRead := 4 } :=
  C39_struct_needs_its_magic mach _ none [0xab] .nil {} _ _ rfl rfl
    (by intro l h; simp at h; subst h; decide)

example : bytesBits [0xab] <+: Reader.unread .msb0
    { inner := { data := [0xab, 0xb0], pos := 1 }, leftover := some (.bits [true, false, true, false]), bitsRead := 4 } := by
  decide

/-- The three outcomes. -/
example : fromBytes (packet.read mach {}) [0xab, 0x30, 0, 0, 9] 0 = .ok (([], 0), packetValue [] .none) ∧
    fromBytes (packet.read mach {}) [0xac, 0x30, 0, 0, 9] 0 = .err .parse ∧
    fromBytes (packet.read mach {}) [] 0 = .err (.incomplete 8) := by
  refine ⟨?_, ?_, ?_⟩ <;> decide +kernel

/-- A struct of two Lsb0 fields of four bits, the second one with a magic. -/
def lsbMagic : Ty := .struct (fun _ => []) none [] <|
  .cons {} (.prim (some 4) fun _ => uintCodec .little 1 (.bitsOrder 4 .lsb0)) <|
  .cons { magic := [0xab] } (.prim (some 4) fun _ => uintCodec .little 1 (.bitsOrder 4 .lsb0)) .nil

/-- In the middle of a byte of Lsb0 fields the magic is written as Msb0 bits, before the bits pending,
and is not found by the reader. -/
theorem C39_magic_between_lsb0_fields_is_not_read_back :
    toBytes (lsbMagic.write mach {} (.ofList [.num 3, .num 5])) = .ok [0xab, 0x35] ∧
    fromBytes (lsbMagic.read mach {}) [0xab, 0x35] 0 = .err .parse := by
  constructor <;> decide +kernel

/-! ## C40 -/

/-- **C40.** Whatever is read, at any depth of the definition, all assertions hold in it. -/
theorem C40_read_values_satisfy_assertions (m : Machine) (t : Ty) (env : Env) (r r' : Reader) (v : Val)
    (h : t.read m env r = (.ok v, r')) : t.Asserted env v :=
  (Ty.read_asserted m t env r v r' trivial h).2

/-- **C40.** Whatever is written successfully satisfies all assertions. -/
theorem C40_written_values_satisfy_assertions (m : Machine) (t : Ty) (env : Env) (w w' : Writer)
    (v : Val) (h : t.write m env v w = (.ok (), w')) : t.AssertedW env v :=
  (Ty.write_asserted m t env v w () w' trivial h).2

/-- **C40.** A field whose value violates its assertions makes the read fail with `Assertion`, in the
state after that value: nothing more is read. Otherwise its assertions change nothing. -/
theorem C40_read_fails_at_the_field (m : Machine) (a : Attrs) (t : Ty) (tl : Fields) (env : Env)
    (r r' : Reader) (x : Val) (h : a.unchecked.read m.native (t.read m) env r = (.ok x, r')) :
    ∃ off, (a.usesOffset = false → off = 0) ∧
      (¬ a.Holds (env.at off) x → (Fields.cons a t tl).read m env r = (.err .assertion, r')) ∧
      (a.Holds (env.at off) x → a.padAfter = none →
        (Fields.cons a t tl).read m env r =
          (tl.read m (env.push x) >>= fun vs => pure (.cons x vs)) r') := by
  simp only [Attrs.unchecked, Attrs.read] at h
  obtain ⟨_, r1, e1, h⟩ := M.bind_eq_ok h
  obtain ⟨_, r2, e2, h⟩ := M.bind_eq_ok h
  obtain ⟨_, r3, e3, h⟩ := M.bind_eq_ok h
  rw [M.get_bind_run] at h
  obtain ⟨y, r4, e4, h⟩ := M.bind_eq_ok h
  refine ⟨if a.usesOffset then r3.bitsRead else 0, fun h => by simp [h], ?_⟩
  simp only [Attrs.check, padRead, Bool.true_eq_false, if_false, M.pure_bind] at h
  simp at h
  obtain ⟨rfl, rfl⟩ := h
  have hv : a.value (t.read m) (env.at (if a.usesOffset = true then r3.bitsRead else 0)) r3 =
    (.ok y, r4) := e4
  have key : a.read m.native (t.read m) env r = (a.check (env.at (if a.usesOffset = true then
      r3.bitsRead else 0)) y >>= fun _ => padRead a.padOrder a.padAfter ((env.at (if a.usesOffset = true
      then r3.bitsRead else 0)).push y) >>= fun _ => pure y) r4 := by
    simp only [Attrs.read]
    rw [M.bind_ok e1, M.bind_ok e2, M.bind_ok e3, M.get_bind_run, M.bind_ok hv]
  refine ⟨fun hn => ?_, fun hh hp => ?_⟩
  · rw [M.bind_err ((check_iff r4).2 hn)] at key
    simp only [Fields.read]
    rw [M.bind_err key]
  · rw [M.bind_ok ((check_iff r4).1 hh), hp] at key
    simp only [Fields.read]
    rw [M.bind_ok key]

/-- **C40.** A value that violates its assertions makes the write fail with `Assertion` when as much
has been written as if the field were skipped: neither the value nor anything after it is written. -/
theorem C40_write_fails_at_the_field (m : Machine) (a : Attrs) (t : Ty) (tl : Fields) (env : Env)
    (w w' : Writer) (all x xs : Val)
    (h : { a.unchecked with skip := some .all, cond := none }.write m.native (t.write m) env x w =
      (.ok (), w')) :
    ∃ off, (a.usesOffset = false → off = 0) ∧
      (¬ a.Holds (env.at off) x →
        (Fields.cons a t tl).write m env all (.cons x xs) w = (.err .assertion, w')) ∧
      (a.Holds (env.at off) x → a.padAfter = none →
        (Fields.cons a t tl).write m env all (.cons x xs) w =
          (a.put (t.write m) (env.at off) x >>= fun _ => tl.write m (env.push x) all xs) w') := by
  simp only [Attrs.unchecked, Attrs.write] at h
  obtain ⟨_, r1, e1, h⟩ := M.bind_eq_ok h
  obtain ⟨_, r2, e2, h⟩ := M.bind_eq_ok h
  obtain ⟨_, r3, e3, h⟩ := M.bind_eq_ok h
  rw [M.get_bind_run] at h
  simp only [Attrs.check, padWrite, Bool.true_eq_false, if_false, M.pure_bind, Attrs.put,
    Attrs.isWritten, Bool.false_eq_true] at h
  simp at h
  subst h
  have key : ∀ y, a.write m.native (t.write m) env y w = (a.check (env.at (if a.usesOffset = true then
      r3.bitsWritten else 0)) y >>= fun _ => a.put (t.write m) (env.at (if a.usesOffset = true then
      r3.bitsWritten else 0)) y >>= fun _ => padWrite a.padOrder a.padAfter ((env.at (if a.usesOffset = true
      then r3.bitsWritten else 0)).push y)) r3 := by
    intro y
    simp only [Attrs.write]
    rw [M.bind_ok e1, M.bind_ok e2, M.bind_ok e3, M.get_bind_run]
  have key := key x
  refine ⟨if a.usesOffset then r3.bitsWritten else 0, fun h => by simp [h], fun hn => ?_, fun hh hp => ?_⟩
  · rw [M.bind_err ((check_iff r3).2 hn)] at key
    simp only [Fields.write]
    rw [M.bind_err key]
  · rw [M.bind_ok ((check_iff r3).1 hh), hp] at key
    simp only [Fields.write]
    generalize (env.at (if a.usesOffset = true then r3.bitsWritten else 0)) = env' at *
    rw [M.bind_def, key]
    simp only [padWrite, M.bind_def]
    cases a.put (t.write m) env' x r3 with
    | mk q s => cases q <;> rfl

/-- A field that must be even, followed by one that must equal it:
```
struct Checked {
    #[deku(assert = "*a % 2 == 0")] a: u8,
    #[deku(assert_eq = "*a")] b: u8,
    c: u8,
}
``` -/
def checked : Ty := .struct (fun _ => []) none [] <|
  .cons { assert := fun _ v => match v with | .num n => n % 2 == 0 | _ => false } u8T <|
  .cons { assertEq := fun env => some (.num (var 0 env)) } u8T <| .cons {} u8T .nil

example : fromBytes (checked.read mach {}) [4, 4, 7] 0 = .ok (([], 0), .ofList [.num 4, .num 4, .num 7]) ∧
    fromBytes (checked.read mach {}) [3, 3, 7] 0 = .err .assertion ∧
    fromBytes (checked.read mach {}) [4, 5, 7] 0 = .err .assertion ∧
    toBytes (checked.write mach {} (.ofList [.num 4, .num 4, .num 7])) = .ok [4, 4, 7] ∧
    toBytes (checked.write mach {} (.ofList [.num 4, .num 5, .num 7])) = .err .assertion := by
  refine ⟨?_, ?_, ?_, ?_, ?_⟩ <;> decide +kernel

/-- The failing read stops after the second field, the failing write after the first one. -/
example : (checked.read mach {} (Reader.new { data := [4, 5, 7] })).2.bitsRead = 16 ∧
    (checked.write mach {} (.ofList [.num 4, .num 5, .num 7]) (Writer.new {})).2.bitsWritten = 8 := by
  constructor <;> decide +kernel

/-- What `Asserted` says of the example. -/
example (x y z : Int) (h : checked.Asserted {} (.ofList [.num x, .num y, .num z])) : x % 2 = 0 ∧ y = x := by
  simp only [checked, Ty.Asserted, Fields.Asserted, Val.ofList] at h
  obtain ⟨_, _, _, e1, h1, _, _, _, _, e2, h2, _⟩ := h
  simp at e1
  obtain ⟨rfl, rfl⟩ := e1
  simp at e2
  obtain ⟨rfl, rfl⟩ := e2
  refine ⟨by simpa using h1.1, ?_⟩
  have := h2.2 _ rfl
  simpa [var, Env.push, Env.at] using this

/-! ## C41 -/

theorem PadIs.size {σ : Type} {f : Env → Int} {env : Env} {n : Nat} (h : PadIs (some f) env n) (s : σ) :
    padSize (f env) s = (.ok n, s) := by
  rcases h with ⟨h, _⟩ | ⟨g, h, hn, hlt⟩
  · simp at h
  · simp at h
    subst h
    rw [hn, padSize, if_pos ⟨by omega, by exact_mod_cast hlt⟩]
    rfl

theorem padRead_reads {order : Option Order} {pad : Option (Env → Int)} {env : Env} {n : Nat}
    (h : PadIs pad env n) (ho : order.getD .msb0 = o) {junk : List Bool} (hj : junk.length = n) :
    Reads o p (padRead order pad env) junk () := by
  cases pad with
  | none =>
    rcases h with ⟨_, h⟩ | ⟨f, h, _⟩
    · rw [List.eq_nil_of_length_eq_zero (hj.trans h)]
      exact Reads.pure o p ()
    · simp at h
  | some f =>
    intro r tl hr hu
    simp only [padRead]
    rw [M.bind_ok (h.size r), ho, ← hj]
    exact skipBits_reads p junk r tl hr hu

theorem padWrite_writes {order : Option Order} {pad : Option (Env → Int)} {env : Env} {n : Nat}
    (h : PadIs pad env n) (ho : order.getD .msb0 = o) :
    Writes o p (padWrite order pad env) (List.replicate n false) := by
  cases pad with
  | none =>
    rcases h with ⟨_, h⟩ | ⟨f, h, _⟩
    · subst h; exact Writes.pure o p
    · simp at h
  | some f =>
    intro w hw
    simp only [padWrite]
    rw [M.bind_ok (h.size w), ho]
    exact padLoop_writes (Nat.le_refl _) p w hw

/-- **C41.** A field with `nb` bits of padding before and `na` bits after it reads the same value as
the field alone, from any input with the field's bits in between, whatever the padding contains: it
consumes exactly the magic, `nb` bits, the field's bits and `na` bits. -/
theorem C41_padding_is_ignored_partial (native : Endian) (a : Attrs) (rd : Env → M Reader Val) (env : Env)
    (x : Val) (nb na : Nat) (bits before after : List Bool) (hs : a.seek = none)
    (ho : a.padOrder.getD .msb0 = o) (hm : a.magic = [] ∨ o = .msb0 ∨ p % 8 = 0)
    (hb : PadIs a.padBefore env nb) (ha : ∀ off, PadIs a.padAfter ((env.at off).push x) na)
    (hbefore : before.length = nb) (hafter : after.length = na)
    (h : Reads o (p + 8 * a.magic.length + nb) (a.bare.read native rd env) bits x) :
    Reads o p (a.read native rd env) (orderBits o a.magic ++ (before ++ (bits ++ after))) x := by
  simp only [Attrs.read, hs, seekRead, M.pure_bind]
  refine Reads.bind (a := ()) ?_ (Reads.bind (a := ()) (padRead_reads hb ho hbefore) ?_)
  · rcases hm with hm | hm
    · rw [hm, show orderBits o ([] : List Byte) = [] by cases o <;> rfl]
      exact Reads.pure o p ()
    · exact magicRead_reads native a.magic fun h => hm.resolve_left (by simp [h])
  · rw [length_orderBits, hbefore]
    intro r tl hr hu
    obtain ⟨r1, e1, s1⟩ := h r (after ++ tl) hr (by rw [hu, List.append_assoc])
    simp only [Attrs.bare, Attrs.read, hs, seekRead, magicRead, padRead, M.pure_bind,
      M.get_bind_run] at e1
    rw [M.get_bind_run]
    have hv : (a.value rd (env.at (if a.usesOffset = true then r.bitsRead else 0)) >>= fun v =>
      a.check (env.at (if a.usesOffset = true then r.bitsRead else 0)) v >>= fun _ => pure v) r =
        (.ok x, r1) := e1
    obtain ⟨y, r2, e2, hv⟩ := M.bind_eq_ok hv
    obtain ⟨_, r3, e3, hv⟩ := M.bind_eq_ok hv
    simp at hv
    obtain ⟨rfl, rfl⟩ := hv
    rw [M.bind_ok e2, M.bind_ok e3]
    obtain ⟨r4, e4, s4⟩ := padRead_reads (o := o) (ha _) ho hafter r3 tl (hr.step s1)
      (by rw [s1.unread, hu, List.append_assoc, List.drop_left])
    exact ⟨r4, by rw [M.bind_ok e4]; rfl, by rw [List.length_append]; exact s1.trans s4⟩

/-- **C41.** Such a field writes exactly `nb` zeros before and `na` zeros after its own bits. -/
theorem C41_padding_is_zero_partial (native : Endian) (a : Attrs) (wr : Env → Val → M Writer Unit) (env : Env)
    (x : Val) (nb na : Nat) (bits : List Bool) (hs : a.seek = none)
    (ho : a.padOrder.getD .msb0 = o) (hm : a.magic = [] ∨ o = .msb0 ∨ p % 8 = 0)
    (hb : PadIs a.padBefore env nb) (ha : ∀ off, PadIs a.padAfter ((env.at off).push x) na)
    (h : Writes o (p + 8 * a.magic.length + nb) (a.bare.write native wr env x) bits) :
    Writes o p (a.write native wr env x)
      (orderBits o a.magic ++ (List.replicate nb false ++ (bits ++ List.replicate na false))) := by
  simp only [Attrs.write, hs, seekWrite, M.pure_bind]
  refine Writes.bind ?_ (Writes.bind (padWrite_writes hb ho) ?_)
  · rcases hm with hm | hm
    · rw [hm, show orderBits o ([] : List Byte) = [] by cases o <;> rfl]
      exact Writes.pure o p
    · exact magicWrite_writes native a.magic fun h => hm.resolve_left (by simp [h])
  · rw [length_orderBits, List.length_replicate]
    intro w hw
    obtain ⟨w1, e1, s1, d1⟩ := h w hw
    simp only [Attrs.bare, Attrs.write, hs, seekWrite, magicWrite, Coll.writeAll, padWrite,
      M.pure_bind, M.get_bind_run] at e1
    rw [M.get_bind_run]
    have hv : (a.check (env.at (if a.usesOffset = true then w.bitsWritten else 0)) x >>= fun _ =>
      a.put wr (env.at (if a.usesOffset = true then w.bitsWritten else 0)) x >>= fun _ => pure ()) w =
        (.ok (), w1) := e1
    obtain ⟨_, w2, e2, hv⟩ := M.bind_eq_ok hv
    obtain ⟨_, w3, e3, hv⟩ := M.bind_eq_ok hv
    simp at hv
    subst hv
    rw [M.bind_ok e2, M.bind_ok e3]
    obtain ⟨w4, e4, s4, d4⟩ := padWrite_writes (o := o) (ha _) ho w3 (hw.wrote s1 d1)
    exact ⟨w4, e4, s1.trans s4, d4⟩

/-- **C41.** A negative size is refused, on both sides, before anything is read or written. -/
theorem C41_negative_padding_is_refused (native : Endian) (a : Attrs) (env : Env) (f : Env → Int)
    (hs : a.seek = none) (hm : a.magic = []) (hf : a.padBefore = some f) (hn : f env < 0)
    (rd : Env → M Reader Val) (wr : Env → Val → M Writer Unit) (x : Val) :
    Refuses (a.read native rd env) .invalidParam ∧ Refuses (a.write native wr env x) .invalidParam := by
  have h : ∀ {σ : Type} (s : σ), padSize (f env) s = (.err .invalidParam, s) := by
    intro σ s
    rw [padSize, if_neg (by omega)]
    rfl
  constructor
  · intro r
    simp only [Attrs.read, hs, hm, hf, seekRead, magicRead, padRead, M.pure_bind]
    rw [M.bind_err (by rw [M.bind_err (h r)])]
  · intro w
    simp only [Attrs.write, hs, hm, hf, seekWrite, magicWrite, Coll.writeAll, padWrite, M.pure_bind]
    rw [M.bind_err (by rw [M.bind_err (h w)])]

/-- The last field of the example packet: 12 bits of padding, here three bits into a byte. -/
example (junk : List Bool) (hj : junk.length = 12) :
    Reads .msb0 3 (Attrs.read { padBefore := some fun _ => 12 } .little (u4T.read mach) {})
      (junk ++ bitsBE 4 9) (.num 9) := by
  have h := C41_padding_is_ignored_partial (o := .msb0) (p := 3) .little { padBefore := some fun _ => 12 }
    (u4T.read mach) {} (.num 9) 12 0 (bitsBE 4 9) junk [] rfl rfl (.inl rfl)
    (.inr ⟨_, rfl, rfl, by decide⟩) (fun _ => .inl ⟨rfl, rfl⟩) hj rfl ?_
  · simpa [orderBits] using h
  · have := (round_trip (native := .little) (e := .little) (W := 1) (n := 4) (o := .msb0) (ctx := .bits 4)
      (v := 9) (p := 15) (by decide) rfl (by decide) (by decide) (by decide) (by simp [Prim.Compatible, IntCtx.shape, Prim.Sound])).2
    rw [show fieldBits .little .msb0 4 9 = bitsBE 4 9 by decide +kernel] at this
    intro r tl hr hu
    obtain ⟨r', e, st⟩ := this r tl hr hu
    refine ⟨r', ?_, st⟩
    simp only [Attrs.bare, Attrs.read, Attrs.value, Attrs.isRead, seekRead, magicRead, padRead,
      M.pure_bind, M.get_bind_run, u4T, Ty.read, uintCodec, if_true, M.bind_assoc_run]
    rw [M.bind_ok e]
    rfl

/-- An Lsb0 field followed by two bits of Msb0 padding in the same byte. -/
def lsbPad : Ty := .struct (fun _ => []) none [] <|
  .cons {} (.prim (some 4) fun _ => uintCodec .little 1 (.bitsOrder 4 .lsb0)) <|
  .cons { padBefore := some fun _ => 2 } (.prim (some 2) fun _ => uintCodec .little 1 (.bitsOrder 2 .lsb0)) .nil

/-- Padding in the other bit order within a byte moves the field before it. -/
theorem C41_padding_in_another_order_moves_bits :
    toBytes (lsbPad.write mach {} (.ofList [.num 3, .num 1])) = .ok [0x0d] ∧
    fromBytes (lsbPad.read mach {}) [0x0d] 0 = .ok (([], 0), .ofList [.num 13, .num 0]) := by
  constructor <;> decide +kernel

end Deku
