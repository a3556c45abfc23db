import Verif.Lemmas.ParseAvoids
import Verif.Props.Parse
import Verif.Props.Truncate

/-!
# Properties of the errors that are reported: C79

Of an input that is no value, `Spec/Parse.lean` tells from the attributes alone what is wrong with it first. The code
reports exactly this.
-/

namespace Deku

/-- What is reported has one reason. -/
theorem Why.Reported.unique {α : Type} {x : Res α} {w w' : Why} (h : w.Reported x) (h' : w'.Reported x) : w = w' := by
  cases w <;> cases w' <;> simp only [Why.Reported] at h h' <;>
    first | rfl | contradiction | (obtain ⟨n, rfl⟩ := h; cases h'; done) | (obtain ⟨n, rfl⟩ := h'; cases h; done) | (subst h; cases h')

/-! ## C79 -/

/-- **C79.** If the source says why the input is no value, this is what `from_bytes` reports. -/
theorem C79_failures_are_reported_by_their_reason (m : Machine) (t : STy) (d : Def) (o : Order) (hz : t.sized [] = true)
    (hd : t.compile = some d) (data : List Byte) (off : Nat) (w : Why) (hw : w ≠ .beyond)
    (hv : t.parseBytes o m data off = .no w) : w.Reported (fromBytes ((d.toTy m).read m {}) data off) := by
  have h := parseBytes_agrees m t d o hz hd data off
  rw [hv] at h
  have h := h.resolve_left fun h => hw h.1
  unfold fromBytes
  rcases hr : readFrom ((d.toTy m).read m {}) off (Reader.new { data := data }) with ⟨x, r'⟩
  rw [hr] at h
  cases w <;> simp only [Why.Reported] at h ⊢
  · obtain ⟨n, rfl⟩ := h; exact ⟨n, rfl⟩
  all_goals subst h; rfl

/-- **C79.** `from_reader` on the same bytes, and `TryFrom`, report the same. -/
theorem C79_entry_points_report_the_same (m : Machine) (t : STy) (d : Def) (o : Order) (hz : t.sized [] = true)
    (hd : t.compile = some d) (data : List Byte) (w : Why) (hw : w ≠ .beyond) :
    (∀ off, t.parseBytes o m data off = .no w → w.Reported (fromReader ((d.toTy m).read m {}) { data := data } off)) ∧
    (t.parseBytes o m data 0 = .no w → w.Reported (tryFrom ((d.toTy m).read m {}) data)) := by
  have key : ∀ off, t.parseBytes o m data off = .no w →
      w.Reported (fromReader ((d.toTy m).read m {}) { data := data } off) := by
    intro off hv
    have h := parseBytes_agrees m t d o hz hd data off
    rw [hv] at h
    have h := h.resolve_left fun h => hw h.1
    unfold fromReader
    rcases hr : readFrom ((d.toTy m).read m {}) off (Reader.new { data := data }) with ⟨x, r'⟩
    rw [hr] at h
    cases w <;> simp only [Why.Reported] at h ⊢
    · obtain ⟨n, rfl⟩ := h; exact ⟨n, rfl⟩
    all_goals subst h; rfl
  refine ⟨key, fun hv => ?_⟩
  have h := key 0 hv
  unfold tryFrom
  cases w <;> simp only [Why.Reported] at h ⊢
  · obtain ⟨n, h⟩ := h; exact ⟨n, by rw [h]⟩
  all_goals rw [h]

/-- **C79.** For sources of which everything is said (C76), whatever is reported has a reason: this one, or the input
ends in whole bytes of a padding. -/
theorem C79_reports_have_a_reason (m : Machine) (t : STy) (d : Def) (o : Order) (hz : t.sized [] = true)
    (hd : t.compile = some d) (off : Nat) (hc : t.clear o off = true) (data : List Byte)
    (hf : ∀ x, fromBytes ((d.toTy m).read m {}) data off ≠ .ok x) :
    ∃ w, t.parseBytes o m data off = .no w ∧ (w = .beyond ∨ w.Reported (fromBytes ((d.toTy m).read m {}) data off)) := by
  cases hv : t.parseBytes o m data off with
  | unclear => exact absurd hv (C76_clear_sources_decide_every_input m t o off hc data)
  | ok v k left => exact absurd (C76_inputs_are_parsed_as_described m t d o hz hd data off v k left hv).2 (hf _)
  | no w =>
    refine ⟨w, rfl, ?_⟩
    by_cases hw : w = .beyond
    · exact .inl hw
    · exact .inr (C79_failures_are_reported_by_their_reason m t d o hz hd data off w hw hv)

/-- **C79.** Without paddings the reports are exactly the reasons. -/
theorem C79_sources_without_padding_report_exactly (m : Machine) (t : STy) (d : Def) (o : Order) (hz : t.sized [] = true)
    (hd : t.compile = some d) (hc : t.clear o 0 = true) (hp : t.padless = true) (data : List Byte) (w : Why) :
    w.Reported (fromBytes ((d.toTy m).read m {}) data 0) ↔ t.parseBytes o m data 0 = .no w := by
  have hb : t.parseBytes o m data 0 ≠ .no .beyond := by
    unfold STy.parseBytes
    rw [if_pos rfl]
    exact STy.parse_avoids (.inl rfl) m t [] [] {} hp _ _
  constructor
  · intro h
    obtain ⟨w', h1, h2⟩ := C79_reports_have_a_reason m t d o hz hd 0 hc data fun x e => h.not_ok x e
    rcases h2 with rfl | h2
    · exact absurd h1 hb
    · rw [h1, h.unique h2]
  · intro h
    exact C79_failures_are_reported_by_their_reason m t d o hz hd data 0 w (fun e => hb (e ▸ h)) h

/-- **C79.** Both bit orders have the same reason, where both say something. -/
theorem C79_bit_orders_agree (m : Machine) (t : STy) (d : Def) (hz : t.sized [] = true) (hd : t.compile = some d)
    (data : List Byte) (off : Nat) (o o' : Order) (w : Why) (hw : w ≠ .beyond) (hv : t.parseBytes o m data off = .no w)
    (hc : t.parseBytes o' m data off ≠ .unclear) (hb : t.parseBytes o' m data off ≠ .no .beyond) :
    t.parseBytes o' m data off = .no w := by
  have h := C79_failures_are_reported_by_their_reason m t d o hz hd data off w hw hv
  cases hv' : t.parseBytes o' m data off with
  | unclear => exact absurd hv' hc
  | ok v k left =>
    exact absurd (C76_inputs_are_parsed_as_described m t d o' hz hd data off v k left hv').2 (h.not_ok _)
  | no w' =>
    rw [h.unique (C79_failures_are_reported_by_their_reason m t d o' hz hd data off w' (fun e => hb (e ▸ hv')) hv')]

/-- **C79.** If the input ends in whole bytes of a padding, `Incomplete` is reported, or what is wrong is wrong with every
longer input as well (for the definitions of C56). -/
theorem C79_ends_in_padding (m : Machine) (t : STy) (d : Def) (o : Order) (hz : t.sized [] = true)
    (hd : t.compile = some d) (data more : List Byte) (off : Nat) (hv : t.parseBytes o m data off = .no .beyond)
    {inside : Bool} (ht : (d.toTy m).Cuttable inside) (ho : inside = true → off < 8)
    (hs : inside = true → (data ++ more).length < 2 ^ 61) :
    (∃ n, fromBytes ((d.toTy m).read m {}) data off = .err (.incomplete n)) ∨
    (∃ e, fromBytes ((d.toTy m).read m {}) data off = .err e ∧ fromBytes ((d.toTy m).read m {}) (data ++ more) off = .err e) ∨
    fromBytes ((d.toTy m).read m {}) data off = .panic ∧ fromBytes ((d.toTy m).read m {}) (data ++ more) off = .panic := by
  rcases C56_cut_input_partial ht {} data more ho hs with h | ⟨rest, bit, v, h, _⟩ | h | h
  · exact .inl h
  · exact absurd h (C76_other_inputs_are_rejected m t d o hz hd data off _ hv _ v)
  · exact .inr (.inl h)
  · exact .inr (.inr h)

/-! ### Examples -/

open Example SourceExample

/-- `#[deku(magic = b"\xab")] struct Versioned { n: i8, flag: bool, #[deku(assert_eq = "7")] version: u8,
#[deku(count = "n")] list: Vec<u16>, #[deku(endian = "big")] len: u16, #[deku(count = "len")] more: Vec<u16> }` -/
def SourceExample.versioned : STy :=
  .struct { magic := [0xab] }
    (.cons {} (.base (.sint 1)) (.cons {} (.base .bool) (.cons { assertEq := some (.lit 7) } u8
    (.cons { count := some (.field 2) } (.vec false u16) (.cons { endian := some (.lit .big) } u16
    (.cons { count := some (.field 0) } (.vec false u16) .nil))))))

theorem SourceExample.versioned_checked :
    versioned.sized [] = true ∧ versioned.compile.isSome = true ∧ versioned.clear .msb0 0 = true ∧ versioned.padless = true := by
  decide +kernel

/-- What is wrong with these. -/
theorem SourceExample.versioned_verdicts :
    versioned.parseBytes .msb0 mach [0xab, 1, 0, 7, 5, 0, 0] 0 = .no .short ∧
    versioned.parseBytes .msb0 mach [0xac] 0 = .no .parse ∧
    versioned.parseBytes .msb0 mach [0xab, 1, 2, 8] 0 = .no .parse ∧
    versioned.parseBytes .msb0 mach [0xab, 255, 1, 7, 5, 6] 0 = .no .parse ∧
    versioned.parseBytes .msb0 mach [0xab, 255, 1, 8] 0 = .no .assertion ∧
    versioned.parseBytes .msb0 mach [0xab, 0, 0, 7, 3, 0xe9] 0 = .no .panic ∧
    versioned.parseBytes .msb0 mach [0xab, 0, 0, 7, 0, 1, 2, 3] 0 = .ok (.ofList [.num 0, .num 0, .num 7, .nil, .num 1,
      .ofList [.num 0x0302]]) false [] := by
  refine ⟨?_, ?_, ?_, ?_, ?_, ?_, ?_⟩ <;> decide +kernel

/-- `from_bytes` reports `Assertion` for a `Versioned`, exactly if the version is what is wrong first. -/
example (d : Def) (hd : versioned.compile = some d) (data : List Byte) :
    fromBytes ((d.toTy mach).read mach {}) data 0 = .err .assertion ↔ versioned.parseBytes .msb0 mach data 0 = .no .assertion :=
  C79_sources_without_padding_report_exactly mach versioned d .msb0 versioned_checked.1 hd versioned_checked.2.2.1
    versioned_checked.2.2.2 data .assertion

example (d : Def) (hd : versioned.compile = some d) :
    (∃ n, fromBytes ((d.toTy mach).read mach {}) [0xab, 1, 0, 7, 5, 0, 0] 0 = .err (.incomplete n)) ∧
    fromBytes ((d.toTy mach).read mach {}) [0xab, 255, 1, 8] 0 = .err .assertion ∧
    tryFrom ((d.toTy mach).read mach {}) [0xab, 255, 1, 7, 5, 6] = .err .parse ∧
    fromBytes ((d.toTy mach).read mach {}) [0xab, 0, 0, 7, 3, 0xe9] 0 = .panic := by
  obtain ⟨h1, _⟩ := versioned_checked
  obtain ⟨v1, v2, v3, v4, v5, v6, _⟩ := versioned_verdicts
  exact ⟨C79_failures_are_reported_by_their_reason mach versioned d .msb0 h1 hd _ 0 .short nofun v1,
    C79_failures_are_reported_by_their_reason mach versioned d .msb0 h1 hd _ 0 .assertion nofun v5,
    (C79_entry_points_report_the_same mach versioned d .msb0 h1 hd _ .parse nofun).2 v4,
    C79_failures_are_reported_by_their_reason mach versioned d .msb0 h1 hd _ 0 .panic nofun v6⟩

/-- The messages of C69 in the other bit order. -/
example (d : Def) (hd : message.compile = some d) : message.parseBytes .lsb0 mach
    [2, 0, 80, 0, 1, 2, 1, 2, 3, 0xff, 0xfe, 0x12, 0x34, 8] 0 = .no .short :=
  C79_bit_orders_agree mach message d clear_sources.1 hd _ 0 .msb0 .lsb0 .short nofun verdicts.2.1
    (C76_clear_sources_decide_every_input mach message .lsb0 0 clear_sources.2.2.1 _) (by decide +kernel)

/-- `struct Padded { #[deku(pad_bytes_after = "2")] a: u8, #[deku(pad_bits_before = "12", bits = 4)] b: u8 }` -/
def SourceExample.padded : STy :=
  .struct {} (.cons { padBytesAfter := some 2 } u8 (.cons { padBitsBefore := some 12, bits := some 4 } u8 .nil))

/-- Cut in whole bytes of padding the input is `beyond`, cut in the bits of one it is `short`, and an `Incomplete` is
reported in both. -/
theorem SourceExample.padded_verdicts :
    padded.sized [] = true ∧ padded.compile.isSome = true ∧ padded.clear .msb0 0 = true ∧
    padded.parseBytes .msb0 mach [1, 0] 0 = .no .beyond ∧ padded.parseBytes .msb0 mach [1, 0, 0, 5] 0 = .no .short ∧
    padded.parseBytes .msb0 mach [1, 0, 0, 5, 6] 0 = .ok (.ofList [.num 1, .num 6]) false [] := by decide +kernel

theorem SourceExample.padded_cuttable (d : Def) (hd : padded.compile = some d) : (d.toTy mach).Cuttable false := by
  cases hd
  exact ⟨rfl, ⟨rfl, nofun⟩, fun _ => uintCodec_notices .little 1 _, ⟨rfl, nofun⟩, fun _ => uintCodec_notices .little 1 _, trivial⟩

example (d : Def) (hd : padded.compile = some d) :
    (∃ n, fromBytes ((d.toTy mach).read mach {}) [1, 0] 0 = .err (.incomplete n)) ∧
    (∃ n, fromBytes ((d.toTy mach).read mach {}) [1, 0, 0, 5] 0 = .err (.incomplete n)) := by
  obtain ⟨h1, h2, h3, v1, v2, v3⟩ := padded_verdicts
  have hok := (C76_inputs_are_parsed_as_described mach padded d .msb0 h1 hd _ 0 _ _ _ v3).2
  refine ⟨?_, C79_failures_are_reported_by_their_reason mach padded d .msb0 h1 hd _ 0 .short nofun v2⟩
  rcases C79_ends_in_padding mach padded d .msb0 h1 hd [1, 0] [0, 5, 6] 0 v1 (padded_cuttable d hd) nofun nofun with h | ⟨e, _, h⟩ | h
  · exact h
  · rw [show [1, 0] ++ [0, 5, 6] = ([1, 0, 0, 5, 6] : List Byte) from rfl, hok] at h; cases h
  · rw [show [1, 0] ++ [0, 5, 6] = ([1, 0, 0, 5, 6] : List Byte) from rfl, hok] at h; cases h.2

/-- **C79** says nothing of the report for inputs that end in whole bytes of a padding: if a `Vec<u8>` with a `count`
follows, there is no report (C56). -/
theorem C79_ends_in_padding_and_panics :
    (let t : STy := .struct {} (.cons { padBytesBefore := some 2, count := some (.lit 1) } (.vec false u8) .nil)
     t.sized [] = true ∧ t.clear .msb0 0 = true ∧ t.parseBytes .msb0 mach [0] 0 = .no .beyond ∧
     (t.compile.map fun d => fromBytes ((d.toTy mach).read mach {}) [0] 0) = some .panic ∧
     (t.compile.map fun d => fromBytes ((d.toTy mach).read mach {}) [0, 0] 0) = some (.err (.incomplete 8)) ∧
     (t.compile.map fun d => fromBytes ((d.toTy mach).read mach {}) [0, 0, 5] 0) =
       some (.ok (([], 0), .ofList [.ofList [.num 5]]))) := by
  refine ⟨?_, ?_, ?_, ?_, ?_, ?_⟩ <;> decide +kernel

end Deku
