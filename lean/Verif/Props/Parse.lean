import Verif.Lemmas.ParseClear
import Verif.Props.Consistent

/-!
# Properties of the inputs that a source describes: C76

`Spec/Parse.lean` tells from the attributes alone what a source says of an input: which value it is and how many bits are
left, that it is none, or nothing at all. The code does what is said, for every input.
-/

namespace Deku

theorem parseBytes_agrees (m : Machine) (t : STy) (d : Def) (o : Order) (hz : t.sized [] = true) (hd : t.compile = some d)
    (data : List Byte) (off : Nat) :
    Agrees o (readFrom ((d.toTy m).read m {}) off) (Reader.new { data := data }) (t.parseBytes o m data off) := by
  have hs : Stands false (Reader.new { data := data }) := ⟨(Reader.new_at data).live, fun _ => (new_good data).noPeek⟩
  have h := STy.decodes (o := o) m t none [] [] d hz hd nofun {} {} (Env.Same.refl _)
  have := Reader.new_unread (bs := data) (o := o)
  unfold STy.parseBytes readFrom
  rw [← this]
  by_cases ho : off = 0
  · subst ho
    rw [if_pos rfl, if_neg (by omega)]
    exact h.here false _ hs
  · rw [if_neg ho, if_pos (by omega)]
    exact ((skip_decodes .msb0 off).bind fun _ => h).here false _ hs

/-! ## C76 -/

/-- **C76.** If the source says which value the input is, `from_bytes` gives this value and what is left. -/
theorem C76_inputs_are_parsed_as_described (m : Machine) (t : STy) (d : Def) (o : Order) (hz : t.sized [] = true)
    (hd : t.compile = some d) (data : List Byte) (off : Nat) (v : Val) (k : Bool) (left : List Bool)
    (hv : t.parseBytes o m data off = .ok v k left) :
    left.length ≤ 8 * data.length ∧ fromBytes ((d.toTy m).read m {}) data off =
      .ok ((data.drop ((8 * data.length - left.length) / 8), (8 * data.length - left.length) % 8), v) := by
  have h := parseBytes_agrees m t d o hz hd data off
  rw [hv] at h
  obtain ⟨r', e, hg⟩ := h
  have hc := hg.stands.live.count o
  rw [hg.unread, hg.data, show (Reader.new { data := data }).inner.data = data from rfl] at hc
  refine ⟨by omega, fromBytes_ok_iff.2 ⟨r', e, by omega, ?_, ?_⟩⟩
  · rw [show 8 * data.length - left.length = r'.bitsRead by omega]
  · rw [show 8 * data.length - left.length = r'.bitsRead by omega]

/-- **C76.** If the source says that the input is no value, `from_bytes` gives none. -/
theorem C76_other_inputs_are_rejected (m : Machine) (t : STy) (d : Def) (o : Order) (hz : t.sized [] = true)
    (hd : t.compile = some d) (data : List Byte) (off : Nat) (w : Why)
    (hv : t.parseBytes o m data off = .no w) (rest : List Byte × Nat) (v : Val) : fromBytes ((d.toTy m).read m {}) data off ≠ .ok (rest, v) := by
  have h := parseBytes_agrees m t d o hz hd data off
  rw [hv] at h
  intro he
  obtain ⟨r', e, hb, _⟩ := fromBytes_ok_iff.1 he
  obtain ⟨h1, h2⟩ := (h.resolve_right fun hw => hw.not_ok v (congrArg Prod.fst e)).2 v r' e
  have hbey := h1.beyond
  have := h1.counted
  rw [show r'.inner.data = data from h2] at hbey
  omega

/-- **C76.** What a source says in one bit order it says in the other, where it says something in both. -/
theorem C76_bit_orders_agree (m : Machine) (t : STy) (d : Def) (hz : t.sized [] = true) (hd : t.compile = some d)
    (data : List Byte) (off : Nat) (v : Val) (k : Bool) (left : List Bool) (o o' : Order)
    (hv : t.parseBytes o m data off = .ok v k left) (hc : t.parseBytes o' m data off ≠ .unclear) :
    ∃ k' left', t.parseBytes o' m data off = .ok v k' left' ∧ left'.length = left.length := by
  obtain ⟨h1, h2⟩ := C76_inputs_are_parsed_as_described m t d o hz hd data off v k left hv
  cases hw : t.parseBytes o' m data off with
  | no w' => exact absurd h2 (C76_other_inputs_are_rejected m t d o' hz hd data off w' hw _ v)
  | unclear => exact absurd hw hc
  | ok w k' left' =>
    obtain ⟨h3, h4⟩ := C76_inputs_are_parsed_as_described m t d o' hz hd data off w k' left' hw
    rw [h2] at h4
    simp only [Res.ok.injEq, Prod.mk.injEq] at h4
    obtain ⟨⟨e1, e2⟩, rfl⟩ := h4
    refine ⟨k', left', rfl, ?_⟩
    have := congrArg List.length e1
    simp only [List.length_drop] at this
    omega

/-- **C76.** Of sources in which everything that is not in bit order `o` is bytes and begins where a byte begins, and in
which every list has one limit, something is said on every input. -/
theorem C76_clear_sources_decide_every_input (m : Machine) (t : STy) (o : Order) (off : Nat) (hc : t.clear o off = true)
    (data : List Byte) : t.parseBytes o m data off ≠ .unclear :=
  STy.parseBytes_clear hc m data

/-- **C76.** For these, `from_bytes` is exactly what the source says. -/
theorem C76_clear_sources_are_parsed_exactly (m : Machine) (t : STy) (d : Def) (o : Order) (hz : t.sized [] = true)
    (hd : t.compile = some d) (off : Nat) (hc : t.clear o off = true) (data rest : List Byte) (b : Nat) (v : Val) :
    fromBytes ((d.toTy m).read m {}) data off = .ok ((rest, b), v) ↔
      ∃ k left, t.parseBytes o m data off = .ok v k left ∧ left.length ≤ 8 * data.length ∧
        rest = data.drop ((8 * data.length - left.length) / 8) ∧ b = (8 * data.length - left.length) % 8 := by
  constructor
  · intro h
    cases hv : t.parseBytes o m data off with
    | no w' => exact absurd h (C76_other_inputs_are_rejected m t d o hz hd data off w' hv _ v)
    | unclear => exact absurd hv (C76_clear_sources_decide_every_input m t o off hc data)
    | ok w k left =>
      obtain ⟨h1, h2⟩ := C76_inputs_are_parsed_as_described m t d o hz hd data off w k left hv
      rw [h] at h2
      simp only [Res.ok.injEq, Prod.mk.injEq] at h2
      obtain ⟨⟨e1, e2⟩, rfl⟩ := h2
      exact ⟨k, left, rfl, h1, e1, e2⟩
  · rintro ⟨k, left, hv, _, rfl, rfl⟩
    exact (C76_inputs_are_parsed_as_described m t d o hz hd data off v k left hv).2

/-- **C76.** `TryFrom` gives the values of the inputs of which nothing is left. -/
theorem C76_try_from_takes_all_of_the_input (m : Machine) (t : STy) (d : Def) (o : Order)
    (hz : t.sized [] = true) (hd : t.compile = some d) (data : List Byte) (hc : t.parseBytes o m data 0 ≠ .unclear) (v : Val) :
    tryFrom ((d.toTy m).read m {}) data = .ok v ↔ ∃ k, t.parseBytes o m data 0 = .ok v k [] := by
  have h := parseBytes_agrees m t d o hz hd data 0
  unfold tryFrom fromReader
  cases hv : t.parseBytes o m data 0 with
  | unclear => exact absurd hv hc
  | no w =>
    rw [hv] at h
    constructor
    · intro e
      exfalso
      rcases hr : readFrom ((d.toTy m).read m {}) 0 (Reader.new { data := data }) with ⟨(x | x | _), r'⟩
      · obtain ⟨h1, h2⟩ := (h.resolve_right fun hw => hw.not_ok x (congrArg Prod.fst hr)).2 x r' hr
        have hbey := h1.beyond
        have := h1.counted
        rw [show r'.inner.data = data from h2] at hbey
        rw [hr] at e
        dsimp only at e
        rw [if_neg (by omega), if_pos (by omega)] at e
        cases e
      · rw [hr] at e; cases e
      · rw [hr] at e; cases e
    · rintro ⟨k, e⟩; cases e
  | ok w k left =>
    rw [hv] at h
    obtain ⟨r', e, hg⟩ := h
    have hc := hg.stands.live.count o
    rw [hg.unread, hg.data, show (Reader.new { data := data }).inner.data = data from rfl] at hc
    rw [e]
    dsimp only
    constructor
    · intro h
      by_cases hn : r'.bitsRead / 8 < data.length
      · rw [if_pos hn] at h; cases h
      · rw [if_neg hn, if_neg (by omega)] at h
        cases h
        exact ⟨k, by rw [List.eq_nil_of_length_eq_zero (l := left) (by omega)]⟩
    · rintro ⟨k', h⟩
      cases h
      rw [List.length_nil] at hc
      rw [if_neg (by omega), if_neg (by omega)]

/-- **C76.** The values that a source describes (C75) are the ones it says of their bits. -/
theorem C76_described_values_are_recognised (m : Machine) (t : STy) (d : Def) (o : Order)
    (ht : t.ordered o m.native [] = true) (hi : t.idsNamed = true) (hz : t.sized [] = true) (hd : t.compile = some d) (v : Val)
    (hc : t.consistent o m [] [] {} v = true) (ha : t.aligned o m.native {} v = true) (data : List Byte) (rest : List Bool)
    (hb : orderBits o data = t.described o m.native {} v ++ rest) (hu : t.parseBytes o m data 0 ≠ .unclear) :
    ∃ k left, t.parseBytes o m data 0 = .ok v k left ∧ left.length = rest.length := by
  have h := C75_consistent_values_are_parsed_as_described m t d o ht hi hz hd {} v hc ha data rest hb
  have hl := congrArg List.length hb
  rw [Reader.length_orderBits, List.length_append] at hl
  cases hv : t.parseBytes o m data 0 with
  | no w' => exact absurd h (C76_other_inputs_are_rejected m t d o hz hd data 0 w' hv _ v)
  | unclear => exact absurd hv hu
  | ok w k left =>
    obtain ⟨h1, h2⟩ := C76_inputs_are_parsed_as_described m t d o hz hd data 0 w k left hv
    rw [h] at h2
    simp only [Res.ok.injEq, Prod.mk.injEq] at h2
    obtain ⟨⟨e1, e2⟩, rfl⟩ := h2
    refine ⟨k, left, rfl, ?_⟩
    have := congrArg List.length e1
    simp only [List.length_drop] at this
    omega

/-! ### Examples -/

open Example SourceExample

/-- Of the messages of C69 and the bit fields of C74 everything is said. -/
theorem SourceExample.clear_sources :
    message.sized [] = true ∧ message.clear .msb0 0 = true ∧ message.clear .lsb0 0 = true ∧ bits.sized [] = true ∧
    bits.clear .msb0 5 = true ∧ bits.clear .lsb0 0 = false ∧ lsb.sized [] = true ∧ lsb.clear .lsb0 0 = true ∧
    mixed.clear .lsb0 0 = true ∧ mixed.clear .lsb0 1 = false := by decide +kernel

/-- What is said of some inputs. -/
theorem SourceExample.verdicts :
    message.parseBytes .msb0 mach [2, 0, 80, 0, 1, 2, 1, 2, 3, 0xff, 0xfe, 0x12, 0x34, 8, 9, 7] 0 =
      .ok messageValue false (orderBits .msb0 [7]) ∧
    message.parseBytes .msb0 mach [2, 0, 80, 0, 1, 2, 1, 2, 3, 0xff, 0xfe, 0x12, 0x34, 8] 0 = .no .short ∧
    message.parseBytes .msb0 mach [99, 1, 0, 81, 42, 7, 0, 0, 0, 0, 1, 2, 3, 4, 5] 8 =
      .ok (.ofList [.num 81, .ofList [.num 7], .num 0, .none, .variant 0 (.ofList [.ofList [.num 0x0203, .num 0x0405]])])
        false [] ∧
    bits.parseBytes .msb0 mach [0x5f, 0x08, 0x04, 0x02] 0 =
      .ok (.ofList [.num 2, .ofList [.num 31, .num 1], .num 258]) false [false] ∧
    mixed.parseBytes .lsb0 mach [0x74, 1, 2, 9, 5, 0, 1, 0, 2, 0] 0 = .ok (mixedValue 7 9) false [] ∧
    mixed.parseBytes .lsb0 mach [0x74, 1, 3, 9, 5, 0, 1, 0, 2, 0] 0 = .no .assertion ∧
    mixed.parseBytes .lsb0 mach [0x71, 1, 2, 9, 0, 1, 0, 2, 0] 0 = .no .short := by
  refine ⟨?_, ?_, ?_, ?_, ?_, ?_, ?_⟩ <;> decide +kernel

/-- `from_bytes` on `Message`, for every input. -/
example (d : Def) (hd : message.compile = some d) (data rest : List Byte) (b : Nat) (v : Val) :
    fromBytes ((d.toTy mach).read mach {}) data 0 = .ok ((rest, b), v) ↔
      ∃ k left, message.parseBytes .msb0 mach data 0 = .ok v k left ∧ left.length ≤ 8 * data.length ∧
        rest = data.drop ((8 * data.length - left.length) / 8) ∧ b = (8 * data.length - left.length) % 8 :=
  C76_clear_sources_are_parsed_exactly mach message d .msb0 clear_sources.1 hd 0 clear_sources.2.1 data rest b v

example : ∃ d, message.compile = some d ∧
    fromBytes ((d.toTy mach).read mach {}) [2, 0, 80, 0, 1, 2, 1, 2, 3, 0xff, 0xfe, 0x12, 0x34, 8, 9, 7] 0 =
      .ok (([7], 0), messageValue) ∧
    (∀ rest v, fromBytes ((d.toTy mach).read mach {}) [2, 0, 80, 0, 1, 2, 1, 2, 3, 0xff, 0xfe, 0x12, 0x34, 8] 0 ≠
      .ok (rest, v)) ∧
    (∃ k left, message.parseBytes .lsb0 mach [2, 0, 80, 0, 1, 2, 1, 2, 3, 0xff, 0xfe, 0x12, 0x34, 8, 9, 7] 0 =
      .ok messageValue k left ∧ left.length = 8) := by
  obtain ⟨h1, h2, h3, _⟩ := clear_sources
  obtain ⟨v1, v2, _⟩ := verdicts
  obtain ⟨d, hd⟩ := Option.isSome_iff_exists.1 (show message.compile.isSome = true by decide +kernel)
  exact ⟨d, hd, (C76_inputs_are_parsed_as_described mach message d .msb0 h1 hd _ 0 _ _ _ v1).2,
    C76_other_inputs_are_rejected mach message d .msb0 h1 hd _ 0 _ v2,
    C76_bit_orders_agree mach message d h1 hd _ 0 _ _ _ .msb0 .lsb0 v1
      (C76_clear_sources_decide_every_input mach message .lsb0 0 h3 _)⟩

/-- The value is read by `TryFrom` if there is nothing behind it. -/
example (d : Def) (hd : message.compile = some d) : tryFrom ((d.toTy mach).read mach {})
    [2, 0, 80, 0, 1, 2, 1, 2, 3, 0xff, 0xfe, 0x12, 0x34, 8, 9] = .ok messageValue :=
  (C76_try_from_takes_all_of_the_input mach message d .msb0 clear_sources.1 hd _
    (C76_clear_sources_decide_every_input mach message .msb0 0 clear_sources.2.1 _) messageValue).2
    ⟨false, by decide +kernel⟩

example (d : Def) (hd : mixed.compile = some d) : ∃ k left,
    mixed.parseBytes .lsb0 mach [0x74, 1, 2, 9, 5, 0, 1, 0, 2, 0, 3] 0 = .ok (mixedValue 7 9) k left ∧ left.length = 8 := by
  obtain ⟨h1, h2, h3, _, h5, h6, h7, _⟩ := mixed_checked
  refine C76_described_values_are_recognised mach mixed d .lsb0 h1 h2 h3 hd (mixedValue 7 9) h5 h6 _ (orderBits .lsb0 [3]) ?_
    (by decide +kernel)
  rw [show mach.native = .little from rfl, h7]
  decide +kernel

/-- `Ipv4Header` (/repo/examples/ipv4.rs:24-47), the addresses as the numbers that they are read as
(/repo/src/impls/ipaddr.rs), and options after it: `#[deku(count = "ihl")] options: Vec<u8>`,
`#[deku(read_all)] items: Vec<Item>` with
`#[deku(ctx = "endian: Endian", endian = "endian")] struct Item { #[deku(bits = 4)] kind: u8, #[deku(bits = 4)] n: u8,
#[deku(count = "n")] data: Vec<u8> }`. -/
def SourceExample.ipv4 : STy :=
  let u32 : STy := .base (.uint 4)
  let item : STy := .struct { params := [.endian], endian := some (.arg 0) } (.cons { bits := some 4 } u8 (.cons { bits := some 4 } u8
    (.cons { count := some (.field 0) } (.vec false u8) .nil)))
  .struct { endian := some (.lit .big) }
    (.cons { bits := some 4 } u8 (.cons { bits := some 4 } u8 (.cons { bits := some 6 } u8 (.cons { bits := some 2 } u8
    (.cons {} u16 (.cons {} u16 (.cons { bits := some 3 } u8 (.cons { bits := some 13 } u16 (.cons {} u8 (.cons {} u8
    (.cons {} u16 (.cons {} u32 (.cons {} u32 (.cons { count := some (.field 11) } (.vec false u8)
    (.cons { readAll := true } (.vec false item) .nil)))))))))))))))

/-- It is in Msb0 and bytes, and something is said of every input; of the test data of the example
(/repo/examples/ipv4.rs:50, with options) what the example says. -/
theorem SourceExample.ipv4_checked :
    ipv4.sized [] = true ∧ ipv4.compile.isSome = true ∧ ipv4.clear .msb0 0 = true ∧ ipv4.clear .msb0 4 = false ∧
    ipv4.parseBytes .msb0 mach ([0x45, 0x00, 0x00, 0x4b, 0x0f, 0x49, 0x00, 0x00, 0x80, 0x11, 0x63, 0xa5, 0x91, 0xfe, 0xa0,
        0xed, 0x91, 0xfd, 0x02, 0xcb] ++ [1, 2, 3, 4, 5] ++ [0x72, 8, 9, 0x60, 0x51, 7]) 0 =
      .ok (.ofList [.num 4, .num 5, .num 0, .num 0, .num 75, .num 0x0f49, .num 0, .num 0, .num 128, .num 17, .num 0x63a5,
        .num 0x91fea0ed, .num 0x91fd02cb, .ofList [.num 1, .num 2, .num 3, .num 4, .num 5],
        .ofList [.ofList [.num 7, .num 2, .ofList [.num 8, .num 9]], .ofList [.num 6, .num 0, .nil],
          .ofList [.num 5, .num 1, .ofList [.num 7]]]]) false [] := by
  refine ⟨?_, ?_, ?_, ?_, ?_⟩ <;> decide +kernel

/-- Any input is a header, exactly if the parser says so. -/
example (d : Def) (hd : ipv4.compile = some d) (data : List Byte) (v : Val) :
    tryFrom ((d.toTy mach).read mach {}) data = .ok v ↔ ∃ k, ipv4.parseBytes .msb0 mach data 0 = .ok v k [] :=
  C76_try_from_takes_all_of_the_input mach ipv4 d .msb0 ipv4_checked.1 hd data
    (C76_clear_sources_decide_every_input mach ipv4 .msb0 0 ipv4_checked.2.2.1 data) v

/-- **C76** says nothing where the code does what no description in one bit order can say: a `Vec<u8>` with a `count`
and an integer of the other bit order behind 4 bits, a `Vec<u8>` with a `count` of 4-bit elements. -/
theorem C76_nothing_is_said_of_these :
    (let t : STy := .struct {} (.cons { bits := some 4 } u8 (.cons { count := some (.lit 1) } (.vec false u8)
        (.cons { bits := some 4 } u8 .nil)))
     t.sized [] = true ∧ t.parseBytes .msb0 mach [0x12, 0x34] 0 = .unclear ∧
     (t.compile.map fun d => fromBytes ((d.toTy mach).read mach {}) [0x12, 0x34] 0) =
       some (.ok (([], 0), .ofList [.num 1, .ofList [.num 0x42], .num 3]))) ∧
    (let t : STy := .struct {} (.cons { bits := some 4 } u8 (.cons { order := some (.lit .lsb0) } u8
        (.cons { bits := some 4 } u8 .nil)))
     t.sized [] = true ∧ t.parseBytes .msb0 mach [0x12, 0x36] 0 = .unclear ∧
     (t.compile.map fun d => fromBytes ((d.toTy mach).read mach {}) [0x12, 0x36] 0) =
       some (.ok (([], 0), .ofList [.num 1, .num 0x62, .num 3]))) ∧
    (let t : STy := .struct {} (.cons { count := some (.lit 2), bits := some 4 } (.vec false u8) .nil)
     t.sized [] = true ∧ t.parseBytes .msb0 mach [0x12, 0x34] 0 = .unclear ∧
     (t.compile.map fun d => fromBytes ((d.toTy mach).read mach {}) [0x12, 0x34] 0) =
       some (.ok (([], 0), .ofList [.ofList [.num 0x12, .num 0x34]]))) := by
  refine ⟨⟨?_, ?_, ?_⟩, ⟨?_, ?_, ?_⟩, ?_, ?_, ?_⟩ <;> decide +kernel

end Deku
