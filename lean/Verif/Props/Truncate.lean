import Verif.Lemmas.Examples
import Verif.Lemmas.FromBytes
import Verif.Lemmas.Truncate
import Verif.Props.Chain

/-!
# C56: input that is cut off is reported as incomplete
-/

namespace Deku

theorem Reader.new_cutTo {inside : Bool} {a b : List Byte} (hs : inside = true → (a ++ b).length < 2 ^ 61) :
    (Reader.new { data := a ++ b }).CutTo inside (Reader.new { data := a }) :=
  ⟨⟨a, 0, rfl⟩, rfl, List.prefix_append a b, fun _ => Nat.zero_le _, hs⟩

/-- **C56, in part.** Of an input only the first part `a` is there. `from_bytes` reports `Incomplete`; or it
returns the same value, and all that is missing belongs to the rest; or it fails in the same way as on
the whole input. The definition either has no `Vec<u8>` with a count (`inside := false`) or no padding
and no offset of a byte or more. -/
theorem C56_cut_input_partial {inside : Bool} {m : Machine} {t : Ty} (ht : t.Cuttable inside) (env : Env)
    (a b : List Byte) {off : Nat} (ho : inside = true → off < 8) (hs : inside = true → (a ++ b).length < 2 ^ 61) :
    (∃ n, fromBytes (t.read m env) a off = .err (.incomplete n)) ∨
    (∃ rest bit v, fromBytes (t.read m env) a off = .ok ((rest, bit), v) ∧
      fromBytes (t.read m env) (a ++ b) off = .ok ((rest ++ b, bit), v)) ∨
    (∃ e, fromBytes (t.read m env) a off = .err e ∧ fromBytes (t.read m env) (a ++ b) off = .err e) ∨
    fromBytes (t.read m env) a off = .panic ∧ fromBytes (t.read m env) (a ++ b) off = .panic := by
  have h := readFrom_notices (t.read_notices m ht env) ho _ _ (Reader.new_cutTo hs)
  unfold fromBytes
  rcases hA : readFrom (t.read m env) off (Reader.new { data := a }) with ⟨x, s⟩
  rcases hB : readFrom (t.read m env) off (Reader.new { data := a ++ b }) with ⟨y, r⟩
  rw [hA, hB] at h
  rcases h with ⟨n, rfl⟩ | ⟨he, hok⟩
  · exact .inl ⟨n, rfl⟩
  · simp only at he hok
    subst he
    cases x with
    | ok v =>
      have hb : s.bitsRead = r.bitsRead := by
        obtain ⟨d, c, e⟩ := (hok v rfl).same
        rw [e]
      simp only [hb]
      by_cases hl : r.bitsRead / 8 ≤ a.length
      · refine .inr (.inl ⟨_, _, v, if_pos hl, ?_⟩)
        rw [if_pos (by rw [List.length_append]; omega), List.drop_append_of_le_length hl]
      · exact .inl ⟨_, if_neg hl⟩
    | err e => exact .inr (.inr (.inl ⟨e, rfl, rfl⟩))
    | panic => exact .inr (.inr (.inr ⟨rfl, rfl⟩))

/-- **C56, in part.** If bytes of the message are missing, not only of what comes after it, the result is
`Incomplete`. -/
theorem C56_missing_bytes_partial {inside : Bool} {m : Machine} {t : Ty} (ht : t.Cuttable inside) (env : Env)
    (a b : List Byte) {off : Nat} (ho : inside = true → off < 8) (hs : inside = true → (a ++ b).length < 2 ^ 61)
    {rest : List Byte} {bit : Nat} {v : Val} (h : fromBytes (t.read m env) (a ++ b) off = .ok ((rest, bit), v))
    (hmiss : rest.length < b.length) : ∃ n, fromBytes (t.read m env) a off = .err (.incomplete n) := by
  rcases C56_cut_input_partial ht env a b ho hs with h1 | ⟨rest', _, _, _, h2⟩ | ⟨_, _, h2⟩ | ⟨_, h2⟩
  · exact h1
  · rw [h] at h2
    cases h2
    rw [List.length_append] at hmiss
    omega
  all_goals rw [h] at h2; cases h2

/-- **C56, in part.** The same to the bit: the message ends in the middle of the first byte missing. -/
theorem C56_missing_bits_partial {inside : Bool} {m : Machine} {t : Ty} (ht : t.Cuttable inside)
    (hst : t.Streams true) (env : Env)
    (a b : List Byte) {off : Nat} (ho : inside = true → off < 8) (hs : inside = true → (a ++ b).length < 2 ^ 61)
    {rest : List Byte} {bit : Nat} {v : Val} (h : fromBytes (t.read m env) (a ++ b) off = .ok ((rest, bit), v))
    (hmiss : 8 * rest.length < 8 * b.length + bit) : ∃ n, fromBytes (t.read m env) a off = .err (.incomplete n) := by
  rcases C56_cut_input_partial ht env a b ho hs with h1 | ⟨rest', _, _, h1, h2⟩ | ⟨_, _, h2⟩ | ⟨_, h2⟩
  · exact h1
  · rw [h] at h2
    cases h2
    obtain ⟨n, _, _, hn, hr, hb, hsum⟩ := C44_rest_is_unconsumed_input_partial m t env hst _ _ _ _ _ h1
    rw [List.length_append] at hmiss
    have : rest'.length = a.length - n / 8 := by rw [hr, List.length_drop]
    omega
  all_goals rw [h] at h2; cases h2

/-- **C56, in part.** `TryFrom`: of an input that is accepted no part from the start is, the error is
`Incomplete`. -/
theorem C56_try_from_partial {inside : Bool} {m : Machine} {t : Ty} (ht : t.Cuttable inside) (env : Env)
    (a b : List Byte) (hs : inside = true → (a ++ b).length < 2 ^ 61) (hb : b ≠ []) {v : Val}
    (h : tryFrom (t.read m env) (a ++ b) = .ok v) : ∃ n, tryFrom (t.read m env) a = .err (.incomplete n) := by
  have hn := readFrom_notices (t.read_notices m ht env) (off := 0) (fun _ => by decide) _ _ (Reader.new_cutTo hs)
  have hl : 0 < b.length := List.length_pos_iff.2 hb
  unfold tryFrom fromReader at h ⊢
  rcases hA : readFrom (t.read m env) 0 (Reader.new { data := a }) with ⟨x, s⟩
  rcases hB : readFrom (t.read m env) 0 (Reader.new { data := a ++ b }) with ⟨y, r⟩
  rw [hA, hB] at hn
  rw [hB] at h
  rcases hn with ⟨n, rfl⟩ | ⟨he, hok⟩
  · exact ⟨n, rfl⟩
  · simp only at he hok
    subst he
    cases x with
    | ok w =>
      have hb : s.bitsRead = r.bitsRead := by
        obtain ⟨d, c, e⟩ := (hok w rfl).same
        rw [e]
      simp only [hb, List.length_append] at h ⊢
      by_cases h1 : r.bitsRead / 8 < a.length + b.length
      · rw [if_pos h1] at h; cases h
      · rw [if_neg (by omega), if_pos (by omega)]
        exact ⟨_, rfl⟩
    | err e => cases h
    | panic => cases h

/-! ### Examples -/

namespace Example

theorem packet_cuttable : packet.Cuttable false :=
  ⟨rfl, ⟨rfl, nofun⟩, fun _ => uintCodec_notices .little 1 _, ⟨rfl, nofun⟩, fun _ => uintCodec_notices .little 1 _,
    ⟨rfl, nofun⟩, fun _ => uintCodec_notices .little 1 _, ⟨rfl, nofun⟩, ⟨trivial, fun _ => uintCodec_notices .little 2 _⟩,
    ⟨rfl, nofun⟩, fun _ => uintCodec_notices .little 1 _, ⟨rfl, nofun⟩, fun _ => uintCodec_notices .little 1 _, trivial⟩

/-- `#[deku(count = "2")] data: Vec<u8>` -/
def twoByteList : Ty := .struct (fun _ => []) none [] <| .cons {} (.bytes (fun _ => 2) fun _ => .unit) .nil

theorem twoByteList_cuttable : twoByteList.Cuttable true :=
  ⟨rfl, ⟨rfl, fun _ => ⟨nofun, nofun⟩⟩, rfl, trivial⟩

theorem packet_of : fromBytes (packet.read mach {}) ([0xab, 0x30, 1, 0x12] ++ [0x34, 0, 9, 77]) 0 =
    .ok (([77], 0), packetValue [0x1234] .none) := by decide +kernel

-- four of the seven bytes of a message; then the byte after it is missing
example : ∃ n, fromBytes (packet.read mach {}) [0xab, 0x30, 1, 0x12] 0 = .err (.incomplete n) :=
  C56_missing_bytes_partial packet_cuttable {} _ [0x34, 0, 9, 77] nofun nofun packet_of (by decide)

example : fromBytes (packet.read mach {}) [0xab, 0x30, 1, 0x12, 0x34, 0, 9] 0 =
    .ok (([], 0), packetValue [0x1234] .none) := by
  have hn : ∀ n, fromBytes (packet.read mach {}) [0xab, 0x30, 1, 0x12, 0x34, 0, 9] 0 ≠ .err (.incomplete n) := by
    have : (match fromBytes (packet.read mach {}) [0xab, 0x30, 1, 0x12, 0x34, 0, 9] 0 with | .err _ => false | _ => true) = true := by
      decide +kernel
    intro n h
    rw [h] at this
    cases this
  have hf : fromBytes (packet.read mach {}) ([0xab, 0x30, 1, 0x12, 0x34, 0, 9] ++ [77]) 0 = _ := packet_of
  rcases C56_cut_input_partial packet_cuttable {} [0xab, 0x30, 1, 0x12, 0x34, 0, 9] [77] (off := 0) (m := mach) nofun nofun with
    ⟨n, h⟩ | ⟨rest, bit, v, h, h'⟩ | ⟨e, _, h⟩ | ⟨_, h⟩
  · exact absurd h (hn n)
  · rw [hf] at h'
    simp only [Res.ok.injEq, Prod.mk.injEq] at h'
    obtain ⟨⟨h1, rfl⟩, rfl⟩ := h'
    rw [h, ← List.append_cancel_right (show [] ++ [77] = rest ++ [77] from h1)]
  · rw [hf] at h; cases h
  · rw [hf] at h; cases h

-- a wrong magic is an error with any number of bytes after it
example : fromBytes (packet.read mach {}) [0xac] 0 = .err .parse ∧
    fromBytes (packet.read mach {}) [0xac, 1, 2] 0 = .err .parse := by decide +kernel

-- one byte, then half of another
example : ∃ n, fromBytes (Ty.read mach (.pair u8T u4T) {}) [1] 0 = .err (.incomplete n) :=
  C56_missing_bits_partial (inside := false) (t := .pair u8T u4T) (b := [0x2f]) (rest := [0x2f]) (bit := 4) (v := .ofList [.num 1, .num 2])
    ⟨fun _ => uintCodec_notices .little 1 _, fun _ => uintCodec_notices .little 1 _⟩
    (by simp only [u8T, u4T, Ty.Streams]; simp [u8_follows, u4_follows])
    {} _ nofun nofun (by decide +kernel) (by decide)

example : ∃ n, tryFrom (twoByteList.read mach {}) [1] = .err (.incomplete n) :=
  C56_try_from_partial (v := .ofList [.ofList [.num 1, .num 2]]) twoByteList_cuttable {} [1] [2] (fun _ => by decide)
    (by decide) (by decide +kernel)

/-- `#[deku(pad_bytes_before = "2", count = "1")] data: Vec<u8>` -/
def paddedBytes : Ty := .struct (fun _ => []) none [] <|
  .cons { padBefore := some fun _ => 16 } (.bytes (fun _ => 1) fun _ => .unit) .nil

end Example

/-- **C56 is false** if whole bytes of padding come before a `Vec<u8>` with a count: a message that is read
when it is complete panics when it is cut off in the padding. -/
theorem C56_cut_in_padding_panics :
    fromBytes (Example.paddedBytes.read Example.mach {}) [0, 0, 5] 0 = .ok (([], 0), .ofList [.ofList [.num 5]]) ∧
    fromBytes (Example.paddedBytes.read Example.mach {}) [0, 0] 0 = .err (.incomplete 8) ∧
    fromBytes (Example.paddedBytes.read Example.mach {}) [0] 0 = .panic := by decide +kernel

end Deku
