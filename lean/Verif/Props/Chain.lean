import Verif.Lemmas.Locality
import Verif.Lemmas.Examples

/-!
# Properties of `from_bytes` and `TryFrom`: C44, C45, C48
-/

namespace Deku

open Reader Writer Coll Example

variable {o : Order}

/-! ## C48 -/

/-- **C48.** What `from_bytes` returns depends only on the bytes it touches: on every input with the
same bytes up to and including the last one of which a bit was consumed, it returns the same value and
stops at the same place. Any mix of bit orders is allowed. -/
theorem C48_consumed_bytes_suffice (m : Machine) (t : Ty) (env : Env) (ht : t.Streams true)
    (data data' rest : List Byte) (off b : Nat) (v : Val)
    (h : fromBytes (t.read m env) data off = .ok ((rest, b), v))
    (hd : data'.take (data.length - rest.length + (b + 7) / 8) =
      data.take (data.length - rest.length + (b + 7) / 8)) :
    fromBytes (t.read m env) data' off = .ok ((data'.drop (data.length - rest.length), b), v) :=
  (Ty.follows m t env ht).fromBytes h hd

/-- **C48.** In one bit order, it depends only on the bits it consumes. `streamFrom o data off` is the
input as a sequence of bits, without the `off` bits before the message. -/
theorem C48_consumed_bits_suffice (m : Machine) (t : Ty) (env : Env) (Q : Val → Nat → Prop) (off : Nat)
    (ht : t.Streams true) (hi : t.InOrder m o (· = off) Q env) (data rest : List Byte) (b : Nat) (v : Val)
    (h : fromBytes (t.read m env) data off = .ok ((rest, b), v)) :
    ∃ n, 8 * data.length + b = 8 * rest.length + off + n ∧ n ≤ (streamFrom o data off).length ∧
      ∀ data', off ≤ 8 * data'.length →
        (streamFrom o data' off).take n = (streamFrom o data off).take n →
        fromBytes (t.read m env) data' off = .ok ((data'.drop (data.length - rest.length), b), v) := by
  obtain ⟨n, h1, h2, h3⟩ := (Ty.local m t _ _ env hi ht).fromBytes h
  refine ⟨n, h1, h2, fun data' ho hs => h3 data' ((streamFrom o data' off).drop n) ho ?_⟩
  rw [← hs, List.take_append_drop]

namespace Example

theorem u8_follows {fixed : Bool} : Follows fixed (uintCodec .little 1 .unit).read :=
  uint_follows (e := .little) (n := 8) (o' := .msb0) (by decide) rfl (by decide) (by decide)

theorem u4_follows {fixed : Bool} : Follows fixed (uintCodec .little 1 (.bits 4)).read :=
  uint_follows (e := .little) (n := 4) (o' := .msb0) (by decide) rfl (by decide) (by decide)

theorem u16_follows {fixed : Bool} : Follows fixed (uintCodec .little 2 (.endian .big)).read :=
  uint_follows (e := .big) (n := 16) (o' := .msb0) (by decide) rfl (by decide) (by decide)

theorem packet_streams {fixed : Bool} : packet.Streams fixed := by
  simp only [packet, u4T, u8T, u16be, Ty.Streams, Fields.Streams, Attrs.Streams]
  simp [u8_follows, u4_follows, u16_follows]

/-- Any position. -/
abbrev anyV : Val → Nat → Prop := fun _ _ => True

theorem u8_inOrder {P : Nat → Prop} {env : Env} : u8T.InOrder mach .msb0 P anyV env := by
  simp only [u8T, Ty.InOrder]
  exact uint_local (e := .little) (n := 8) (by decide) rfl (by decide) (by decide) fun _ _ _ => trivial

theorem u4_inOrder {P : Nat → Prop} {env : Env} : u4T.InOrder mach .msb0 P anyV env := by
  simp only [u4T, Ty.InOrder]
  exact uint_local (e := .little) (n := 4) (by decide) rfl (by decide) (by decide) fun _ _ _ => trivial

theorem u16_inOrder {P : Nat → Prop} {env : Env} : u16be.InOrder mach .msb0 P anyV env := by
  simp only [u16be, Ty.InOrder]
  exact uint_local (e := .big) (n := 16) (by decide) rfl (by decide) (by decide) fun _ _ _ => trivial

theorem attrs_inOrder {T : (Nat → Prop) → (Val → Nat → Prop) → Env → Prop} {a : Attrs} {P : Nat → Prop}
    {env : Env} (hs : a.seek = none) (ho : a.padOrder = none) (hT : ∀ P env, T P anyV env) :
    a.InOrder .msb0 T P anyV env :=
  ⟨hs, .inr (.inl rfl), .inr (by simp [ho]), .inr (by simp [ho]),
    fun q _ => ⟨fun _ => ⟨anyV, hT _ _, fun _ _ _ _ _ => trivial⟩, fun _ => trivial⟩⟩

theorem packet_inOrder {P : Nat → Prop} : packet.InOrder mach .msb0 P anyV {} := by
  simp only [packet, Ty.InOrder, Fields.InOrder]
  refine ⟨trivial, .inr (.inl rfl), anyV, attrs_inOrder rfl rfl fun _ _ => u4_inOrder, fun _ =>
    ⟨anyV, attrs_inOrder rfl rfl fun _ _ => u4_inOrder, fun _ =>
    ⟨anyV, attrs_inOrder rfl rfl fun _ _ => u8_inOrder, fun _ =>
    ⟨anyV, attrs_inOrder rfl rfl fun _ _ => ?_, fun _ =>
    ⟨anyV, attrs_inOrder rfl rfl fun _ _ => ?_, fun _ =>
    ⟨anyV, attrs_inOrder rfl rfl fun _ _ => u4_inOrder, fun _ _ _ => trivial⟩⟩⟩⟩⟩⟩
  · exact ⟨trivial, fun _ _ => True, fun _ _ => trivial, fun _ => u16_inOrder, fun _ _ _ => trivial⟩
  · exact u8_inOrder

end Example

/-- A packet that starts and ends in the middle of a byte: the bits before and after it do not matter. -/
example : ∃ n,
    fromBytes (packet.read mach {}) [0xfa, 0xb3, 0x00, 0x10, 0x00, 0x50, 0x00, 0x9c] 4 =
      .ok (([0x9c], 4), packetValue [5] .none) ∧ n = 56 ∧
    ∀ data', 4 ≤ 8 * data'.length → (streamFrom .msb0 data' 4).take n =
        (streamFrom .msb0 [0xfa, 0xb3, 0x00, 0x10, 0x00, 0x50, 0x00, 0x9c] 4).take n →
      fromBytes (packet.read mach {}) data' 4 = .ok ((data'.drop 7, 4), packetValue [5] .none) := by
  have h : fromBytes (packet.read mach {}) [0xfa, 0xb3, 0x00, 0x10, 0x00, 0x50, 0x00, 0x9c] 4 =
      .ok (([0x9c], 4), packetValue [5] .none) := by decide +kernel
  obtain ⟨n, h1, _, h3⟩ := C48_consumed_bits_suffice mach packet {} anyV 4 packet_streams packet_inOrder
    _ _ _ _ h
  simp at h1
  exact ⟨n, h, by omega, h3⟩

/-! ## C44 -/

/-- **C44.** The consumed bits and the rest are the whole input: `from_bytes` has consumed `n` bits,
`off` of them before the message, and returns everything from the byte with the first unconsumed bit
on. -/
theorem C44_rest_is_unconsumed_input_partial (m : Machine) (t : Ty) (env : Env) (ht : t.Streams true)
    (data rest : List Byte) (off b : Nat) (v : Val)
    (h : fromBytes (t.read m env) data off = .ok ((rest, b), v)) :
    ∃ n, fromReader (t.read m env) { data := data } off = .ok (n, v) ∧ off ≤ n ∧ n ≤ 8 * data.length ∧
      rest = data.drop (n / 8) ∧ b = n % 8 ∧ n + (8 * rest.length - b) = 8 * data.length := by
  have hf := Ty.follows m t env ht
  have hoff := fromBytes_start hf h
  obtain ⟨r, e, hb, rfl, rfl⟩ := fromBytes_ok_iff.1 h
  obtain ⟨hg, hd, _⟩ := readFrom_follows hf off _ _ _ (new_good data) e
  have hdat : r.inner.data = data := hd
  have hin := hg.within (by rw [hdat]; exact hb)
  rw [hdat] at hin
  have hp := hg.pos_eq
  obtain ⟨r0, e0, g0, b0, _⟩ := readFrom_start (o := .msb0) (f := t.read m env) hoff
  rw [e0] at e
  have := (hf _ _ _ g0 e).2.2.2.1
  refine ⟨r.bitsRead, ?_, by omega, by omega, rfl, rfl, by rw [List.length_drop]; omega⟩
  unfold fromReader
  rw [e0, e]

/-- **C44.** Two messages of which the first ends at a byte boundary, in any mix of bit orders: feeding
the rest into the second call is the same as reading both in one pass. -/
theorem C44_two_messages_partial (m : Machine) (t u : Ty) (env env' : Env) (ht : t.Streams true)
    (hu : u.Streams false) (data : List Byte) (off : Nat)
    (hend : ∀ rest b v, fromBytes (t.read m env) data off = .ok ((rest, b), v) → b = 0)
    (x : List Byte × Nat) (v w : Val) :
    (∃ rest, fromBytes (t.read m env) data off = .ok ((rest, 0), v) ∧
      fromBytes (u.read m env') rest 0 = .ok (x, w)) ↔
    fromBytes (do let v ← t.read m env; let w ← u.read m env'; pure (v, w)) data off = .ok (x, (v, w)) := by
  have hf := Ty.follows m t env ht
  rw [← chain_two hf (Ty.follows m u env' hu)]
  · constructor
    · rintro ⟨rest, h1, h2⟩
      exact ⟨rest, 0, h1, h2⟩
    · rintro ⟨rest, b, h1, h2⟩
      have := hend rest b v h1
      subst this
      exact ⟨rest, h1, h2⟩
  · intro v r e
    obtain ⟨hg, hd, _⟩ := readFrom_follows hf off _ _ _ (new_good data) e
    have hdat : r.inner.data = data := hd
    by_cases hb : r.bitsRead / 8 ≤ data.length
    · exact hg.tail (hend _ _ v (fromBytes_ok_iff.2 ⟨r, e, hb, rfl, rfl⟩))
    · have hp : r.Past := hg.past (by rw [hdat]; have := hg.pos_eq; omega)
      exact hg.tail (by rw [hp.counted]; omega)

/-- **C44.** A sequence of messages in Msb0 order, starting at any bit: feeding what a call returns into
the next one is the same as reading all of them in one pass. -/
theorem C44_chain_is_one_pass_partial (m : Machine) (ts : List (Ty × Env)) (hne : ts ≠ [])
    (hs : ∀ t ∈ ts, t.1.Streams false)
    (hi : ∀ t ∈ ts, t.1.InOrder m .msb0 (fun _ => True) (fun _ _ => True) t.2)
    (data : List Byte) (off : Nat) (x : (List Byte × Nat) × List Val) :
    chain (ts.map fun t => t.1.read m t.2) data off = .ok x ↔
      fromBytes (onePass (ts.map fun t => t.1.read m t.2)) data off = .ok x := by
  cases ts with
  | nil => exact absurd rfl hne
  | cons t ts =>
    refine chain_onePass (P := fun _ => True) _ _ (fun g hg => ?_) data off trivial x
    obtain ⟨u, hu, rfl⟩ := List.mem_map.1 (show g ∈ (t :: ts).map (fun t => t.1.read m t.2) from hg)
    refine ⟨Ty.follows m u.1 u.2 (hs u hu), fun data off v r _ he => ⟨?_, trivial⟩⟩
    exact readFrom_tail (Ty.local m u.1 _ _ u.2 (hi u hu) (Ty.Streams.weaken _ (hs u hu))).keepsTail he

/-- **C44.** A sequence of messages of whole bytes, in any mix of bit orders. -/
theorem C44_chain_of_whole_bytes_partial (m : Machine) (ts : List (Ty × Env)) (hne : ts ≠ [])
    (hs : ∀ t ∈ ts, t.1.Streams false) (hw : ∀ t ∈ ts, WholeBytes (t.1.read m t.2))
    (data : List Byte) (x : (List Byte × Nat) × List Val) :
    chain (ts.map fun t => t.1.read m t.2) data 0 = .ok x ↔
      fromBytes (onePass (ts.map fun t => t.1.read m t.2)) data 0 = .ok x := by
  cases ts with
  | nil => exact absurd rfl hne
  | cons t ts =>
    refine chain_onePass (P := (· = 0)) _ _ (fun g hg => ?_) data 0 rfl x
    obtain ⟨u, hu, rfl⟩ := List.mem_map.1 (show g ∈ (t :: ts).map (fun t => t.1.read m t.2) from hg)
    have hf := Ty.follows m u.1 u.2 (hs u hu)
    refine ⟨hf, ?_⟩
    rintro data _ v r rfl he
    have h8 := readFrom_whole (hw u hu) he
    exact ⟨(readFrom_follows hf 0 _ _ _ (new_good data) he).1.tail h8, h8⟩

/-- The hypotheses hold of a bit field, a packet and another bit field, read from any input. -/
example (data : List Byte) (off : Nat) (x : (List Byte × Nat) × List Val) :
    chain [u4T.read mach {}, packet.read mach {}, u4T.read mach {}] data off = .ok x ↔
      fromBytes (onePass [u4T.read mach {}, packet.read mach {}, u4T.read mach {}]) data off = .ok x := by
  refine C44_chain_is_one_pass_partial mach [(u4T, {}), (packet, {}), (u4T, {})] (by simp) (fun t ht => ?_)
    (fun t ht => ?_) data off x
  · have : t = (u4T, {}) ∨ t = (packet, {}) ∨ t = (u4T, {}) := by simpa using ht
    have h4 : u4T.Streams false := by
      simp only [u4T, Ty.Streams]
      exact fun _ => u4_follows
    rcases this with rfl | rfl | rfl
    · exact h4
    · exact packet_streams
    · exact h4
  · have : t = (u4T, {}) ∨ t = (packet, {}) ∨ t = (u4T, {}) := by simpa using ht
    rcases this with rfl | rfl | rfl
    · exact u4_inOrder
    · exact packet_inOrder
    · exact u4_inOrder

example : chain [u4T.read mach {}, packet.read mach {}, u4T.read mach {}]
    [0xfa, 0xb3, 0x00, 0x10, 0x00, 0x50, 0x00, 0x9c, 0x77] 0 =
    .ok (([0x77], 0), [.num 15, packetValue [5] .none, .num 12]) := by decide +kernel

/-- **C44 counterexample.** In Lsb0 order the next call does not find the place: `from_bytes` skips the
offset from the high end of the byte, where an Lsb0 parser has not been. Two nibbles of `0xab` are
`0xb`, `0xa` in one pass, and `0xb`, `0xb` in two calls. -/
theorem C44_lsb0_rest_is_read_again :
    let u4 := (uintCodec .little 1 (.bitsOrder 4 .lsb0)).read
    fromBytes (onePass [u4, u4]) [0xab] 0 = .ok (([], 0), [.num 0xb, .num 0xa]) ∧
    chain [u4, u4] [0xab] 0 = .ok (([], 0), [.num 0xb, .num 0xb]) := by
  constructor <;> decide +kernel

/-- In whole bytes, Lsb0 messages chain. -/
theorem C44_lsb0_whole_bytes_chain_partial :
    let t : Ty := .struct (fun _ => []) none [] <|
      .cons {} (.prim (some 4) fun _ => uintCodec .little 1 (.bitsOrder 4 .lsb0)) <|
      .cons {} (.prim (some 12) fun _ => uintCodec .little 2 (.bitsOrder 12 .lsb0)) .nil
    ∀ data x, chain [t.read mach {}, t.read mach {}] data 0 = .ok x ↔
      fromBytes (onePass [t.read mach {}, t.read mach {}]) data 0 = .ok x := by
  intro t data x
  have hfol : ∀ n W, 1 ≤ W → 1 ≤ n → n ≤ 8 * W → Follows false (uintCodec .little W (.bitsOrder n .lsb0)).read :=
    fun n W hW h1 hn => uint_follows (e := .little) (o' := .lsb0) hW rfl h1 hn
  have hs : ∀ {fixed}, t.Streams fixed := by
    intro fixed
    refine Ty.Streams.weaken t ?_
    simp only [t, Ty.Streams, Fields.Streams, Attrs.Streams]
    simp [hfol]
  have hi : t.InOrder mach .lsb0 (fun p => p % 8 = 0) (fun _ q => q % 8 = 0) {} := by
    simp only [t, Ty.InOrder, Fields.InOrder]
    refine ⟨trivial, .inl trivial, fun _ q => q % 8 = 4, ⟨rfl, .inl rfl, .inl rfl, .inl rfl, ?_⟩, fun _ =>
      ⟨fun _ q => q % 8 = 0, ⟨rfl, .inl rfl, .inl rfl, .inl rfl, ?_⟩, fun _ _ h => h⟩⟩
    · rintro q ⟨p, ⟨p', hp, rfl⟩, rfl⟩
      refine ⟨fun _ => ⟨fun _ q' => q' % 8 = 4, ?_, fun _ _ _ h _ => h⟩, fun h => by simp [Attrs.isRead] at h⟩
      refine uint_local (e := .little) (n := 4) (by decide) rfl (by decide) (by decide) ?_
      rintro p v rfl
      simp at *
      omega
    · rintro q ⟨p, hp, rfl⟩
      refine ⟨fun _ => ⟨fun _ q' => q' % 8 = 0, ?_, fun _ _ _ h _ => h⟩, fun h => by simp [Attrs.isRead] at h⟩
      refine uint_local (e := .little) (n := 12) (by decide) rfl (by decide) (by decide) ?_
      rintro p v rfl
      simp at *
      omega
  refine C44_chain_of_whole_bytes_partial mach [(t, {}), (t, {})] (by simp) (fun u hu => ?_) (fun u hu => ?_) data x
  · have : u = (t, {}) := by simpa using hu
    subst this
    exact hs
  · have : u = (t, {}) := by simpa using hu
    subst this
    exact (Ty.local mach t _ _ {} hi hs).wholeBytes

/-! ## C45 -/

/-- **C45.** `TryFrom` succeeds exactly when reading from the start succeeds and consumes the whole
input. -/
theorem C45_exactly_complete_messages_partial (m : Machine) (t : Ty) (env : Env) (ht : t.Streams true)
    (data : List Byte) (v : Val) :
    tryFrom (t.read m env) data = .ok v ↔
      fromReader (t.read m env) { data := data } 0 = .ok (8 * data.length, v) := by
  unfold tryFrom
  rcases hfr : fromReader (t.read m env) { data := data } 0 with ⟨n, w⟩ | e | _
  · have hn : n / 8 ≤ data.length → n ≤ 8 * data.length := by
      intro hle
      unfold fromReader at hfr
      rcases he : readFrom (t.read m env) 0 (Reader.new { data := data }) with ⟨x | e | _, r⟩
      · rw [he] at hfr
        simp at hfr
        obtain ⟨rfl, rfl⟩ := hfr
        obtain ⟨hg, hd, _⟩ := readFrom_follows (Ty.follows m t env ht) 0 _ _ _ (new_good data) he
        have hdat : r.inner.data = data := hd
        have hin := hg.within (by rw [hdat]; exact hle)
        rw [hdat] at hin
        have := hg.pos_eq
        omega
      · rw [he] at hfr; simp at hfr
      · rw [he] at hfr; simp at hfr
    simp only
    constructor
    · intro h
      split at h
      · simp at h
      · split at h
        · simp at h
        · simp at h
          rw [h, show n = 8 * data.length by omega]
    · intro h
      simp at h
      obtain ⟨rfl, rfl⟩ := h
      rw [if_neg (by omega), if_neg (by omega)]
  · simp
  · simp

/-- **C45.** If a whole byte or more is left over, `TryFrom` reports an error. -/
theorem C45_leftover_is_an_error (m : Machine) (t : Ty) (env : Env) (data : List Byte) (n : Nat) (v : Val)
    (h : fromReader (t.read m env) { data := data } 0 = .ok (n, v)) (hn : n / 8 < data.length) :
    tryFrom (t.read m env) data = .err .parse := by
  unfold tryFrom
  rw [h]
  simp only [if_pos hn]

/-- What is written for a value that fits is read back by `from_reader`. -/
theorem SoundOn.fromReader {f : M Reader Val} {g : M Writer Unit} {v : Val} {Q : Nat → Prop}
    (h : SoundOn o (· = 0) f g v Q) {out : List Byte} (hout : toBytes g = .ok out) :
    ∃ n, n ≤ 8 * out.length ∧ 8 * out.length < n + 8 ∧ Q n ∧
      Deku.fromReader f { data := out } 0 = .ok (n, v) := by
  obtain ⟨w, hw⟩ := toBytes_accepted hout
  obtain ⟨bits, hW, hR, hq⟩ := h 0 _ _ rfl (Writer.new_at o) hw
  obtain ⟨out', ho', hbits⟩ := hW.toBytes
  rw [hout] at ho'
  simp at ho'
  subst ho'
  have hlen := congrArg List.length hbits
  rw [length_orderBits, List.length_append, List.length_replicate] at hlen
  obtain ⟨r', e, hb, _⟩ := hR.fromBytes hbits
  refine ⟨bits.length, by omega, by omega, by simpa using hq, ?_⟩
  unfold Deku.fromReader
  rw [readFrom_zero, e]
  simp only [hb]

/-- **C45 (partial).** `TryFrom` accepts the output of `to_bytes`, if the message is whole bytes.
Missing: messages whose size is not a multiple of 8 bits, which are rejected
(`C45_partial_byte_is_rejected`). -/
theorem C45_accepts_what_was_written_partial (m : Machine) (t : Ty) (env : Env) (v : Val)
    (h : t.Fits m o (· = 0) (fun n => n % 8 = 0) env v) (out : List Byte)
    (hout : toBytes (t.write m env v) = .ok out) : tryFrom (t.read m env) out = .ok v := by
  obtain ⟨n, h1, h2, h3, h4⟩ := (Ty.sound m o _ _ _ _ _ h).fromReader hout
  unfold tryFrom
  rw [h4]
  simp only
  rw [if_neg (by omega), if_neg (by omega)]

/-- **C45 counterexample.** For every value whose message is not whole bytes, `TryFrom` rejects the
output of `to_bytes` with "Too much data". -/
theorem C45_partial_byte_is_rejected (m : Machine) (t : Ty) (env : Env) (v : Val)
    (h : t.Fits m o (· = 0) (fun n => n % 8 ≠ 0) env v) (out : List Byte)
    (hout : toBytes (t.write m env v) = .ok out) : tryFrom (t.read m env) out = .err .parse := by
  obtain ⟨n, h1, h2, h3, h4⟩ := (Ty.sound m o _ _ _ _ _ h).fromReader hout
  exact C45_leftover_is_an_error m t env out n v h4 (by omega)

/-- A 4-bit number is such a value. -/
example : u4T.Fits mach .msb0 (· = 0) (fun n => n % 8 ≠ 0) {} (.num 9) ∧
    toBytes (u4T.write mach {} (.num 9)) = .ok [0x90] := by
  refine ⟨?_, by decide +kernel⟩
  simp only [u4T, Ty.Fits]
  refine (uint_sound_msb (e := .little) (n := 4) (by decide) rfl (by decide) (by decide) (.inl rfl)).mono
    (fun _ h => h) ?_
  rintro _ ⟨p, rfl, rfl⟩
  decide

theorem C45_four_bits_are_rejected : tryFrom (u4T.read mach {}) [0x90] = .err .parse := by decide +kernel

/-- A packet of whole bytes is accepted, a packet with an extra byte is not. -/
example : tryFrom (packet.read mach {}) [0xab, 0x30, 1, 0, 5, 0, 9] = .ok (packetValue [5] .none) ∧
    tryFrom (packet.read mach {}) [0xab, 0x30, 1, 0, 5, 0, 9, 0] = .err .parse ∧
    tryFrom (packet.read mach {}) [0xab, 0x30, 1, 0, 5, 0] = .err (.incomplete 4) := by
  refine ⟨?_, ?_, ?_⟩ <;> decide +kernel

end Deku
