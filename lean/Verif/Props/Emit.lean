import Verif.Lemmas.Emit

/-! # Attributes that are accepted and have no effect -/

namespace Deku.Emit

/-! ## C101 -/

/-- **C101.** An attribute that is accepted on a field has no effect on the code, whatever is written in it, in exactly
these cases:

* `endian`, `bits`, `bytes` and `ctx`, if the type of the field gets arguments neither when it is read nor when it is
  written; `bit_order` likewise, unless there are paddings;
* `count`, `bytes_read`, `read_all`, `until` and `bits_read` on a field that is not read, or read by a `reader`; `until`
  beside `count` or `bytes_read`; `bits_read` beside `until`;
* `map` and `reader` on a field that is not read, `writer` and `temp_value` on one that is not written;
* `default` with `skip(write)`, `update` with `temp`, `temp_value` without `temp`. -/
theorem C101_what_has_no_effect (s : Site) (a : Attr) (f : Written) (hf : f.accepted = true) (ha : (f a).isSome = true) :
    Idle (emit s) a f ↔ Unused s f a :=
  (idle_emit s a f hf ha).trans (unused_iff s a f)

/-- **C101.** The same for reading alone. -/
theorem C101_what_has_no_effect_on_reading (s : Site) (a : Attr) (f : Written) (hf : f.accepted = true)
    (ha : (f a).isSome = true) : Idle (reading s) a f ↔ UnusedReading s f a :=
  idle_reading s a f hf ha

/-- **C101.** The same for writing alone. -/
theorem C101_what_has_no_effect_on_writing (s : Site) (a : Attr) (f : Written) (hf : f.accepted = true)
    (ha : (f a).isSome = true) : Idle (writing s) a f ↔ UnusedWriting f a :=
  idle_writing s a f hf ha

/-- **C101.** The same for `update` alone. -/
theorem C101_what_has_no_effect_on_update (a : Attr) (f : Written) (hf : f.accepted = true) (ha : (f a).isSome = true) :
    Idle updating a f ↔ UnusedUpdating f a :=
  idle_updating a f hf ha

/-- **C101.** On a field that is not skipped, not temporary, has no `reader` and no `writer`, and whose elements are
not limited by `until` and something else at once, every attribute that is accepted has an effect, except `temp_value`.
Another text gives other code, or the code without the attribute is another. -/
theorem C101_every_attribute_has_an_effect_partial (s : Site) (a : Attr) (f : Written) (hf : f.accepted = true)
    (ha : (f a).isSome = true) (hk : f .skip = none) (ht : f .temp = none) (hr : f .reader = none) (hw : f .writer = none)
    (hu : f .until ≠ none → f .count = none ∧ f .bytesRead = none ∧ f .bitsRead = none) (hv : a ≠ .tempValue) :
    ∃ g : Written, g.accepted = true ∧ (∀ b, b ≠ a → g b = f b) ∧ emit s g ≠ emit s f := by
  have h : ¬ Idle (emit s) a f := by
    rw [C101_what_has_no_effect s a f hf ha]
    cases a <;> simp_all [Unused, NoReadArgs, NotReadByType, NotWrittenByType, NeverRead, NeverWritten, Has] <;> grind
  simp only [Idle] at h
  grind

/-- **C101.** The sizes and orders of a field with `skip(read)` or a `reader` still count when it is written, and the
other way round: such an attribute is without effect in one direction only exactly if the type of the field is asked in
the other one. -/
theorem C101_one_sided_attributes (s : Site) (a : Attr) (h : a ∈ [Attr.endian, .bits, .bytes, .ctx]) (f : Written)
    (hf : f.accepted = true) (ha : (f a).isSome = true) :
    (Idle (reading s) a f ∧ ¬ Idle (writing s) a f ↔ NoReadArgs s f ∧ ¬ NotWrittenByType f) ∧
      (Idle (writing s) a f ∧ ¬ Idle (reading s) a f ↔ NotWrittenByType f ∧ ¬ NoReadArgs s f) := by
  rw [idle_reading s a f hf ha, idle_writing s a f hf ha]
  simp only [List.mem_cons, List.not_mem_nil, or_false] at h
  rcases h with rfl | rfl | rfl | rfl <;> simp only [UnusedReading, UnusedWriting, and_self]

/-- **C101.** The field that stores the id of a variant with `id_pat` may have no attributes but a `reader` and what is
beside it. -/
theorem C101_a_stored_id_has_no_attributes (s : Site) (f : Written) (hf : f.accepted = true) (hr : f .reader = none)
    (h : storedReading s f ≠ none) (a : Attr) : f a = none := by
  have hs : f.anySet = false := by
    simp only [storedReading, hr] at h
    cases hs : f.anySet <;> simp_all
  simp only [Written.anySet, Bool.or_eq_false_iff, Option.isSome_eq_false_iff, Option.isNone_iff_eq_none] at hs
  have hd : f .default = none := by
    simp only [Written.accepted] at hf
    cases hd : f .default <;> simp_all
  cases a <;> simp [hs, hd]

/-- **C101.** The seeks of an enum are all without effect. On a struct several are accepted, and one is without effect
exactly if one of a higher rank is there: `seek_from_current`, `seek_from_end`, `seek_from_start`, `seek_rewind`. -/
theorem C101_seeks_of_types (isEnum : Bool) (a : Attr) (h : a ∈ [Attr.seekCurrent, .seekEnd, .seekStart, .seekRewind])
    (f : Written) (ha : (f a).isSome = true) :
    (∀ g : Written, (∀ b, b ≠ a → g b = f b) → containerSeek g isEnum = containerSeek f isEnum) ↔
      isEnum = true ∨ ∃ b ∈ hiders a, (f b).isSome = true := by
  constructor
  · intro h'
    cases isEnum
    · refine .inr ?_
      have := h' (f.set a none) (f.set_ne a none)
      simp only [containerSeek, Bool.false_eq_true, if_false, seekOf] at this
      simp only [List.mem_cons, List.not_mem_nil, or_false] at h
      rcases h with rfl | rfl | rfl | rfl <;>
        simp only [Written.set, reduceCtorEq, dite_false] at this <;> simp only [hiders] <;>
        cases h1 : f .seekCurrent <;> cases h2 : f .seekEnd <;> cases h3 : f .seekStart <;> cases h4 : f .seekRewind <;>
        simp_all
    · exact .inl rfl
  · rintro (rfl | ⟨b, hb, hs⟩) g e
    · rfl
    · cases isEnum
      · simp only [containerSeek, Bool.false_eq_true, if_false, seekOf]
        simp only [List.mem_cons, List.not_mem_nil, or_false] at h
        rcases h with rfl | rfl | rfl | rfl <;> simp only [hiders, List.mem_cons, List.not_mem_nil, or_false] at hb <;>
          simp only [ne_eq, reduceCtorEq, not_false_eq_true, e]
        · subst hb
          cases h1 : f .seekCurrent <;> simp_all
        · rcases hb with rfl | rfl <;> cases h1 : f .seekCurrent <;> cases h2 : f .seekEnd <;> simp_all
        · rcases hb with rfl | rfl | rfl <;> cases h1 : f .seekCurrent <;> cases h2 : f .seekEnd <;>
            cases h3 : f .seekStart <;> simp_all
      · rfl

/-! ### Examples -/

/-- **C101.** The padding of a field is read and written with the texts of its own four attributes: bits as bits, bytes as
bytes, before and after, in the order of the field, or else of the type. -/
theorem C101_padding_is_where_it_was_asked_for (s : Site) (f : Written) :
    (reading s f).before.bind (·.bits) = f .padBitsBefore ∧ (reading s f).before.bind (·.bytes) = f .padBytesBefore ∧
    (reading s f).after.bind (·.bits) = f .padBitsAfter ∧ (reading s f).after.bind (·.bytes) = f .padBytesAfter ∧
    (∀ p, (reading s f).before = some p ∨ (reading s f).after = some p → p.order = (f .bitOrder).or s.order) ∧
    (writing s f).before = (reading s f).before ∧ (writing s f).after = (reading s f).after := by
  have ho : orderOf s f = (f .bitOrder).or s.order := by
    unfold orderOf
    cases f .bitOrder <;> rfl
  simp only [reading, writing, beforeOf, afterOf, ho]
  refine ⟨?_, ?_, ?_, ?_, ?_, trivial, trivial⟩
  · cases f .padBitsBefore <;> cases f .padBytesBefore <;> rfl
  · cases f .padBitsBefore <;> cases f .padBytesBefore <;> rfl
  · cases f .padBitsAfter <;> cases f .padBytesAfter <;> rfl
  · cases f .padBitsAfter <;> cases f .padBytesAfter <;> rfl
  · intro p hp
    rcases hp with hp | hp <;> unfold padCode at hp <;> split at hp <;> simp at hp <;> rw [← hp]

namespace EmitExample

/-- No attributes. -/
def bare : Written := fun _ => none

/-- `#[deku(count = "n", bits = 4)]` -/
def nibbles : Written := (bare.set .count (some "n")).set .bits (some "4")

/-- `#[deku(skip, endian = "big")]` -/
def skipped : Written := (bare.set .skip (some .all)).set .endian (some "big")

/-- `#[deku(temp_value = "self.data.len()")]` -/
def valued : Written := bare.set .tempValue (some "self.data.len()")

/-- `#[deku(skip(write), default = "1")]` -/
def defaulted : Written := (bare.set .skip (some .write)).set .default (some "1")

/-- `#[deku(reader = "r(deku::reader)", magic = b"x")]` -/
def ownReader : Written := (bare.set .reader (some "r(__deku_reader)")).set .magic (some "x")

end EmitExample

open EmitExample

/-- **C101** is false of the code: `temp_value` without `temp` is accepted and has no effect. -/
theorem C101_temp_value_without_temp : valued.accepted = true ∧ Idle (emit {}) .tempValue valued :=
  ⟨by decide, (C101_what_has_no_effect {} .tempValue valued (by decide) (by decide)).mpr (.inr (by decide))⟩

/-- **C101.** `default` with `skip(write)` is accepted, though it is never used. -/
theorem C101_default_with_skip_write : defaulted.accepted = true ∧ Idle (emit {}) .default defaulted :=
  ⟨by decide, (C101_what_has_no_effect {} .default defaulted (by decide) (by decide)).mpr (by show _ = _; decide)⟩

/-- **C101.** `bits` on a `Vec<u8>` with a `count` counts when it is written and not when it is read. -/
theorem C101_bits_of_bytes_are_one_sided (s : Site) (hs : s.vecU8 = true) :
    nibbles.accepted = true ∧ Idle (reading s) .bits nibbles ∧ ¬ Idle (writing s) .bits nibbles := by
  refine ⟨by decide, ((C101_one_sided_attributes s .bits (by decide) nibbles (by decide) (by decide)).1).mpr ?_⟩
  refine ⟨.inr ⟨hs, by decide⟩, ?_⟩
  rintro (⟨h, _⟩ | h | ⟨h, _⟩)
  · revert h; decide
  · revert h; decide
  · revert h; decide

/-- **C101.** With a `reader` the field that stores the id may have a magic value, which is read and not written: `DekuWrite`
looks at no attribute of that field. -/
theorem C101_a_stored_id_with_a_reader :
    ownReader.accepted = true ∧ (storedReading {} ownReader).map (·.magic) = some (some "x") ∧
      (storedWriting {} ownReader).magic = none := by decide

example : Idle (emit {}) .endian skipped :=
  (C101_what_has_no_effect {} .endian skipped (by decide) (by decide)).mpr
    ⟨.inl (.inl ⟨.inl (by decide), by decide⟩), .inl ⟨.inl (by decide), by decide⟩⟩

example : ¬ Idle (emit {}) .bits nibbles := by
  rw [C101_what_has_no_effect {} .bits nibbles (by decide) (by decide)]
  rintro ⟨_, ⟨h, _⟩ | h | ⟨h, _⟩⟩ <;> revert h <;> decide

example : ∃ g : Written, g.accepted = true ∧ (∀ b, b ≠ Attr.bits → g b = nibbles b) ∧ emit {} g ≠ emit {} nibbles :=
  C101_every_attribute_has_an_effect_partial {} .bits nibbles (by decide) (by decide) (by decide) (by decide) (by decide)
    (by decide) (by decide) (by decide)

example : Idle updating .bits nibbles :=
  (C101_what_has_no_effect_on_update .bits nibbles (by decide) (by decide)).mpr trivial

example : Idle (reading {}) .endian skipped ∧ Idle (writing {}) .endian skipped :=
  ⟨(C101_what_has_no_effect_on_reading {} .endian skipped (by decide) (by decide)).mpr
    (.inl (.inl ⟨.inl (by decide), by decide⟩)),
   (C101_what_has_no_effect_on_writing {} .endian skipped (by decide) (by decide)).mpr
    (.inl ⟨.inl (by decide), by decide⟩)⟩

example : bare.accepted = true ∧ bare .reader = none ∧ storedReading {} bare ≠ none := by decide

/-- `#[deku(seek_from_start = "4", seek_from_current = "1")]` on a struct. -/
example (g : Written)
    (e : ∀ b, b ≠ Attr.seekStart → g b = ((bare.set .seekStart (some "4")).set .seekCurrent (some "1")) b) :
    containerSeek g false = some (.current "1") :=
  ((C101_seeks_of_types false .seekStart (by decide) ((bare.set .seekStart (some "4")).set .seekCurrent (some "1"))
    (by decide)).mpr (.inr ⟨.seekCurrent, by decide, by decide⟩) g e).trans (by decide)

example : ((reading {} (bare.set .padBitsBefore (some "3"))).before.map fun p => (p.bits, p.bytes)) = some (some "3", none) := by
  decide

end Deku.Emit
