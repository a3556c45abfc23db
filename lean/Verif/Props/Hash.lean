import Verif.Lemmas.Hash
import Verif.Lemmas.Examples

/-!
# C96: maps and sets in fields round-trip in whatever order the hasher goes through them

`iter` is the order of the iterator; all that is assumed is that it goes through every entry once.
-/

namespace Deku

open Coll Example

section
variable {m : Machine} {o : Order} {l : LimitE} {k t : Ty} {env : Env} {P Q R : Nat → Prop} {v : Val} {sz : Option Nat}

/-! ## What the value of a map is -/

/-- **C96.** Two maps have the same value if and only if they give the same answer for every key. -/
theorem C96_same_map_iff_same_lookup (es es' : List (Val × Val)) (h : (es.map (·.1)).Nodup) (h' : (es'.map (·.1)).Nodup) :
    mapVal es = mapVal es' ↔ ∀ key, es.lookup key = es'.lookup key := by
  rw [mapVal_eq_iff, perm_iff_lookup h h']

example : mapVal [(.num 7, .num 1), (.num 2, .num 5)] = mapVal [(.num 2, .num 5), (.num 7, .num 1)] :=
  (C96_same_map_iff_same_lookup _ _ (by decide) (by decide)).mpr fun key => by
    by_cases h7 : key = .num 7
    · subst h7; decide
    · by_cases h2 : key = .num 2
      · subst h2; decide
      · have e7 : (key == Val.num 7) = false := by simpa using h7
        have e2 : (key == Val.num 2) = false := by simpa using h2
        simp [List.lookup_cons, e7, e2]

/-- **C96.** Two sets have the same value if and only if they have the same elements. -/
theorem C96_same_set_iff_same_elements (s s' : List Val) (h : s.Nodup) (h' : s'.Nodup) :
    setVal s = setVal s' ↔ ∀ x, x ∈ s ↔ x ∈ s' := by
  rw [setVal_eq_iff, List.perm_ext_iff_of_nodup h h']

example : setVal [.num 7, .num 2] = setVal [.num 2, .num 7] :=
  (C96_same_set_iff_same_elements _ _ (by decide) (by decide)).mpr fun x => by simp [or_comm]

/-! ## Reading -/

/-- **C96.** A field of a map type reads what a list of pairs with the same limit reads, and makes a map of it: the value
of a key is the one that came last. -/
theorem C96_map_field_reads_a_list_of_pairs (iter : List (Val × Val) → List (Val × Val)) (size : Nat) (hz : size ≠ 0)
    (r : Reader) :
    (∀ x r', (Ty.prim sz (mapCodec m l k t iter)).read m env r = (.ok x, r') →
      ∃ es : List (Val × Val), (Ty.vec size l (.pair k t)).read m env r = (.ok (.ofList (es.map pairVal)), r') ∧ x.isMap = true ∧
        ∀ key, x.entries.lookup key = (es.reverse.find? (fun e => decide (e.1 = key))).map (·.2)) ∧
    (∀ x r', (Ty.vec size l (.pair k t)).read m env r = (.ok x, r') →
      ∃ y, (Ty.prim sz (mapCodec m l k t iter)).read m env r = (.ok y, r')) ∧
    (∀ e r', (Ty.prim sz (mapCodec m l k t iter)).read m env r = (.err e, r') ↔
      (Ty.vec size l (.pair k t)).read m env r = (.err e, r')) ∧
    (∀ r', (Ty.prim sz (mapCodec m l k t iter)).read m env r = (.panic, r') ↔
      (Ty.vec size l (.pair k t)).read m env r = (.panic, r')) := by
  rw [Ty.read, mapCodec_read m l k t env iter size hz]
  rcases e : (Ty.vec size l (.pair k t)).read m env r with ⟨v | _ | _, r1⟩
  · rw [M.bind_ok e]
    refine ⟨?_, fun x r' h => ?_, fun _ _ => ⟨fun h => (by cases h), fun h => (by cases h)⟩,
      fun _ => ⟨fun h => (by cases h), fun h => (by cases h)⟩⟩
    · intro x r' h
      cases h
      obtain ⟨es, rfl⟩ := vec_pairs_read e
      refine ⟨es, rfl, ?_, fun key => ?_⟩
      · exact isMap_mapVal (nodup_insertAll _ _ List.nodup_nil)
      · have hE : (Val.ofList (es.map pairVal)).entries = es := by rw [Val.entries, elems_ofList, map_asPair]
        rw [mapOf, hE]
        have hn := nodup_insertAll es [] List.nodup_nil
        have hp := entries_mapVal (insertAll [] es)
        rw [(perm_iff_lookup ((hp.map _).nodup_iff.mpr hn) hn).mp hp key, lookup_insertAll]
        simp [lastValue]
    · cases h
      exact ⟨_, rfl⟩
  · rw [M.bind_err e]
    exact ⟨fun x r' h => (by cases h), fun x r' h => (by cases h), fun _ _ => ⟨fun h => (by cases h; rfl), fun h => (by cases h; rfl)⟩,
      fun _ => ⟨fun h => (by cases h), fun h => (by cases h)⟩⟩
  · rw [M.bind_panic e]
    exact ⟨fun x r' h => (by cases h), fun x r' h => (by cases h), fun _ _ => ⟨fun h => (by cases h), fun h => (by cases h)⟩,
      fun _ => ⟨fun h => (by cases h; rfl), fun h => (by cases h; rfl)⟩⟩

/-- **C96.** Likewise for sets. -/
theorem C96_set_field_reads_a_list (iter : List Val → List Val) (size : Nat) (hz : size ≠ 0) (r : Reader) :
    (∀ x r', (Ty.prim sz (setCodec m l t iter)).read m env r = (.ok x, r') →
      ∃ y, (Ty.vec size l t).read m env r = (.ok y, r') ∧ x.isSet = true ∧ ∀ a, a ∈ x.elems ↔ a ∈ y.elems) ∧
    (∀ x r', (Ty.vec size l t).read m env r = (.ok x, r') →
      ∃ y, (Ty.prim sz (setCodec m l t iter)).read m env r = (.ok y, r')) ∧
    (∀ e r', (Ty.prim sz (setCodec m l t iter)).read m env r = (.err e, r') ↔
      (Ty.vec size l t).read m env r = (.err e, r')) ∧
    (∀ r', (Ty.prim sz (setCodec m l t iter)).read m env r = (.panic, r') ↔
      (Ty.vec size l t).read m env r = (.panic, r')) := by
  rw [Ty.read, setCodec_read m l t env iter size hz]
  rcases e : (Ty.vec size l t).read m env r with ⟨v | _ | _, r1⟩
  · rw [M.bind_ok e]
    refine ⟨?_, fun x r' h => ?_, fun _ _ => ⟨fun h => (by cases h), fun h => (by cases h)⟩,
      fun _ => ⟨fun h => (by cases h), fun h => (by cases h)⟩⟩
    · intro x r' h
      cases h
      refine ⟨v, rfl, isSet_setVal (nodup_setInsertAll _ _ List.nodup_nil), fun a => ?_⟩
      rw [setOf, (elems_setVal _).mem_iff, mem_setInsertAll]
      simp
    · cases h
      exact ⟨_, rfl⟩
  · rw [M.bind_err e]
    exact ⟨fun x r' h => (by cases h), fun x r' h => (by cases h), fun _ _ => ⟨fun h => (by cases h; rfl), fun h => (by cases h; rfl)⟩,
      fun _ => ⟨fun h => (by cases h), fun h => (by cases h)⟩⟩
  · rw [M.bind_panic e]
    exact ⟨fun x r' h => (by cases h), fun x r' h => (by cases h), fun _ _ => ⟨fun h => (by cases h), fun h => (by cases h)⟩,
      fun _ => ⟨fun h => (by cases h; rfl), fun h => (by cases h; rfl)⟩⟩

/-! ## Round trip -/

/-- **C96.** If the entries, in the order of the iterator, fit a list of pairs, then the map fits the field. With C36, a
definition that contains it reads back what it writes. -/
theorem C96_map_fits_if_its_entries_fit (iter : List (Val × Val) → List (Val × Val)) (hi : (iter v.entries).Perm v.entries)
    (hv : v.isMap = true) (size : Nat) (hz : size ≠ 0)
    (h : (Ty.vec size l (.pair k t)).Fits m o P Q env (.ofList ((iter v.entries).map pairVal))) :
    (Ty.prim sz (mapCodec m l k t iter)).Fits m o P Q env v := by
  rw [Ty.Fits, mapCodec_read m l k t env iter size hz, mapCodec_write m l k t env iter size hv]
  intro p w w' hp hw he
  obtain ⟨bits, h1, h2, h3⟩ := Ty.sound m o _ _ _ _ _ h p w w' hp hw he
  refine ⟨bits, h1, ?_, h3⟩
  have := h2.map mapOf
  rwa [mapOf_iter hv hi] at this

/-- **C96.** Likewise for sets. -/
theorem C96_set_fits_if_its_elements_fit (iter : List Val → List Val) (hi : (iter v.elems).Perm v.elems)
    (hv : v.isSet = true) (size : Nat) (hz : size ≠ 0)
    (h : (Ty.vec size l t).Fits m o P Q env (.ofList (iter v.elems))) :
    (Ty.prim sz (setCodec m l t iter)).Fits m o P Q env v := by
  rw [Ty.Fits, setCodec_read m l t env iter size hz, setCodec_write m l t env iter size hv]
  intro p w w' hp hw he
  obtain ⟨bits, h1, h2, h3⟩ := Ty.sound m o _ _ _ _ _ h p w w' hp hw he
  refine ⟨bits, h1, ?_, h3⟩
  have := h2.map setOf
  rwa [setOf_iter hv hi] at this

/-- **C96.** A map with a count fits, whatever the order of the iterator: the count is the number of entries, keys fit and
values fit. -/
theorem C96_counted_map_fits (iter : List (Val × Val) → List (Val × Val)) (hi : (iter v.entries).Perm v.entries)
    (hv : v.isMap = true) (n : Env → Int) (hn : n env = v.entries.length) (hm : v.entries.length ≤ m.mem)
    (h64 : n env < 2 ^ 64) (S : Nat → Prop)
    (hk : ∀ e ∈ v.entries, k.Fits m o R S env e.1) (ht : ∀ e ∈ v.entries, t.Fits m o S R env e.2) :
    (Ty.prim sz (mapCodec m (.count n) k t iter)).Fits m o R R env v := by
  refine C96_map_fits_if_its_entries_fit iter hi hv 1 (by omega) ?_
  simp only [Ty.Fits, elems_ofList, List.length_map, hi.length_eq]
  refine ⟨R, fun _ h => h, fun x hx => ?_, fun _ h => h, by omega, hm, ⟨by rw [List.length_map, hi.length_eq, hn], h64⟩, fun h => by simp [LimitE.isSize] at h⟩
  obtain ⟨e, he, rfl⟩ := List.mem_map.mp hx
  exact ⟨e.1, e.2, S, rfl, hk e (hi.mem_iff.mp he), ht e (hi.mem_iff.mp he)⟩

/-- **C96.** Likewise for sets. -/
theorem C96_counted_set_fits (iter : List Val → List Val) (hi : (iter v.elems).Perm v.elems) (hv : v.isSet = true)
    (n : Env → Int) (hn : n env = v.elems.length) (hm : v.elems.length ≤ m.mem) (h64 : n env < 2 ^ 64)
    (ht : ∀ e ∈ v.elems, t.Fits m o R R env e) :
    (Ty.prim sz (setCodec m (.count n) t iter)).Fits m o R R env v := by
  refine C96_set_fits_if_its_elements_fit iter hi hv 1 (by omega) ?_
  simp only [Ty.Fits, elems_ofList, hi.length_eq]
  exact ⟨R, fun _ h => h, fun x hx => ht x (hi.mem_iff.mp hx), fun _ h => h, by omega, hm, ⟨by rw [hi.length_eq, hn], h64⟩,
    fun h => by simp [LimitE.isSize] at h⟩

/-- **C96.** A map with a size in bits fits, whatever the order of the iterator: entry `e` takes `w e` bits, at least one,
and the size is their sum. -/
theorem C96_sized_map_fits (iter : List (Val × Val) → List (Val × Val)) (hi : (iter v.entries).Perm v.entries)
    (hv : v.isMap = true) (n : Env → Int) (w : Val × Val → Nat) (hn : n env = (v.entries.map w).sum) (h64 : n env < 2 ^ 64)
    (hm : v.entries.length ≤ m.mem) (S : Nat → Prop)
    (hk : ∀ e ∈ v.entries, k.Fits m o R S env e.1) (ht : ∀ e ∈ v.entries, t.Fits m o S R env e.2)
    (hw : ∀ e ∈ v.entries, 0 < w e ∧ ∀ p bits, R p → Writes o p ((Ty.pair k t).write m env (pairVal e)) bits → bits.length = w e) :
    (Ty.prim sz (mapCodec m (.bits n) k t iter)).Fits m o R R env v := by
  refine C96_map_fits_if_its_entries_fit iter hi hv 1 (by omega) ?_
  have hf : ∀ e ∈ iter v.entries, (Ty.pair k t).Fits m o R R env (pairVal e) := fun e he => by
    rw [Ty.Fits]
    exact ⟨e.1, e.2, S, rfl, hk e (hi.mem_iff.mp he), ht e (hi.mem_iff.mp he)⟩
  rw [Ty.Fits]
  simp only [elems_ofList, List.length_map, hi.length_eq]
  refine ⟨R, fun _ h => h, fun x hx => ?_, fun _ h => h, by omega, hm, ⟨(v.entries.map w).sum, hn, by omega, ?_⟩, fun _ x hx p bits hp hb => ?_⟩
  · obtain ⟨e, he, rfl⟩ := List.mem_map.mp hx
    exact hf e he
  · rintro p n hp ⟨bits, hb, rfl⟩
    rw [← (hi.map w).sum_nat]
    exact writeAll_length (fun e he => Ty.sound m o _ _ _ _ _ (hf e he)) (fun e he => (hw e (hi.mem_iff.mp he)).2) hp hb
  · obtain ⟨e, he, rfl⟩ := List.mem_map.mp hx
    have h1 := hw e (hi.mem_iff.mp he)
    have h2 := h1.2 p bits hp hb
    intro h0
    rw [h0] at h2
    have := h1.1
    simp at h2
    omega

/-- Two entries of two bytes each. -/
example (iter : List (Val × Val) → List (Val × Val)) (hi : ∀ l, (iter l).Perm l) :
    (Ty.prim none (mapCodec mach (.bits fun _ => 32) u8T u8T iter)).Fits mach .msb0 any any {}
      (mapVal [(.num 1, .num 7), (.num 2, .num 9)]) := by
  refine C96_sized_map_fits iter (hi _) (by decide) _ (fun _ => 16) (by decide) (by decide) (by decide) any
    (fun _ _ => u8_fits any_all) (fun _ _ => u8_fits any_all) fun e _ => ⟨by omega, fun p bits _ hb => ?_⟩
  have hf : (Ty.pair u8T u8T).Fits mach .msb0 (· = p) (shift (shift (· = p) 8) 8) {} (pairVal e) := by
    simp only [Ty.Fits]
    exact ⟨e.1, e.2, _, rfl, uint_sound_msb (e := .little) (n := 8) (by decide) rfl (by decide) (by decide) (.inr (.inl rfl)),
      uint_sound_msb (e := .little) (n := 8) (by decide) rfl (by decide) (by decide) (.inr (.inl rfl))⟩
  obtain ⟨a, ha⟩ := Writer.exists_at .msb0 p
  obtain ⟨a', h1, _⟩ := hb a ha
  obtain ⟨b, h2, _, q, ⟨q', rfl, rfl⟩, h4⟩ := Ty.sound mach .msb0 _ _ _ _ _ hf p a a' rfl ha h1
  rw [hb.unique h2]
  omega

end

/-! ## Messages -/

/-- `struct { n: u8, #[deku(count = "n")] m: HashMap<u8, u8>, k: u8, #[deku(count = "k")] s: HashSet<u8> }` -/
def hashed (iter : List (Val × Val) → List (Val × Val)) (iter' : List Val → List Val) : Ty :=
  .struct (fun _ => []) none [] <|
  .cons {} u8T <| .cons {} (.prim none (mapCodec mach (.count (var 0)) u8T u8T iter)) <|
  .cons {} u8T <| .cons {} (.prim none (setCodec mach (.count (var 0)) u8T iter')) .nil

def hashedValue (es : List (Val × Val)) (s : List Val) : Val :=
  .ofList [.num es.length, mapVal es, .num s.length, setVal s]

/-- **C96.** A message with a map and a set, written with one pair of hashers, is read with another, whatever orders they
go in. -/
theorem C96_message_round_trip (iter iter2 : List (Val × Val) → List (Val × Val)) (iter' iter2' : List Val → List Val)
    (hi : ∀ l, (iter l).Perm l) (hi' : ∀ l, (iter' l).Perm l)
    (es : List (Val × Val)) (s : List Val) (hes : (es.map (·.1)).Nodup) (hs : s.Nodup) (h1 : es.length < 256) (h2 : s.length < 256)
    (out : List Byte) (hout : toBytes ((hashed iter iter').write mach {} (hashedValue es s)) = .ok out) :
    ∃ n, n ≤ 8 * out.length ∧ 8 * out.length < n + 8 ∧
      ∀ extra, fromBytes ((hashed iter2 iter2').read mach {}) (out ++ extra) 0 =
        .ok (((out ++ extra).drop (n / 8), n % 8), hashedValue es s) := by
  have hf : (hashed iter iter').Fits mach .msb0 (· = 0) any {} (hashedValue es s) := by
    simp only [hashed, hashedValue, Ty.Fits, Fields.Fits, Val.ofList]
    have e1 := (entries_mapVal es).length_eq
    have e2 := (elems_setVal s).length_eq
    refine ⟨trivial, .inl trivial, _, _, any, rfl, plain (u8_fits any_all), _, _, any, rfl, plain ?_, _, _, any, rfl, plain (u8_fits any_all), _, _, any, rfl, plain ?_, fun _ _ => trivial⟩
    · have := C96_counted_map_fits (m := mach) (o := .msb0) (k := u8T) (t := u8T) (sz := none) (R := any) (v := mapVal es)
        (env := (({ } : Env).push (.num es.length)).at 0) iter (hi _) (isMap_mapVal hes) (var 0) (by rw [e1]; rfl) (by rw [e1]; simp [mach]; omega)
        (by show ((es.length : Nat) : Int) < 2 ^ 64; omega) any (fun _ _ => u8_fits any_all) (fun _ _ => u8_fits any_all)
      rw [Ty.Fits] at this
      exact this.mono (fun _ _ => trivial) (fun _ h => h)
    · have := C96_counted_set_fits (m := mach) (o := .msb0) (t := u8T) (sz := none) (R := any) (v := setVal s)
        (env := (((({ } : Env).push (.num es.length)).push (mapVal es)).push (.num s.length)).at 0) iter' (hi' _) (isSet_setVal hs) (var 0) (by rw [e2]; rfl) (by rw [e2]; simp [mach]; omega)
        (by show ((s.length : Nat) : Int) < 2 ^ 64; omega) (fun _ _ => u8_fits any_all)
      rw [Ty.Fits] at this
      exact this.mono (fun _ _ => trivial) (fun _ h => h)
  obtain ⟨n, a, b, _, c⟩ := (Ty.sound mach .msb0 _ _ _ _ _ hf).round_trip hout
  exact ⟨n, a, b, c⟩

example : toBytes ((hashed List.reverse id).write mach {} (hashedValue [(.num 1, .num 7), (.num 2, .num 9)] [.num 5])) =
    .ok [2, 2, 9, 1, 7, 1, 5] := by decide +kernel

/-! ## What does not hold -/

/-- What was parsed is not written as the bytes it was parsed from: the order of the entries is lost. -/
theorem C96_order_of_the_entries_is_lost (iter : List (Val × Val) → List (Val × Val)) (iter' : List Val → List Val) :
    ∃ a b v, a ≠ b ∧ fromBytes ((hashed iter iter').read mach {}) a 0 = .ok (([], 0), v) ∧
      fromBytes ((hashed iter iter').read mach {}) b 0 = .ok (([], 0), v) := by
  have h : (hashed iter iter').read mach {} = (hashed id id).read mach {} := rfl
  rw [h]
  exact ⟨[2, 1, 7, 2, 9, 0], [2, 2, 9, 1, 7, 0], hashedValue [(.num 1, .num 7), (.num 2, .num 9)] [], by decide, by decide +kernel, by decide +kernel⟩

/-- A message with a key twice is parsed, but what is then written has the count of the message and fewer entries: it
cannot be parsed. -/
theorem C96_repeated_key_is_not_written_back :
    fromBytes ((hashed id id).read mach {}) [2, 1, 2, 1, 3, 0] 0 =
      .ok (([], 0), .ofList [.num 2, mapVal [(.num 1, .num 3)], .num 0, .nil]) ∧
    toBytes ((hashed id id).write mach {} (.ofList [.num 2, mapVal [(.num 1, .num 3)], .num 0, .nil])) = .ok [2, 1, 3, 0] ∧
    fromBytes ((hashed id id).read mach {}) [2, 1, 3, 0] 0 = .err (.incomplete 8) := by
  refine ⟨?_, ?_, ?_⟩ <;> decide +kernel

/-- `struct { #[deku(until = "|(k, _)| *k == 0")] m: HashMap<u8, u8>, last: u8 }` -/
def hashedUntil (iter : List (Val × Val) → List (Val × Val)) : Ty :=
  .struct (fun _ => []) none [] <|
  .cons {} (.prim none (mapCodec mach (.until fun _ seen => decide (seen.head?.map (·.asPair.1) = some (.num 0))) u8T u8T iter)) <|
  .cons {} u8T .nil

/-- With `until` it depends on the hasher whether a map is read back: the entry that ends the list has to be the last one
the iterator gives. -/
theorem C96_until_depends_on_the_hasher :
    let v := Val.ofList [mapVal [(.num 0, .num 9), (.num 5, .num 6)], .num 1]
    toBytes ((hashedUntil List.reverse).write mach {} v) = .ok [5, 6, 0, 9, 1] ∧
    fromBytes ((hashedUntil List.reverse).read mach {}) [5, 6, 0, 9, 1] 0 = .ok (([], 0), v) ∧
    toBytes ((hashedUntil id).write mach {} v) = .ok [0, 9, 5, 6, 1] ∧
    fromBytes ((hashedUntil id).read mach {}) [0, 9, 5, 6, 1] 0 =
      .ok (([6, 1], 0), .ofList [mapVal [(.num 0, .num 9)], .num 5]) := by
  refine ⟨?_, ?_, ?_, ?_⟩ <;> decide +kernel

end Deku
