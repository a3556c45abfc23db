import Verif.Lemmas.Maps
import Verif.Props.Vec

/-!
# Properties of HashMap and HashSet: C34

A map is a list of entries, in any order, with distinct keys (`(m.map (·.1)).Nodup`); two maps are
equal when `lookup` agrees on every key. A set is a list without duplicates; two sets are equal when
they have the same members.
-/

namespace Deku

open Reader Writer Coll

variable {α β σ : Type} [DecidableEq α]

/-- **C34.** A map field consumes, fails and stops exactly as a `Vec` of its entries would (whatever
the limit); the entries read, `vs`, then make up the map: its keys are distinct, a key has the value
of its last entry, and there are at most as many entries as were read. -/
theorem C34_map_is_made_of_the_entries_read (f : M Reader (α × β)) (mem size : Nat) (hz : size ≠ 0)
    (l : Limit (α × β) σ) (r : Reader) :
    (∀ m r', mapRead mem f l r = (.ok m, r') → ∃ vs, vecRead mem size f l r = (.ok vs, r') ∧
      (m.map (·.1)).Nodup ∧ m.length ≤ vs.length ∧
      ∀ k, m.lookup k = (vs.reverse.find? (fun v => decide (v.1 = k))).map (·.2)) ∧
    (∀ vs r', vecRead mem size f l r = (.ok vs, r') → ∃ m, mapRead mem f l r = (.ok m, r')) ∧
    (∀ e r', mapRead mem f l r = (.err e, r') ↔ vecRead mem size f l r = (.err e, r')) ∧
    (∀ r', mapRead mem f l r = (.panic, r') ↔ vecRead mem size f l r = (.panic, r')) := by
  refine ⟨?_, ?_, ?_, ?_⟩
  · intro m r' h
    rw [mapRead_eq f mem size hz l r] at h
    obtain ⟨vs, r1, h1, h⟩ := M.bind_eq_ok h
    simp at h
    obtain ⟨rfl, rfl⟩ := h
    refine ⟨vs, h1, nodup_insertAll vs [] List.nodup_nil, by simpa using length_insertAll vs [], ?_⟩
    intro k
    rw [lookup_insertAll]
    simp [lastValue]
  · intro vs r' h
    rw [mapRead_eq f mem size hz l r, M.bind_ok h]
    exact ⟨_, rfl⟩
  · intro e r'
    rw [mapRead_eq f mem size hz l r, M.bind_def]
    cases h : vecRead mem size f l r with
    | mk x r1 => cases x <;> simp
  · intro r'
    rw [mapRead_eq f mem size hz l r, M.bind_def]
    cases h : vecRead mem size f l r with
    | mk x r1 => cases x <;> simp

/-- **C34**, reading `n` entries yields at most `n` entries. -/
theorem C34_map_at_most_count (I : Reader → Prop) (f : M Reader (α × β)) (hf : Forward I f)
    (mem n : Nat) (r r' : Reader) (hr : I r) (m : List (α × β))
    (h : mapRead (σ := σ) mem f (.count n) r = (.ok m, r')) : m.length ≤ n := by
  obtain ⟨vs, h1, _, hl, _⟩ :=
    (C34_map_is_made_of_the_entries_read (σ := σ) f mem 1 (by omega) (.count n) r).1 m r' h
  by_cases hm : n ≤ mem
  · rw [vecRead_count hf (by omega) hm hr] at h1
    rw [readN_length h1] at hl
    exact hl
  · rw [C27_large_count_panics f mem 1 n (by omega) (by omega) r] at h1
    simp at h1

/-- **C34**, round trip of maps: whatever the iteration order `m` in which the entries are written,
reading `m.length` of them back gives a map with distinct keys in which every key has the value it
has in `m`. -/
theorem C34_map_round_trip (I : Reader → Prop) (o : Order) (p : Nat) (f : M Reader α)
    (f' : M Reader β) (g : α → M Writer Unit) (g' : β → M Writer Unit)
    (hf : Forward I (pairRead f f')) (hI : ∀ r q, r.At q → I r) (mem : Nat) (m : List (α × β))
    (hn : (m.map (·.1)).Nodup) (hm : m.length ≤ mem)
    (hk : ∀ e ∈ m, ∀ q, Sound o q f (g e.1) e.1) (hv : ∀ e ∈ m, ∀ q, Sound o q f' (g' e.2) e.2)
    (w w' : Writer) (hw : w.At o p) (he : mapWrite g g' m w = (.ok (), w')) :
    ∃ bits m', Writes o p (mapWrite g g' m) bits ∧
      Reads o p (mapRead (σ := σ) mem (pairRead f f') (.count m.length)) bits m' ∧
      (m'.map (·.1)).Nodup ∧ m'.length = m.length ∧ ∀ k, m'.lookup k = m.lookup k := by
  have hs : ∀ e ∈ m, ∀ q, Sound o q (pairRead f f') (pairWrite g g' e) e :=
    fun e h q => C31_tuple_round_trip o q f f' g g' e (hk e h q) (hv e h)
  obtain ⟨bits, hW, hR⟩ := C27_round_trip_partial (σ := σ) I o p (pairRead f f') (pairWrite g g') hf hI
    mem 1 (by omega) m hm hs w w' hw he
  refine ⟨bits, m, hW, ?_, hn, rfl, fun _ => rfl⟩
  intro r rest hr hu
  obtain ⟨r', e, st⟩ := hR r rest hr hu
  refine ⟨r', ?_, st⟩
  rw [mapRead_eq _ mem 1 (by omega), M.bind_ok e]
  simp only [M.pure_run]
  rw [insertAll_nodup m [] (by simpa using hn)]
  rfl

example : ([(1, 10), (2, 20)].map (·.1)).Nodup := by decide
example : (mapRead (σ := Unit) 100 (pairRead nibbleElem nibbleElem) (.count 3)
    (Reader.new { data := [0x12#8, 0x34#8, 0x15#8] })).1 = .ok [(1, 5), (3, 4)] := by decide
example : toBytes (mapWrite (Prim.writeUnsigned .little 1 (.bits 4))
    (Prim.writeUnsigned .little 1 (.bits 4)) [(3, 4), (1, 5)]) = .ok [0x34#8, 0x15#8] := by decide
example : Forward Usable (pairRead nibbleElem nibbleElem) := by
  have hf := (nibbleElem_delivers.advances (by omega)).forward
  intro r a r' hr h
  simp only [pairRead] at h
  obtain ⟨x, r1, h1, h⟩ := M.bind_eq_ok h
  obtain ⟨y, r2, h2, h⟩ := M.bind_eq_ok h
  simp at h
  obtain ⟨_, rfl⟩ := h
  obtain ⟨hr1, l1⟩ := hf r x r1 hr h1
  obtain ⟨hr2, l2⟩ := hf r1 y r2 hr1 h2
  exact ⟨hr2, by omega⟩

/-- **C34**, sets: as a `Vec` of the elements; the members are the elements read. -/
theorem C34_set_is_made_of_the_elements_read (f : M Reader α) (mem size : Nat) (hz : size ≠ 0)
    (l : Limit α σ) (r : Reader) :
    (∀ s r', setRead mem f l r = (.ok s, r') → ∃ vs, vecRead mem size f l r = (.ok vs, r') ∧
      s.Nodup ∧ s.length ≤ vs.length ∧ ∀ x, x ∈ s ↔ x ∈ vs) ∧
    (∀ vs r', vecRead mem size f l r = (.ok vs, r') → ∃ s, setRead mem f l r = (.ok s, r')) ∧
    (∀ e r', setRead mem f l r = (.err e, r') ↔ vecRead mem size f l r = (.err e, r')) ∧
    (∀ r', setRead mem f l r = (.panic, r') ↔ vecRead mem size f l r = (.panic, r')) := by
  refine ⟨?_, ?_, ?_, ?_⟩
  · intro m r' h
    rw [setRead_eq f mem size hz l r] at h
    obtain ⟨vs, r1, h1, h⟩ := M.bind_eq_ok h
    simp at h
    obtain ⟨rfl, rfl⟩ := h
    refine ⟨vs, h1, nodup_setInsertAll vs [] List.nodup_nil,
      by simpa using length_setInsertAll vs [], ?_⟩
    intro x
    rw [mem_setInsertAll]
    simp
  · intro vs r' h
    rw [setRead_eq f mem size hz l r, M.bind_ok h]
    exact ⟨_, rfl⟩
  · intro e r'
    rw [setRead_eq f mem size hz l r, M.bind_def]
    cases h : vecRead mem size f l r with
    | mk x r1 => cases x <;> simp
  · intro r'
    rw [setRead_eq f mem size hz l r, M.bind_def]
    cases h : vecRead mem size f l r with
    | mk x r1 => cases x <;> simp

/-- **C34**, reading `n` elements yields at most `n` members. -/
theorem C34_set_at_most_count (I : Reader → Prop) (f : M Reader α) (hf : Forward I f)
    (mem n : Nat) (r r' : Reader) (hr : I r) (s : List α)
    (h : setRead (σ := σ) mem f (.count n) r = (.ok s, r')) : s.length ≤ n := by
  obtain ⟨vs, h1, _, hl, _⟩ :=
    (C34_set_is_made_of_the_elements_read (σ := σ) f mem 1 (by omega) (.count n) r).1 s r' h
  by_cases hm : n ≤ mem
  · rw [vecRead_count hf (by omega) hm hr] at h1
    rw [readN_length h1] at hl
    exact hl
  · rw [C27_large_count_panics f mem 1 n (by omega) (by omega) r] at h1
    simp at h1

/-- **C34**, round trip of sets, in any iteration order `s`. -/
theorem C34_set_round_trip (I : Reader → Prop) (o : Order) (p : Nat) (f : M Reader α)
    (g : α → M Writer Unit) (hf : Forward I f) (hI : ∀ r q, r.At q → I r) (mem : Nat) (s : List α)
    (hn : s.Nodup) (hm : s.length ≤ mem) (hk : ∀ x ∈ s, ∀ q, Sound o q f (g x) x)
    (w w' : Writer) (hw : w.At o p) (he : writeAll g s w = (.ok (), w')) :
    ∃ bits s', Writes o p (writeAll g s) bits ∧
      Reads o p (setRead (σ := σ) mem f (.count s.length)) bits s' ∧
      s'.Nodup ∧ s'.length = s.length ∧ ∀ x, x ∈ s' ↔ x ∈ s := by
  obtain ⟨bits, hW, hR⟩ := C27_round_trip_partial (σ := σ) I o p f g hf hI
    mem 1 (by omega) s hm hk w w' hw he
  have hmem : ∀ x, x ∈ setInsertAll [] s ↔ x ∈ s := fun x => by rw [mem_setInsertAll]; simp
  have hnd := nodup_setInsertAll s [] List.nodup_nil
  refine ⟨bits, setInsertAll [] s, hW, ?_, hnd, ?_, hmem⟩
  · intro r rest hr hu
    obtain ⟨r', e, st⟩ := hR r rest hr hu
    refine ⟨r', ?_, st⟩
    rw [setRead_eq _ mem 1 (by omega), M.bind_ok e]
    rfl
  · exact ((List.perm_ext_iff_of_nodup hnd hn).2 hmem).length_eq

example : (setRead (σ := Unit) 100 nibbleElem (.count 4)
    (Reader.new { data := [0x12#8, 0x32#8] })).1 = .ok [1, 2, 3] := by decide

/-- **C34 does not say that `count` entries are in the map**: duplicate keys make it smaller, so a
count that is re-derived from the map (`update = "map.len()"`) differs from the one read. -/
theorem C34_duplicate_keys_shrink_the_map :
    (mapRead (σ := Unit) 100 (pairRead nibbleElem nibbleElem) (.count 2)
      (Reader.new { data := [0x12#8, 0x13#8] })).1 = .ok [(1, 3)] := by decide

end Deku
