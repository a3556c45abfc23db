import Verif.Lemmas.Vec
import Verif.Props.Reader

/-!
# Properties of vectors, arrays and tuples: C27 to C31, C35
-/

namespace Deku

open Reader Writer Coll

variable {α β σ : Type}

/-- Elements for the examples: a `u16`, a 4 bit integer, a zero-sized type with a one byte magic. -/
def u16Elem : M Reader Nat := Prim.readUnsigned .little 2 (.endian .big)
def nibbleElem : M Reader Nat := Prim.readUnsigned .little 1 (.bits 4)
def unitElem : M Reader Unit := do
  let v ← Prim.readUnsigned .little 1 .unit
  if v = 7 then pure () else M.throw .parse

theorem u16Elem_delivers : Prim.Delivers .msb0 16 u16Elem (fieldValue .big .msb0) :=
  Prim.readUnsigned_delivers .little (W := 2) (.endian .big) (by omega) (by omega) (by omega)

theorem nibbleElem_delivers : Prim.Delivers .msb0 4 nibbleElem (fieldValue .little .msb0) :=
  Prim.readUnsigned_delivers .little (W := 1) (.bits 4) (by omega) (by omega) (by omega)

theorem usable_new (bs : List Byte) : (Reader.new { data := bs }).Usable :=
  ⟨(Reader.new_at bs).healthy, (Reader.new_at bs).wf⟩

/-! ## C27: count -/

/-- **C27.** Reading a `Vec` with a count is reading that many elements one after the other: same
result, same error, same reader afterwards. For elements that are not zero-sized
(`C27_zero_sized_elements_are_not_read`) and counts for which memory can be allocated
(`C27_large_count_panics`). -/
theorem C27_count_reads_one_after_the_other_partial (I : Reader → Prop) (f : M Reader α)
    (hf : Forward I f) (mem size n : Nat) (hz : size ≠ 0) (hm : n ≤ mem) (r : Reader) (hr : I r) :
    vecRead (σ := σ) mem size f (.count n) r = readN f n r :=
  vecRead_count hf hz hm hr

/-- **C27**, exactly `count` elements. -/
theorem C27_count_elements_partial (I : Reader → Prop) (f : M Reader α)
    (hf : Forward I f) (mem size n : Nat) (hz : size ≠ 0) (hm : n ≤ mem) (r r' : Reader) (hr : I r)
    (vs : List α) (h : vecRead (σ := σ) mem size f (.count n) r = (.ok vs, r')) : vs.length = n := by
  rw [vecRead_count hf hz hm hr] at h
  exact readN_length h

/-- **C27**, the first element error is the result. -/
theorem C27_count_first_error_partial (I : Reader → Prop) (f : M Reader α)
    (hf : Forward I f) (mem size n : Nat) (hz : size ≠ 0) (hm : n ≤ mem) (r r' : Reader) (hr : I r)
    (e : DekuError) :
    vecRead (σ := σ) mem size f (.count n) r = (.err e, r') ↔
      ∃ k vs r1, k < n ∧ readN f k r = (.ok vs, r1) ∧ f r1 = (.err e, r') := by
  rw [vecRead_count hf hz hm hr, readN_err]

/-- **C27**, writing: the elements in order. -/
theorem C27_write_in_order (o : Order) (p : Nat) (g : α → M Writer Unit) (bits : List Bool)
    (vs : List α) (h : WritesList o g p bits vs) : Writes o p (writeAll g vs) bits := h.writeAll

/-- **C27**, round trip: if each element that is accepted round-trips, so does the list, read with
its length as count. -/
theorem C27_round_trip_partial (I : Reader → Prop) (o : Order) (p : Nat) (f : M Reader α)
    (g : α → M Writer Unit) (hf : Forward I f) (hI : ∀ r q, r.At q → I r) (mem size : Nat)
    (hz : size ≠ 0) (vs : List α) (hm : vs.length ≤ mem)
    (hs : ∀ v ∈ vs, ∀ q, Sound o q f (g v) v) :
    Sound o p (vecRead (σ := σ) mem size f (.count vs.length)) (writeAll g vs) vs := by
  intro w w' hw he
  obtain ⟨bits, hW, hR⟩ := writeAll_sound hs p w w' hw he
  refine ⟨bits, hW, ?_⟩
  intro r rest hr hu
  rw [vecRead_count hf hz hm (hI r p hr)]
  exact hR r rest hr hu

example : Forward Usable u16Elem := (u16Elem_delivers.advances (by omega)).forward
example (r : Reader) (q : Nat) (h : r.At q) : r.Usable := ⟨h.healthy, h.wf⟩
example : (vecRead (σ := Unit) 100 2 u16Elem (.count 2)
    (Reader.new { data := [1#8, 2#8, 3#8, 4#8, 5#8] })).1 = .ok [0x102, 0x304] := by decide
example : (vecRead (σ := Unit) 100 2 u16Elem (.count 2)
    (Reader.new { data := [1#8, 2#8, 3#8] })).1 = .err (.incomplete 16) := by decide
example (v : Nat) (hv : v < 16) (q : Nat) :
    Sound .msb0 q nibbleElem (Prim.writeUnsigned .little 1 (.bits 4) v) v := by
  intro w w' hw he
  refine ⟨fieldBits .little .msb0 4 v, ?_, ?_⟩
  · exact Prim.writeUnsigned_writes .little (W := 1) (.bits 4) (p := q) (v := v)
      (fun h => by simp [IntCtx.shape] at h) (by omega) (by omega) hv
  · have := nibbleElem_delivers.reads (Prim.length_fieldBits .little .msb0 4 v) q
    rwa [Prim.fieldValue_fieldBits (fun h => by simp at h), Nat.mod_eq_of_lt hv] at this

/-- **C27 is false for zero-sized elements**: two elements that each check a byte of input are asked
for, none is read and the empty list is returned. -/
theorem C27_zero_sized_elements_are_not_read :
    (vecRead (σ := Unit) 100 0 unitElem (.count 2) (Reader.new { data := [7#8, 7#8] })).1 = .ok [] ∧
    (vecRead (σ := Unit) 100 0 unitElem (.count 2) (Reader.new { data := [7#8, 7#8] })).2.bitsRead = 0 ∧
    (readN unitElem 2 (Reader.new { data := [7#8, 7#8] })).1 = .ok [(), ()] ∧
    (vecRead (σ := Unit) 100 0 unitElem (.count 2) (Reader.new { data := [8#8] })).1 = .ok [] := by
  decide

/-- **C27 is false for counts that cannot be allocated**: the capacity is reserved before anything is
read, so a huge count panics whatever the input, where reading element by element would report
`Incomplete`. -/
theorem C27_large_count_panics (f : M Reader α) (mem size n : Nat) (hz : size ≠ 0) (hm : mem < n)
    (r : Reader) : vecRead (σ := σ) mem size f (.count n) r = (.panic, r) := by
  simp only [vecRead, if_neg (show ¬ n = 0 by omega), vecWithPredicate, if_neg hz, withCapacity,
    show decide (n ≤ mem) = false from decide_eq_false (by omega)]
  rfl

/-! ## C28: until -/

/-- **C28.** Reading a `Vec` with a (stateful) predicate succeeds with `vs` exactly when `vs` is read
one after the other and the predicate holds for the last of them and for no other; the reader then
stands behind that last element. For elements that are not zero-sized
(`C28_zero_sized_elements_are_not_read`). -/
theorem C28_until_first_match_partial (I : Reader → Prop) (f : M Reader α) (hf : Forward I f)
    (pred : α → σ → Bool × σ) (s : σ) (mem size : Nat) (hz : size ≠ 0) (r r' : Reader) (hr : I r)
    (vs : List α) :
    vecRead mem size f (.until pred s) r = (.ok vs, r') ↔
      vs.length ≤ mem ∧ readN f vs.length r = (.ok vs, r') ∧ FirstMatch pred s vs :=
  vecRead_until_ok hf hz hr

/-- **C28**, failure: an element fails after elements none of which matches. -/
theorem C28_until_error_partial (I : Reader → Prop) (f : M Reader α) (hf : Forward I f)
    (pred : α → σ → Bool × σ) (s : σ) (mem size : Nat) (hz : size ≠ 0) (r r' : Reader) (hr : I r)
    (e : DekuError) (h : vecRead mem size f (.until pred s) r = (.err e, r')) :
    ∃ vs r1, readN f vs.length r = (.ok vs, r1) ∧ NoMatch pred s vs ∧ f r1 = (.err e, r') := by
  simp only [vecRead, vecWithPredicate_none hz] at h
  exact vecLoop_until_err hf hr (Nat.le_refl _) h

/-- **C28**, round trip: a list whose last element is the only one that matches is read back. -/
theorem C28_round_trip_partial (I : Reader → Prop) (o : Order) (p : Nat) (f : M Reader α)
    (g : α → M Writer Unit) (hf : Forward I f) (hI : ∀ r q, r.At q → I r)
    (pred : α → σ → Bool × σ) (s : σ) (mem size : Nat)
    (hz : size ≠ 0) (vs : List α) (hm : vs.length ≤ mem) (hmatch : FirstMatch pred s vs)
    (hs : ∀ v ∈ vs, ∀ q, Sound o q f (g v) v) :
    Sound o p (vecRead mem size f (.until pred s)) (writeAll g vs) vs := by
  intro w w' hw he
  obtain ⟨bits, hW, hR⟩ := writeAll_sound hs p w w' hw he
  refine ⟨bits, hW, ?_⟩
  intro r rest hr hu
  obtain ⟨r', e, st⟩ := hR r rest hr hu
  exact ⟨r', (vecRead_until_ok hf hz (hI r p hr)).2 ⟨hm, e, hmatch⟩, st⟩

/-- The running sum of the elements exceeds 300. -/
def sumPred (v : Nat) (s : Nat) : Bool × Nat := (decide (300 < s + v), s + v)

example : (vecRead 100 2 u16Elem (.until sumPred 0)
    (Reader.new { data := [0#8, 200#8, 0#8, 101#8, 5#8, 6#8] })).1 = .ok [200, 101] := by decide
example : FirstMatch sumPred 0 [200, 101] := by simp [FirstMatch, sumPred]
example : (vecRead 100 2 u16Elem (.until sumPred 0)
    (Reader.new { data := [0#8, 200#8, 0#8] })).1 = .err (.incomplete 16) := by decide

/-- **C28 is false for zero-sized elements.** -/
theorem C28_zero_sized_elements_are_not_read :
    (vecRead 100 0 unitElem (.until (fun _ n => (decide (n = 1), n + 1)) 0)
      (Reader.new { data := [7#8, 7#8] })).1 = .ok [] := by decide

/-! ## C29: sizes -/

/-- **C29.** A `Vec` limited to `n` bits is returned only if its elements, read one after the other,
consume exactly `n` bits. For elements that are not zero-sized
(`C29_zero_sized_elements_are_not_read`). -/
theorem C29_bit_size_is_exact_partial (f : M Reader α) (mem size n : Nat) (hz : size ≠ 0)
    (r r' : Reader) (vs : List α) (h : vecRead (σ := σ) mem size f (.bits n) r = (.ok vs, r')) :
    readN f vs.length r = (.ok vs, r') ∧ r'.bitsRead = r.bitsRead + n :=
  vecRead_bits_ok hz h

/-- **C29** for byte sizes. -/
theorem C29_byte_size_is_exact_partial (f : M Reader α) (mem size n : Nat) (hz : size ≠ 0)
    (r r' : Reader) (vs : List α) (h : vecRead (σ := σ) mem size f (.bytes n) r = (.ok vs, r')) :
    readN f vs.length r = (.ok vs, r') ∧ r'.bitsRead = r.bitsRead + 8 * n := by
  by_cases hn : 8 * n < 2 ^ 64
  · rw [vecRead_bytes_eq hn] at h
    exact vecRead_bits_ok hz h
  · simp only [vecRead, usize, Nat.mul_comm n 8, if_neg hn] at h
    simp at h

/-- **C29**, the converse for elements that consume something: whenever elements one after the other
consume exactly `n` bits, they are returned. -/
theorem C29_bit_size_is_found_partial (I : Reader → Prop) (f : M Reader α) (hf : Advances I f)
    (mem size n : Nat) (hz : size ≠ 0) (hm : n ≤ mem) (r r' : Reader) (hr : I r) (vs : List α) :
    vecRead (σ := σ) mem size f (.bits n) r = (.ok vs, r') ↔
      readN f vs.length r = (.ok vs, r') ∧ r'.bitsRead = r.bitsRead + n :=
  vecRead_bits_iff hf hz hm hr

/-- **C29**, round trip with the number of bits written as limit. -/
theorem C29_round_trip_partial (I : Reader → Prop) (o : Order) (p : Nat) (f : M Reader α)
    (g : α → M Writer Unit) (hf : Advances I f) (hI : ∀ r q, r.At q → I r) (mem size : Nat)
    (hz : size ≠ 0) (vs : List α) (hs : ∀ v ∈ vs, ∀ q, Sound o q f (g v) v) (w w' : Writer)
    (hw : w.At o p) (he : writeAll g vs w = (.ok (), w')) :
    ∃ bits, Writes o p (writeAll g vs) bits ∧
      (bits.length ≤ mem → Reads o p (vecRead (σ := σ) mem size f (.bits bits.length)) bits vs) := by
  obtain ⟨bits, hW, hR⟩ := writeAll_sound hs p w w' hw he
  refine ⟨bits, hW, fun hm => ?_⟩
  intro r rest hr hu
  obtain ⟨r', e, st⟩ := hR r rest hr hu
  exact ⟨r', (vecRead_bits_iff hf hz hm (hI r p hr)).2 ⟨e, st.bitsRead⟩, st⟩

example : Advances Usable nibbleElem := nibbleElem_delivers.advances (by omega)
example : (vecRead (σ := Unit) 100 1 nibbleElem (.bits 12)
    (Reader.new { data := [0x12#8, 0x34#8] })).1 = .ok [1, 2, 3] := by decide
/-- The elements jump over the limit: reading goes on, and fails at the end of the input. -/
example : (vecRead (σ := Unit) 100 1 nibbleElem (.bits 10)
    (Reader.new { data := [0x12#8, 0x34#8] })).1 = .err (.incomplete 4) := by decide

/-- **C29 is false for zero-sized elements**: `Ok` without consuming anything. -/
theorem C29_zero_sized_elements_are_not_read :
    (vecRead (σ := Unit) 100 0 unitElem (.bytes 2) (Reader.new { data := [7#8, 7#8] })).1 = .ok [] ∧
    (vecRead (σ := Unit) 100 0 unitElem (.bytes 2) (Reader.new { data := [7#8, 7#8] })).2.bitsRead = 0 := by
  decide

/-! ## C30: to the end -/

/-- **C30.** When reading to the end succeeds, no unread bit is left, and the elements are those that
reading one after the other gives. For elements that are not zero-sized, consume at least one bit
and do not start with a skip (`C30_zero_sized_elements_are_not_read`,
`C30_leading_padding_loses_a_byte`). -/
theorem C30_read_all_consumes_everything_partial (o : Order) (p : Nat) (f : M Reader α)
    (hf : ∀ q, PeekStrict o q f) (mem size : Nat) (hz : size ≠ 0) (r r' : Reader) (hr : r.At p)
    (vs : List α) (h : vecRead (σ := σ) mem size f .end r = (.ok vs, r')) :
    r'.unread o = [] ∧ r'.bitsRead = r.bitsRead + (r.unread o).length ∧
    ∃ r'', readN f vs.length r = (.ok vs, r'') ∧ r''.unread o = [] ∧ r''.bitsRead = r'.bitsRead := by
  simp only [vecRead, vecToEnd, if_neg hz] at h
  obtain ⟨hL, hE, _, hB, _, _⟩ := vecEndLoop_ok hf hr.live h
  obtain ⟨r'', e, s⟩ := hL.readN r [] hr (by simp)
  exact ⟨hE, hB, r'', e, by rw [s.unread]; simp, by rw [s.bitsRead, hB]⟩

/-- An element that is written as at least one bit and found again, also when the next byte has been
peeked. -/
def PeekSound (o : Order) (p : Nat) (f : M Reader α) (g : M Writer Unit) (v : α) : Prop :=
  ∀ w w', w.At o p → g w = (.ok (), w') → ∃ bits, bits ≠ [] ∧ Writes o p g bits ∧ PeekReads o p f bits v

theorem writeAll_peek {o : Order} {p : Nat} {f : M Reader α} {g : α → M Writer Unit} {vs : List α}
    (h : ∀ v ∈ vs, ∀ q, PeekSound o q f (g v) v) {w w' : Writer} (hw : w.At o p)
    (he : writeAll g vs w = (.ok (), w')) :
    ∃ bits, Writes o p (writeAll g vs) bits ∧ PeekReadsList o f p bits vs := by
  induction vs generalizing p w with
  | nil => exact ⟨[], Writes.pure o p, .nil p⟩
  | cons v vs ih =>
    simp only [Coll.writeAll] at he
    obtain ⟨u, w1, e1, e2⟩ := M.bind_eq_ok he
    obtain ⟨x, hx, hW, hR⟩ := h v List.mem_cons_self p w w1 hw e1
    obtain ⟨_, hw1⟩ := hW.run hw e1
    obtain ⟨y, hW', hR'⟩ := ih (fun v hv => h v (List.mem_cons_of_mem _ hv)) hw1 e2
    exact ⟨x ++ y, hW.bind hW', .cons hR hx hR'⟩

/-- **C30**, round trip of a whole message: if the elements fill whole bytes, `to_bytes` of the list
followed by reading to the end gives the list back. Otherwise the padding of the last byte may be
taken for further elements (`C30_padding_becomes_elements`). -/
theorem C30_round_trip_partial (o : Order) (f : M Reader α) (g : α → M Writer Unit) (mem size : Nat)
    (hz : size ≠ 0) (vs : List α) (hm : vs.length ≤ mem)
    (hs : ∀ v ∈ vs, ∀ q, PeekSound o q f (g v) v) (out : List Byte)
    (hb : toBytes (writeAll g vs) = .ok out)
    (hfull : ∀ bits, Writes o 0 (writeAll g vs) bits → bits.length % 8 = 0) :
    (vecRead (σ := σ) mem size f .end (Reader.new { data := out })).1 = .ok vs := by
  have hacc : ∃ w', writeAll g vs (Writer.new {}) = (.ok (), w') := by
    simp only [toBytes] at hb
    cases hx : writeAll g vs (Writer.new {}) with
    | mk x w' =>
      cases x with
      | ok u => exact ⟨w', rfl⟩
      | err e => rw [M.bind_err hx] at hb; simp at hb
      | panic => rw [M.bind_panic hx] at hb; simp at hb
  obtain ⟨w', hacc⟩ := hacc
  obtain ⟨bits, hW, hL⟩ := writeAll_peek hs (Writer.new_at o) hacc
  obtain ⟨out', e, ho⟩ := hW.toBytes
  rw [hb] at e
  simp at e
  subst e
  have h8 := hfull bits hW
  rw [show (8 - bits.length % 8) % 8 = 0 by omega] at ho
  simp at ho
  obtain ⟨r', e', _⟩ := hL.run hm (Reader.new_at out).live (by rw [Reader.new_unread, ho])
  simp only [vecRead, vecToEnd, if_neg hz]
  rw [e']

example : ∀ q, PeekStrict .msb0 q u16Elem := u16Elem_delivers.peekStrict (by omega)
example : (vecRead (σ := Unit) 100 2 u16Elem .end
    (Reader.new { data := [1#8, 2#8, 3#8, 4#8] })).1 = .ok [0x102, 0x304] := by decide
example (v : Nat) (hv : v < 2 ^ 16) (q : Nat) :
    PeekSound .msb0 q u16Elem (Prim.writeUnsigned .little 2 (.endian .big) v) v := by
  intro w w' hw he
  refine ⟨fieldBits .big .msb0 16 v, ?_, ?_, ?_⟩
  · intro h; have := Prim.length_fieldBits .big .msb0 16 v; rw [h] at this; simp at this
  · exact Prim.writeUnsigned_writes .little (W := 2) (.endian .big) (p := q) (v := v)
      (fun h => by simp [IntCtx.shape] at h) (by omega) (by omega) hv
  · have := u16Elem_delivers.peekReads (Prim.length_fieldBits .big .msb0 16 v) q
    rwa [Prim.fieldValue_fieldBits (fun h => by simp at h), Nat.mod_eq_of_lt hv] at this

/-- **C30 is false for zero-sized elements**: `Ok` with the whole input unread. -/
theorem C30_zero_sized_elements_are_not_read :
    (vecRead (σ := Unit) 100 0 unitElem .end (Reader.new { data := [7#8, 7#8] })).1 = .ok [] ∧
    (vecRead (σ := Unit) 100 0 unitElem .end (Reader.new { data := [7#8, 7#8] })).2.bitsRead = 0 := by
  decide

/-- An element that starts with one byte of padding. -/
def paddedElem : M Reader Nat := do
  Reader.skipBits 8 .msb0
  Prim.readUnsigned .little 1 .unit

/-- **C30 is false for elements with leading padding**: the byte peeked by `end` is dropped by the
skip, which then skips another one. One after the other the elements are 2 and 4; to the end it is
3, and then an error. -/
theorem C30_leading_padding_loses_a_byte :
    (readN paddedElem 2 (Reader.new { data := [1#8, 2#8, 3#8, 4#8] })).1 = .ok [2, 4] ∧
    (vecRead (σ := Unit) 100 1 paddedElem .end (Reader.new { data := [1#8, 2#8, 3#8, 4#8] })).1 =
      .err (.incomplete 8) ∧
    (vecRead (σ := Unit) 100 1 paddedElem .end (Reader.new { data := [1#8, 2#8, 3#8] })).1 =
      .ok [3] := by decide

/-- **C30 is false for elements that do not fill whole bytes**: three 4 bit numbers come back as
four. -/
theorem C30_padding_becomes_elements :
    toBytes (writeAll (Prim.writeUnsigned .little 1 (.bits 4)) [1, 2, 3]) = .ok [0x12#8, 0x30#8] ∧
    (vecRead (σ := Unit) 100 1 nibbleElem .end (Reader.new { data := [0x12#8, 0x30#8] })).1 =
      .ok [1, 2, 3, 0] := by decide

/-! ## C31: arrays and tuples -/

theorem arrayRead_eq (f : M Reader α) (n : Nat) : arrayRead f n = readN f n := by
  induction n with
  | zero => rfl
  | succ n ih => simp only [arrayRead, readN, ih]

/-- **C31**, arrays: `N` elements, read one after the other. -/
theorem C31_array_reads_elements (f : M Reader α) (n : Nat) (r r' : Reader) (vs : List α) :
    arrayRead f n r = (.ok vs, r') ↔ vs.length = n ∧ ∃ t, Trace f r t r' ∧ t.map Prod.fst = vs := by
  rw [arrayRead_eq]
  constructor
  · exact Trace.of_readN
  · rintro ⟨rfl, h⟩
    exact readN_trace.2 h

/-- **C31**, arrays: the error is that of the first element that fails. -/
theorem C31_array_first_error (f : M Reader α) (n : Nat) (r r' : Reader) (e : DekuError) :
    arrayRead f n r = (.err e, r') ↔
      ∃ t r1, t.length < n ∧ Trace f r t r1 ∧ f r1 = (.err e, r') := by
  rw [arrayRead_eq, readN_err]
  constructor
  · rintro ⟨k, vs, r1, hk, hvs, he⟩
    obtain ⟨hl, t, ht, hm⟩ := Trace.of_readN hvs
    refine ⟨t, r1, ?_, ht, he⟩
    rw [← hm, List.length_map] at hl
    omega
  · rintro ⟨t, r1, hk, ht, he⟩
    exact ⟨t.length, _, r1, hk, ht.readN, he⟩

/-- **C31**, arrays: round trips compose. -/
theorem C31_array_round_trip (o : Order) (p : Nat) (f : M Reader α) (g : α → M Writer Unit)
    (vs : List α) (hs : ∀ v ∈ vs, ∀ q, Sound o q f (g v) v) :
    Sound o p (arrayRead f vs.length) (writeAll g vs) vs := by
  rw [arrayRead_eq]
  exact writeAll_sound hs p

/-- **C31**, tuples: both components, one after the other. -/
theorem C31_tuple_reads_components (a : M Reader α) (b : M Reader β) (r r' : Reader) (x : α) (y : β) :
    pairRead a b r = (.ok (x, y), r') ↔ ∃ r1, a r = (.ok x, r1) ∧ b r1 = (.ok y, r') := by
  constructor
  · intro h
    obtain ⟨x', r1, h1, h⟩ := M.bind_eq_ok h
    obtain ⟨y', r2, h2, h⟩ := M.bind_eq_ok h
    simp at h
    obtain ⟨⟨rfl, rfl⟩, rfl⟩ := h
    exact ⟨r1, h1, h2⟩
  · rintro ⟨r1, h1, h2⟩
    simp only [pairRead]
    rw [M.bind_ok h1, M.bind_ok h2]
    rfl

/-- **C31**, tuples: the error is that of the first component that fails. -/
theorem C31_tuple_first_error (a : M Reader α) (b : M Reader β) (r r' : Reader) (e : DekuError) :
    pairRead a b r = (.err e, r') ↔
      a r = (.err e, r') ∨ ∃ x r1, a r = (.ok x, r1) ∧ b r1 = (.err e, r') := by
  simp only [pairRead]
  cases ha : a r with
  | mk z r1 =>
    cases z with
    | ok x =>
      rw [M.bind_ok ha]
      cases hb : b r1 with
      | mk z r2 =>
        cases z with
        | ok y => rw [M.bind_ok hb]; simp [hb]
        | err e' =>
          rw [M.bind_err hb]
          constructor
          · intro h; simp at h; exact .inr ⟨x, r1, rfl, by rw [hb, h.1, h.2]⟩
          · rintro (h | ⟨x', r1', h1, h2⟩)
            · simp at h
            · simp at h1
              rw [← h1.2, hb] at h2
              simpa using h2
        | panic => rw [M.bind_panic hb]; simp [hb]
    | err e' => rw [M.bind_err ha]; simp
    | panic => rw [M.bind_panic ha]; simp

/-- **C31**, tuples: the bits of the components one after the other, in both directions. -/
theorem C31_tuple_bits (o : Order) (p : Nat) (a : M Reader α) (b : M Reader β)
    (ga : α → M Writer Unit) (gb : β → M Writer Unit) (v : α × β) (x y : List Bool)
    (ha : Writes o p (ga v.1) x ∧ Reads o p a x v.1)
    (hb : Writes o (p + x.length) (gb v.2) y ∧ Reads o (p + x.length) b y v.2) :
    Writes o p (pairWrite ga gb v) (x ++ y) ∧ Reads o p (pairRead a b) (x ++ y) v :=
  ⟨ha.1.bind hb.1, ha.2.bind (hb.2.map (fun y => (v.1, y)))⟩

/-- **C31**, tuples: round trips compose. -/
theorem C31_tuple_round_trip (o : Order) (p : Nat) (a : M Reader α) (b : M Reader β)
    (ga : α → M Writer Unit) (gb : β → M Writer Unit) (v : α × β)
    (ha : Sound o p a (ga v.1) v.1) (hb : ∀ q, Sound o q b (gb v.2) v.2) :
    Sound o p (pairRead a b) (pairWrite ga gb v) v :=
  ha.bind (f' := fun x => b >>= fun y => pure (x, y)) fun _ _ _ => (hb _).mapRead (fun y => (v.1, y))

example : (arrayRead nibbleElem 3 (Reader.new { data := [0x12#8, 0x34#8] })).1 = .ok [1, 2, 3] := by
  decide
example : (pairRead nibbleElem u16Elem (Reader.new { data := [0x12#8, 0x34#8] })).1 =
    .err (.incomplete 16) := by decide
example : (pairRead nibbleElem (arrayRead nibbleElem 2) (Reader.new { data := [0x12#8, 0x34#8] })).1 =
    .ok (1, [2, 3]) := by decide

/-! ## C35: the `Vec<u8>` fast path -/

/-- The element path: `u8` read with the given context. -/
def u8Elem (native : Endian) (ctx : IntCtx) : M Reader Byte := do
  let v ← Prim.readUnsigned native 1 ctx
  pure (BitVec.ofNat 8 v)

theorem aligned_rest {r r' : Reader} {o : Order} {n p : Nat} (hr : r.At p) (hl : r.leftover = none)
    (h : Step o (8 * n) r r') (o' : Order) :
    r'.unread o' = orderBits o' ((avail r).drop n) := by
  have hp := h.noPeek (.inl hr.noPeek)
  have h1 := rest_lt h.wf hp
  have h2 := h.sync
  have hb := h.bitsRead
  have h0 : r.rest.length = 0 := by simp [Reader.rest, hl, leftoverBits]
  have h3 : r'.rest = [] := List.eq_nil_of_length_eq_zero (by omega)
  have hu := h.unread
  rw [unread_eq, unread_none _ _ hl, drop_orderBits, h3] at hu
  have hpres : ∀ t : Order, present t [] = [] := by intro t; cases t <;> rfl
  rw [hpres, List.nil_append] at hu
  rw [unread_eq, h3, hpres, List.nil_append, orderBits_inj o hu]

/-- **C35** at byte boundaries: the fast path and reading `n` elements with any context of eight bits
succeed in the same cases, with the same bytes, and leave the reader in the same place. Missing: the
other alignments and peeked bytes, where it is false (`C35_fast_path_ignores_the_bit_order`,
`C35_fast_path_after_end`), counts of 2^61 and more (`C35_huge_count_panics`) and readers that were
made to skip beyond the end (`C35_panics_after_skip_beyond_end`). The errors differ: the element path
asks for one element, the fast path for all. -/
theorem C35_fast_path_when_aligned_partial (native e : Endian) (o : Order) (ctx : IntCtx)
    (hs : ctx.shape native 1 = (e, 8, o)) (n mem p : Nat) (hn : 8 * n < 2 ^ 64) (hm : n ≤ mem)
    (r : Reader) (hr : r.At p) (hl : r.leftover = none) :
    (∃ bs r1 r2, readExact n r = (.ok bs, r1) ∧
      vecRead (σ := σ) mem 1 (u8Elem native ctx) (.count n) r = (.ok bs, r2) ∧
      r1.bitsRead = r2.bitsRead ∧ (∀ o', r1.unread o' = r2.unread o') ∧ r1.rest = r2.rest) ∨
    (∃ k1 k2 r1 r2, readExact n r = (.err (.incomplete k1), r1) ∧
      vecRead (σ := σ) mem 1 (u8Elem native ctx) (.count n) r = (.err (.incomplete k2), r2)) := by
  have hd : Prim.Delivers _ 8 (u8Elem native ctx) _ := u8_delivers native ctx hs
  rw [vecRead_count (hd.advances (by omega)).forward (by omega) hm ⟨hr.healthy, hr.wf⟩]
  obtain ⟨hok, herr⟩ := readN_bytes hd n hr.healthy hr.wf
  by_cases h : n ≤ (avail r).length
  · have hlsb := (avail_iff hr .lsb0).1 h
    obtain ⟨r1, e1, s1⟩ := readExact_ok hr hlsb
    obtain ⟨r2, e2, s2⟩ := hok ((avail_iff hr o).1 h)
    refine .inl ⟨(avail r).take n, r1, r2, ?_, ?_, by rw [s1.bitsRead, s2.bitsRead], ?_, ?_⟩
    · rw [e1, unread_none _ _ hl, take_orderBits, Prim.bytesOf_orderBits]
    · exact e2.trans (by rw [unread_none _ _ hl, take_orderBits, Prim.bytesOf_orderBits])
    · intro o'; rw [aligned_rest hr hl s1, aligned_rest hr hl s2]
    · have h0 : r.rest.length = 0 := by simp [Reader.rest, hl, leftoverBits]
      have ha := rest_lt s1.wf (s1.noPeek (.inl hr.noPeek))
      have hb := rest_lt s2.wf (s2.noPeek (.inl hr.noPeek))
      have := s1.sync; have := s2.sync; have := s1.bitsRead; have := s2.bitsRead
      rw [List.eq_nil_of_length_eq_zero (l := r1.rest) (by omega),
        List.eq_nil_of_length_eq_zero (l := r2.rest) (by omega)]
  · obtain ⟨k, r2, e2⟩ := herr fun h' => h ((avail_iff hr o).2 h')
    exact .inr ⟨8 * n, k, _, r2,
      readExact_short hr (fun h' => h ((avail_iff hr .lsb0).2 h')) hn, e2⟩

/-- **C35** in mid-byte, for elements read in Lsb0 order. -/
theorem C35_fast_path_lsb0_partial (native e : Endian) (ctx : IntCtx)
    (hs : ctx.shape native 1 = (e, 8, .lsb0)) (n mem p : Nat) (hn : 8 * n < 2 ^ 64) (hm : n ≤ mem)
    (r : Reader) (hr : r.At p) :
    (∃ bs r1 r2, readExact n r = (.ok bs, r1) ∧
      vecRead (σ := σ) mem 1 (u8Elem native ctx) (.count n) r = (.ok bs, r2) ∧
      r1.bitsRead = r2.bitsRead ∧ (∀ o', r1.unread o' = r2.unread o')) ∨
    (∃ k1 k2 r1 r2, readExact n r = (.err (.incomplete k1), r1) ∧
      vecRead (σ := σ) mem 1 (u8Elem native ctx) (.count n) r = (.err (.incomplete k2), r2)) := by
  have hd : Prim.Delivers _ 8 (u8Elem native ctx) _ := u8_delivers native ctx hs
  rw [vecRead_count (hd.advances (by omega)).forward (by omega) hm ⟨hr.healthy, hr.wf⟩]
  obtain ⟨hok, herr⟩ := readN_bytes hd n hr.healthy hr.wf
  by_cases h : 8 * n ≤ (r.unread .lsb0).length
  · obtain ⟨r1, e1, s1⟩ := readExact_ok hr h
    obtain ⟨r2, e2, s2⟩ := hok h
    refine .inl ⟨_, r1, r2, e1, e2, by rw [s1.bitsRead, s2.bitsRead], ?_⟩
    exact unread_det s2.wf s1.wf (s2.noPeek (.inl hr.noPeek)) (s1.noPeek (.inl hr.noPeek))
      (o := .lsb0) (by rw [s1.unread, s2.unread])
  · obtain ⟨k, r2, e2⟩ := herr h
    exact .inr ⟨8 * n, k, _, r2, readExact_short hr h hn, e2⟩

example : (IntCtx.unit).shape .little 1 = (.little, 8, .msb0) := rfl
example : (IntCtx.order .lsb0).shape .little 1 = (.little, 8, .lsb0) := rfl
example : (Reader.new { data := [1#8, 2#8] }).leftover = none := rfl
example : (readExact 2 (Reader.new { data := [1#8, 2#8, 3#8] })).1 = .ok [1#8, 2#8] := by decide

/-- Reads four bits and then bytes, either way. -/
def nibbleThen (f : M Reader (List Byte)) : M Reader (List Byte) := do
  let _ ← Reader.readBits 4 .msb0
  f

/-- **C35 is false in mid-byte**: the fast path always reads in Lsb0 order; the bytes differ from
those of the element path. -/
theorem C35_fast_path_ignores_the_bit_order :
    (nibbleThen (readExact 1) (Reader.new { data := [0x12#8, 0x34#8] })).1 = .ok [0x42#8] ∧
    (nibbleThen (vecRead (σ := Unit) 100 1 (u8Elem .little .unit) (.count 1))
      (Reader.new { data := [0x12#8, 0x34#8] })).1 = .ok [0x23#8] := by decide

/-- **C35 is false with `bits`**: the fast path reads whole bytes. -/
theorem C35_fast_path_ignores_the_size :
    (readExact 2 (Reader.new { data := [0x12#8, 0x34#8] })).1 = .ok [0x12#8, 0x34#8] ∧
    (vecRead (σ := Unit) 100 1 (u8Elem .little (.bits 4)) (.count 2)
      (Reader.new { data := [0x12#8, 0x34#8] })).1 = .ok [1#8, 2#8] := by decide

/-- Calls `end` and then reads bytes, as for the first field of an element of a list that is read to
the end. -/
def endThen (f : M Reader (List Byte)) : M Reader (List Byte) := do
  let _ ← Reader.end
  f

/-- **C35 is false after `end`**: the peeked byte is not counted as available. -/
theorem C35_fast_path_after_end :
    (endThen (readExact 2) (Reader.new { data := [1#8, 2#8] })).1 = .err (.incomplete 16) ∧
    (endThen (vecRead (σ := Unit) 100 1 (u8Elem .little .unit) (.count 2))
      (Reader.new { data := [1#8, 2#8] })).1 = .ok [1#8, 2#8] := by decide

/-- **C35 is false after `end` for no bytes**: the fast path panics. -/
theorem C35_no_bytes_after_end_panics :
    (endThen (readExact 0) (Reader.new { data := [1#8, 2#8] })).1 = .panic ∧
    (endThen (vecRead (σ := Unit) 100 1 (u8Elem .little .unit) (.count 0))
      (Reader.new { data := [1#8, 2#8] })).1 = .ok [] := by decide

/-- **C35 is false for huge counts**: computing the size for the error message overflows. -/
theorem C35_huge_count_panics (n : Nat) (hn : 2 ^ 61 ≤ n) :
    (readExact n (Reader.new { data := [1#8, 2#8] })).1 = .panic := by
  rw [readExact_run (Reader.new_at _).healthy (by simp [Reader.new]), if_pos (by simp [avail, Reader.new]; omega)]
  simp only [usize, if_neg (show ¬ n * 8 < 2 ^ 64 by omega)]
  rfl

/-- **C35 is false after a skip beyond the end**: the fast path panics on `end - pos`. -/
theorem C35_panics_after_skip_beyond_end :
    ((do Reader.skipBits 24 .msb0; readExact 0 : M Reader (List Byte))
      (Reader.new { data := [1#8, 2#8] })).1 = .panic ∧
    ((do Reader.skipBits 24 .msb0
         vecRead (σ := Unit) 100 1 (u8Elem .little .unit) (.count 0) : M Reader (List Byte))
      (Reader.new { data := [1#8, 2#8] })).1 = .ok [] := by decide

end Deku
