import Verif.Lemmas.CString

/-!
# Properties of bool, NonZero, Option and CString: C32, C33
-/

namespace Deku

open Reader Writer Coll

variable {α : Type}

/-! ## C32 -/

/-- The value of a `bool` field whose bits, in consumption order, are `l`, if it is one. -/
def boolValue (e : Endian) (o : Order) (l : List Bool) : Option Bool :=
  if fieldValue e o l = 1 then some true else if fieldValue e o l = 0 then some false else none

/-- **C32**, bool: with any context of 1 to 8 bits, at every alignment, exactly the encodings 0 and 1
are accepted; any other value is a `Parse` error; too little data is `Incomplete`. -/
theorem C32_bool_is_0_or_1 (native e : Endian) (n : Nat) (o : Order) (ctx : IntCtx)
    (hs : ctx.shape native 1 = (e, n, o)) (h1 : 1 ≤ n) (hn : n ≤ 8) (r : Reader) (hf : r.Healthy)
    (hw : r.WF) :
    (n ≤ (r.unread o).length → ∃ r', Step o n r r' ∧
      boolRead (Prim.readUnsigned native 1 ctx) r =
        match boolValue e o ((r.unread o).take n) with
        | some b => (.ok b, r')
        | none => (.err .parse, r')) ∧
    (¬ n ≤ (r.unread o).length → ∃ k r',
      boolRead (Prim.readUnsigned native 1 ctx) r = (.err (.incomplete k), r')) := by
  have h := Prim.readUnsigned_delivers native (W := 1) ctx (by omega)
  rw [hs] at h
  obtain ⟨hok, herr⟩ := h h1 (by omega) r hf hw
  constructor
  · intro hlen
    obtain ⟨r', er, s⟩ := hok hlen
    refine ⟨r', s, ?_⟩
    simp only [boolRead]
    rw [M.bind_ok er]
    simp only [boolValue]
    split
    · rfl
    · split <;> rfl
  · intro hlen
    obtain ⟨k, r', er, _⟩ := herr hlen
    exact ⟨k, r', by simp only [boolRead]; rw [M.bind_err er]⟩

/-- **C32**, bool: the round trip at every alignment, in every context in which the integer of that
shape round-trips (C15, C16, C25). -/
theorem C32_bool_round_trip (native e : Endian) (n : Nat) (o : Order) (ctx : IntCtx)
    (hs : ctx.shape native 1 = (e, n, o)) (h1 : 1 ≤ n) (hn : n ≤ 8) (p : Nat)
    (hc : Prim.Compatible native 1 ctx p) (b : Bool) :
    ∃ bits, bits.length = n ∧ Writes o p (boolWrite (Prim.writeUnsigned native 1 ctx) b) bits ∧
      Reads o p (boolRead (Prim.readUnsigned native 1 ctx)) bits b := by
  have hlt : b.toNat < 2 ^ n := by
    have : 2 ^ 1 ≤ 2 ^ n := Nat.pow_le_pow_right (by omega) h1
    have := Bool.toNat_lt b
    omega
  have hw := Prim.writeUnsigned_writes native (W := 1) ctx (v := b.toNat) hc
  have hd := hc.dense
  have hr := Prim.readUnsigned_delivers native (W := 1) ctx (by omega)
  rw [hs] at hw hd hr
  refine ⟨fieldBits e o n b.toNat, Prim.length_fieldBits .., ?_, ?_⟩
  · have := hw h1 (by omega) hlt
    cases b <;> exact this
  · have h := (hr h1 (by omega)).reads (Prim.length_fieldBits e o n b.toNat) p
    rw [Prim.fieldValue_fieldBits hd, Nat.mod_eq_of_lt hlt] at h
    have h2 : Reads o (p + (fieldBits e o n b.toNat).length)
        (if b.toNat = 1 then pure true else if b.toNat = 0 then pure false else M.throw .parse) [] b := by
      cases b <;> exact Reads.pure o _ _
    have := h.bind (g := fun v => if v = 1 then pure true else if v = 0 then pure false else M.throw .parse) h2
    rwa [List.append_nil] at this

example : (IntCtx.endianBitsOrder .big 3 .lsb0).shape .little 1 = (.big, 3, .lsb0) := rfl
example : (boolRead (Prim.readUnsigned .little 1 .unit) (Reader.new { data := [1#8] })).1 = .ok true := by
  decide
example : (boolRead (Prim.readUnsigned .little 1 .unit) (Reader.new { data := [2#8] })).1 = .err .parse := by
  decide
example : (boolRead (Prim.readUnsigned .little 1 (.bits 1)) (Reader.new { data := [0x80#8] })).1 =
    .ok true := by decide
example : Prim.Compatible .little 1 (.bits 1) 5 := by intro h; simp [IntCtx.shape] at h

/-- **C32**, NonZero over any integer type and context: exactly 0 is rejected, with `Parse`, and
nothing else changes. -/
theorem C32_nonzero_rejects_exactly_0 [DecidableEq α] [OfNat α 0] (read : M Reader α) (r : Reader) :
    (∀ v r', read r = (.ok v, r') → v ≠ 0 → nonzeroRead read r = (.ok v, r')) ∧
    (∀ r', read r = (.ok 0, r') → nonzeroRead read r = (.err .parse, r')) ∧
    (∀ e r', read r = (.err e, r') → nonzeroRead read r = (.err e, r')) ∧
    (∀ v r', nonzeroRead read r = (.ok v, r') → v ≠ 0 ∧ read r = (.ok v, r')) := by
  refine ⟨?_, ?_, ?_, ?_⟩
  · intro v r' h hv
    simp only [nonzeroRead]
    rw [M.bind_ok h, if_neg hv]; rfl
  · intro r' h
    simp only [nonzeroRead]
    rw [M.bind_ok h, if_pos rfl]; rfl
  · intro e r' h
    simp only [nonzeroRead]
    rw [M.bind_err h]
  · intro v r' h
    simp only [nonzeroRead] at h
    obtain ⟨a, r1, h1, h⟩ := M.bind_eq_ok h
    split at h
    · simp at h
    · simp at h
      obtain ⟨rfl, rfl⟩ := h
      exact ⟨‹_›, h1⟩

/-- **C32**, NonZero: every nonzero value round-trips where the integer does. -/
theorem C32_nonzero_round_trip [DecidableEq α] [OfNat α 0] (o : Order) (p : Nat) (f : M Reader α)
    (g : M Writer Unit) (v : α) (hv : v ≠ 0) (h : Sound o p f g v) :
    Sound o p (nonzeroRead f) g v := by
  intro w w' hw he
  obtain ⟨bits, hW, hR⟩ := h w w' hw he
  refine ⟨bits, hW, ?_⟩
  have h2 : Reads o (p + bits.length) (if v = 0 then M.throw .parse else pure v) [] v := by
    rw [if_neg hv]; exact Reads.pure o _ v
  have := hR.bind (g := fun v => if v = 0 then M.throw .parse else pure v) h2
  rwa [List.append_nil] at this

example : (nonzeroRead (Prim.readUnsigned .little 2 (.endian .big))
    (Reader.new { data := [0#8, 7#8] })).1 = .ok 7 := by decide
example : (nonzeroRead (Prim.readSigned .little 2 (.endian .big))
    (Reader.new { data := [0#8, 0#8] })).1 = .err .parse := by decide

/-- **C32**, Option: reads as `Some` of what is read, with the same reader and the same errors. -/
theorem C32_option_reads_some (f : M Reader α) (r r' : Reader) (x : Option α) :
    optionRead f r = (.ok x, r') ↔ ∃ v, x = some v ∧ f r = (.ok v, r') := by
  constructor
  · intro h
    simp only [optionRead] at h
    obtain ⟨v, r1, h1, h⟩ := M.bind_eq_ok h
    simp at h
    obtain ⟨rfl, rfl⟩ := h
    exact ⟨v, rfl, h1⟩
  · rintro ⟨v, rfl, h⟩
    simp only [optionRead]
    rw [M.bind_ok h]; rfl

theorem C32_option_errors (f : M Reader α) (r r' : Reader) (e : DekuError) :
    optionRead f r = (.err e, r') ↔ f r = (.err e, r') := by
  simp only [optionRead, M.bind_def]
  cases h : f r with
  | mk x r1 => cases x <;> simp

/-- **C32**, Option: `None` writes nothing, `Some` writes its value, and what is written for `Some`
is read back. -/
theorem C32_option_writes (o : Order) (p : Nat) (f : M Reader α) (g : α → M Writer Unit) :
    Writes o p (optionWrite g none) [] ∧ (∀ w, optionWrite g none w = (.ok (), w)) ∧
    (∀ v w, optionWrite g (some v) w = g v w) ∧
    (∀ v, Sound o p f (g v) v → Sound o p (optionRead f) (optionWrite g (some v)) (some v)) :=
  ⟨Writes.pure o p, fun _ => rfl, fun _ _ => rfl, fun _ h => h.mapRead some⟩

example : (optionRead (Prim.readUnsigned .little 1 .unit) (Reader.new { data := [9#8] })).1 =
    .ok (some 9) := by decide
example : toBytes (optionWrite (Prim.writeUnsigned .little 1 .unit) none) = .ok [] := by decide

/-! ## C33 -/

/-- **C33**, reading: at every Msb0 alignment, wherever the bytes of `s` without a NUL and then a NUL
are found, exactly these are consumed and `s` is returned, whatever follows. (`mem`: the string fits
into memory.) -/
theorem C33_cstring_reads_to_first_nul (native : Endian) (mem p : Nat) (s : List Byte) (h0 : 0 ∉ s)
    (hm : s.length < mem) :
    Reads .msb0 p (cstringRead native mem) (bytesBits (s ++ [0])) s :=
  cstringRead_reads native h0 hm p

/-- **C33**, the converse: whatever is returned are the bytes in front of the first NUL, and these
and the NUL have been consumed. -/
theorem C33_cstring_result (native : Endian) (mem p : Nat) (s : List Byte) (r r' : Reader)
    (hr : r.At p) (h : cstringRead native mem r = (.ok s, r')) :
    0 ∉ s ∧ (∃ rest, r.unreadMsb = bytesBits (s ++ [0]) ++ rest) ∧
      r'.bitsRead = r.bitsRead + 8 * (s.length + 1) ∧
      r'.unreadMsb = r.unreadMsb.drop (8 * (s.length + 1)) := by
  obtain ⟨h0, hrest, st⟩ := cstringRead_ok native hr h
  exact ⟨h0, hrest, st.bitsRead, st.unread⟩

/-- **C33**, no NUL in the rest of the input: `Incomplete`. -/
theorem C33_cstring_without_nul (native : Endian) (mem p : Nat) (r : Reader) (hr : r.At p)
    (hm : r.unreadMsb.length ≤ 8 * mem)
    (h : ¬ ∃ s rest, r.unreadMsb = bytesBits (s ++ [0]) ++ rest) :
    ∃ k r', cstringRead native mem r = (.err (.incomplete k), r') :=
  cstringRead_no_nul native hr hm h

/-- **C33**, round trip: every string (a `CString` holds no NUL), at every Msb0 alignment, followed
by arbitrary data. -/
theorem C33_cstring_round_trip (native e : Endian) (ctx : IntCtx)
    (hs : ctx.shape native 1 = (e, 8, .msb0)) (mem p : Nat) (s : List Byte) (h0 : 0 ∉ s)
    (hm : s.length < mem) :
    ∃ bits, Writes .msb0 p (cstringWrite native ctx s) bits ∧
      Reads .msb0 p (cstringRead native mem) bits s :=
  ⟨_, (u8Write_list native ctx hs (s ++ [0]) p).writeAll, cstringRead_reads native h0 hm p⟩

/-- **C33**, with a size of `n` bytes: succeeds exactly when the next `n` bytes contain a single NUL,
in last position, and then consumes these. -/
theorem C33_sized_cstring (native : Endian) (mem n p : Nat) (hm : n ≤ mem) (s : List Byte)
    (r : Reader) (hr : r.At p) :
    (∃ r', cstringReadSized native mem n r = (.ok s, r') ∧ r'.bitsRead = r.bitsRead + 8 * n ∧
      r'.unreadMsb = r.unreadMsb.drop (8 * n)) ↔
    s.length + 1 = n ∧ 0 ∉ s ∧ ∃ rest, r.unreadMsb = bytesBits (s ++ [0]) ++ rest := by
  have hc : ∀ r, r.Usable → vecRead (σ := Unit) mem 1 (u8Read native) (.count n) r =
      readN (u8Read native) n r := fun r h => vecRead_count (u8Read_forward native) (by omega) hm h
  constructor
  · rintro ⟨r', h, _, _⟩
    simp only [cstringReadSized] at h
    obtain ⟨bs, r1, h1, h2⟩ := M.bind_eq_ok h
    rw [hc r ⟨hr.healthy, hr.wf⟩] at h1
    obtain ⟨hrest, _, hlen⟩ := u8Read_readN native hr h1
    rw [cstringOf_run] at h2
    cases hn : fromVecWithNul bs with
    | none => rw [hn] at h2; simp at h2
    | some s' =>
      rw [hn] at h2
      simp at h2
      obtain ⟨rfl, rfl⟩ := h2
      obtain ⟨rfl, h0⟩ := (fromVecWithNul_iff _ _).1 hn
      exact ⟨by simpa using hlen, h0, hrest⟩
  · rintro ⟨hlen, h0, rest, hrest⟩
    obtain ⟨r', e, st⟩ := (u8Read_list native (s ++ [0]) p).readN r rest hr hrest
    rw [show (s ++ [(0 : Byte)]).length = n by simpa using hlen] at e
    rw [length_bytesBits, show (s ++ [(0 : Byte)]).length = n by simpa using hlen] at st
    refine ⟨r', ?_, st.bitsRead, st.unread⟩
    simp only [cstringReadSized]
    rw [M.bind_ok ((hc r ⟨hr.healthy, hr.wf⟩).trans e), cstringOf_run,
      (fromVecWithNul_iff _ _).2 ⟨rfl, h0⟩]

/-- **C33**, with a size: everything else is an error, not a panic, unless the size itself cannot be
allocated. -/
theorem C33_sized_cstring_fails (native : Endian) (mem n p : Nat) (hm : n ≤ mem) (r : Reader)
    (hr : r.At p)
    (h : ¬ ∃ s rest, s.length + 1 = n ∧ 0 ∉ s ∧ r.unreadMsb = bytesBits (s ++ [0]) ++ rest) :
    ∃ e r', cstringReadSized native mem n r = (.err e, r') ∧
      (e = .parse ∨ ∃ k, e = .incomplete k) := by
  have hc := vecRead_count (σ := Unit) (u8Read_forward native) (show 1 ≠ 0 by omega) hm
    (r := r) ⟨hr.healthy, hr.wf⟩
  obtain ⟨hok, herr⟩ := readN_bytes (u8Read_delivers native) n hr.healthy hr.wf
  simp only [cstringReadSized]
  by_cases hn : 8 * n ≤ (r.unread .msb0).length
  · obtain ⟨r', er, st⟩ := hok hn
    rw [M.bind_ok (hc.trans er), cstringOf_run]
    cases hv : fromVecWithNul (Prim.bytesOf .msb0 ((r.unread .msb0).take (8 * n))) with
    | none => exact ⟨.parse, r', rfl, .inl rfl⟩
    | some s =>
      obtain ⟨hb, h0⟩ := (fromVecWithNul_iff _ _).1 hv
      obtain ⟨⟨rest, hrest⟩, _, hlen⟩ := u8Read_readN native hr er
      rw [hb] at hrest hlen
      exact absurd ⟨s, rest, by simpa using hlen, h0, hrest⟩ h
  · obtain ⟨k, r', er⟩ := herr hn
    exact ⟨.incomplete k, r', by rw [M.bind_err (hc.trans er)], .inr ⟨k, rfl⟩⟩

example : (cstringRead .little 100 (Reader.new { data := [0x61#8, 0x62#8, 0#8, 0x63#8] })).1 =
    .ok [0x61#8, 0x62#8] := by decide
example : toBytes (cstringWrite .little .unit [0x61#8, 0x62#8]) = .ok [0x61#8, 0x62#8, 0#8] := by decide
example : (cstringReadSized .little 100 3 (Reader.new { data := [0x61#8, 0x62#8, 0#8, 0x63#8] })).1 =
    .ok [0x61#8, 0x62#8] := by decide
example : (cstringReadSized .little 100 3 (Reader.new { data := [0x61#8, 0#8, 0#8, 0x63#8] })).1 =
    .err .parse := by decide
example : (0 : Byte) ∉ [0x61#8, 0x62#8] := by decide

end Deku
