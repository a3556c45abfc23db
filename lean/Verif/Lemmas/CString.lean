import Verif.Lemmas.Vec

/-! # CString -/

namespace Deku

open Reader Writer Coll

theorem u8Read_delivers (native : Endian) :
    Prim.Delivers .msb0 8 (u8Read native) (fun l => byteOf (present .msb0 l)) :=
  u8_delivers native .unit rfl

theorem u8Read_forward (native : Endian) : Forward Usable (u8Read native) :=
  ((u8Read_delivers native).advances (by omega)).forward

theorem u8Read_list (native : Endian) (bs : List Byte) (p : Nat) :
    ReadsList .msb0 (u8Read native) p (bytesBits bs) bs := by
  induction bs generalizing p with
  | nil => exact .nil p
  | cons b bs ih =>
    have h := (u8Read_delivers native).reads (bits := byteBits b) (by simp) p
    rw [show byteOf (present .msb0 (byteBits b)) = b from byteOf_byteBits b] at h
    exact .cons h (ih _)

/-- The bytes read one by one are the next bytes. -/
theorem u8Read_readN (native : Endian) {p n : Nat} {r r' : Reader} (hr : r.At p) {bs : List Byte}
    (h : readN (u8Read native) n r = (.ok bs, r')) :
    (∃ rest, r.unreadMsb = bytesBits bs ++ rest) ∧ Step .msb0 (8 * n) r r' ∧ bs.length = n := by
  obtain ⟨hok, herr⟩ := readN_bytes (u8Read_delivers native) n hr.healthy hr.wf
  have hlen := readN_length h
  by_cases hn : 8 * n ≤ (r.unread .msb0).length
  · obtain ⟨r1, e, s⟩ := hok hn
    rw [h] at e
    simp at e
    obtain ⟨hbs, rfl⟩ := e
    refine ⟨⟨(r.unread .msb0).drop (8 * n), ?_⟩, s, hlen⟩
    have : bytesBits bs = (r.unread .msb0).take (8 * n) := by
      rw [hbs]
      exact Prim.orderBits_bytesOf .msb0 _ (by simp; omega)
    rw [this]
    exact (List.take_append_drop ..).symm
  · obtain ⟨k, r1, e⟩ := herr hn
    rw [h] at e
    simp at e

/-- The NUL predicate. -/
def isNul (b : Byte) (_ : Unit) : Bool × Unit := (b == 0, ())

theorem firstMatch_nul (bs : List Byte) :
    FirstMatch isNul () bs ↔ ∃ s, bs = s ++ [0] ∧ 0 ∉ s := by
  induction bs with
  | nil => simp [FirstMatch]
  | cons b bs ih =>
    rw [FirstMatch.cons_iff]
    simp only [isNul, beq_iff_eq]
    by_cases hb : b = 0
    · rw [if_pos hb]
      constructor
      · rintro rfl; exact ⟨[], by simp [hb], by simp⟩
      · rintro ⟨s, hs, h0⟩
        cases s with
        | nil => simp at hs; exact hs.2
        | cons c s =>
          simp at hs
          simp [← hs.1, hb] at h0
    · rw [if_neg hb]
      constructor
      · intro h
        obtain ⟨s, rfl, h0⟩ := ih.1 h
        refine ⟨b :: s, rfl, ?_⟩
        simp only [List.mem_cons, not_or]
        exact ⟨fun h => hb h.symm, h0⟩
      · rintro ⟨s, hs, h0⟩
        cases s with
        | nil => simp at hs; exact absurd hs.1 hb
        | cons c s =>
          simp at hs
          exact ih.2 ⟨s, hs.2, fun h => h0 (List.mem_cons_of_mem _ h)⟩

theorem fromVecWithNul_iff (bs s : List Byte) :
    fromVecWithNul bs = some s ↔ bs = s ++ [0] ∧ 0 ∉ s := by
  unfold fromVecWithNul
  constructor
  · intro h
    cases hi : bs.findIdx? (· = 0) with
    | none => rw [hi] at h; simp at h
    | some i =>
      rw [hi] at h
      simp only at h
      split at h
      · rename_i hlen
        simp at h
        rw [List.findIdx?_eq_some_iff_getElem] at hi
        obtain ⟨hlt, h0, hbefore⟩ := hi
        subst h
        refine ⟨?_, ?_⟩
        · have h1 : bs = bs.take i ++ bs.drop i := (List.take_append_drop i bs).symm
          have h2 : bs.drop i = [bs[i]] := by
            rw [List.drop_eq_getElem_cons hlt, List.drop_eq_nil_of_le (by omega)]
          rw [h2] at h1
          simp at h0
          rw [h0] at h1
          exact h1
        · intro hmem
          obtain ⟨j, hj, he⟩ := List.mem_iff_getElem.1 hmem
          simp at hj
          have := hbefore j (by omega)
          simp at this he
          exact this he
      · simp at h
  · rintro ⟨rfl, h0⟩
    have : (s ++ [(0 : Byte)]).findIdx? (· = 0) = some s.length := by
      rw [List.findIdx?_append]
      have : s.findIdx? (· = 0) = none := by
        rw [List.findIdx?_eq_none_iff]
        intro x hx
        simp
        rintro rfl
        exact h0 hx
      rw [this]
      simp
    rw [this]
    simp

theorem cstringOf_run (bs : List Byte) (r : Reader) :
    cstringOf bs r = match fromVecWithNul bs with
      | some s => (.ok s, r)
      | none => (.err .parse, r) := by
  unfold cstringOf
  cases fromVecWithNul bs <;> rfl

theorem cstringRead_reads (native : Endian) {mem : Nat} {s : List Byte} (h0 : 0 ∉ s)
    (hm : s.length < mem) (p : Nat) :
    Reads .msb0 p (cstringRead native mem) (bytesBits (s ++ [0])) s := by
  intro r rest hr hu
  obtain ⟨r', e, st⟩ := (u8Read_list native (s ++ [0]) p).readN r rest hr hu
  refine ⟨r', ?_, st⟩
  have hv := (vecRead_until_ok (pred := isNul) (s := ()) (mem := mem) (size := 1)
    (u8Read_forward native) (by omega) (r := r) (r' := r') (vs := s ++ [0])
    ⟨hr.healthy, hr.wf⟩).2
    ⟨by simp; omega, e, (firstMatch_nul _).2 ⟨s, rfl, h0⟩⟩
  simp only [cstringRead]
  rw [M.bind_ok (show vecRead mem 1 (u8Read native) (.until (fun b (_ : Unit) => (b == 0, ())) ()) r = _ from hv),
    cstringOf_run, (fromVecWithNul_iff _ _).2 ⟨rfl, h0⟩]

theorem cstringRead_ok (native : Endian) {mem p : Nat} {s : List Byte} {r r' : Reader} (hr : r.At p)
    (h : cstringRead native mem r = (.ok s, r')) :
    0 ∉ s ∧ (∃ rest, r.unreadMsb = bytesBits (s ++ [0]) ++ rest) ∧
      Step .msb0 (8 * (s.length + 1)) r r' := by
  simp only [cstringRead] at h
  obtain ⟨bs, r1, h1, h2⟩ := M.bind_eq_ok h
  have hv := (vecRead_until_ok (pred := isNul) (s := ()) (u8Read_forward native) (by omega)
    ⟨hr.healthy, hr.wf⟩).1 h1
  obtain ⟨s', rfl, h0⟩ := (firstMatch_nul _).1 hv.2.2
  rw [cstringOf_run, (fromVecWithNul_iff _ _).2 ⟨rfl, h0⟩] at h2
  simp at h2
  obtain ⟨rfl, rfl⟩ := h2
  obtain ⟨hrest, st, _⟩ := u8Read_readN native hr hv.2.1
  refine ⟨h0, hrest, ?_⟩
  simpa using st

/-- Without a NUL. -/
theorem cstringRead_no_nul (native : Endian) {mem p : Nat} {r : Reader} (hr : r.At p)
    (hm : r.unreadMsb.length ≤ 8 * mem)
    (h : ¬ ∃ s rest, r.unreadMsb = bytesBits (s ++ [0]) ++ rest) :
    ∃ k r', cstringRead native mem r = (.err (.incomplete k), r') := by
  have hI : r.Usable := ⟨hr.healthy, hr.wf⟩
  cases hv : vecRead mem 1 (u8Read native) (.until isNul ()) r with
  | mk x r' =>
    cases x with
    | ok bs =>
      have hv' := (vecRead_until_ok (pred := isNul) (s := ()) (u8Read_forward native) (by omega) hI).1 hv
      obtain ⟨s', rfl, h0⟩ := (firstMatch_nul _).1 hv'.2.2
      obtain ⟨⟨rest, hrest⟩, _⟩ := u8Read_readN native hr hv'.2.1
      exact absurd ⟨s', rest, hrest⟩ h
    | err e =>
      simp only [cstringRead]
      rw [M.bind_err (show vecRead mem 1 (u8Read native) (.until (fun b (_ : Unit) => (b == 0, ())) ()) r = _ from hv)]
      simp only [vecRead, vecWithPredicate_none (show 1 ≠ 0 by omega)] at hv
      obtain ⟨vs, r1, hvs, _, he⟩ := vecLoop_until_err (u8Read_forward native) hI (Nat.le_refl _) hv
      obtain ⟨_, st, _⟩ := u8Read_readN native hr hvs
      have hd := u8Read_delivers native r1 st.healthy st.wf
      by_cases h8 : 8 ≤ (r1.unread .msb0).length
      · obtain ⟨r2, e2, _⟩ := hd.1 h8
        rw [he] at e2; simp at e2
      · obtain ⟨k, r2, e2, _⟩ := hd.2 h8
        rw [he] at e2; simp at e2
        exact ⟨k, r', by rw [e2.1]⟩
    | panic =>
      simp only [vecRead, vecWithPredicate_none (show 1 ≠ 0 by omega)] at hv
      rcases vecLoop_until_calm (u8Read_forward native) hI (Nat.le_refl _) (by rw [hv]) with
        ⟨vs, r1, hvs, _, he⟩ | ⟨vs, r1, hvs, hlen⟩
      · obtain ⟨_, st, _⟩ := u8Read_readN native hr hvs
        exact absurd he ((u8Read_delivers native).noPanic st.healthy st.wf)
      · obtain ⟨⟨rest, hrest⟩, _, _⟩ := u8Read_readN native hr hvs
        have := congrArg List.length hrest
        simp only [List.length_append, length_bytesBits] at this
        omega

theorem u8Write_writes (native : Endian) (ctx : IntCtx) {e : Endian}
    (hs : ctx.shape native 1 = (e, 8, .msb0)) (b : Byte) (p : Nat) :
    Writes .msb0 p (u8Write native ctx b) (byteBits b) := by
  have hc : Prim.Compatible native 1 ctx p := by
    unfold Prim.Compatible
    rw [hs]
    split
    · intro h; simp at h
    · intro h; simp at h
  have h := Prim.writeUnsigned_writes native (W := 1) ctx (p := p) (v := b.toNat) hc
  rw [hs] at h
  have := h (by omega) (by omega) b.isLt
  rwa [Prim.fieldBits_small .msb0 (by omega)] at this

theorem u8Write_list (native : Endian) (ctx : IntCtx) {e : Endian}
    (hs : ctx.shape native 1 = (e, 8, .msb0)) (bs : List Byte) (p : Nat) :
    WritesList .msb0 (u8Write native ctx) p (bytesBits bs) bs := by
  induction bs generalizing p with
  | nil => exact .nil p
  | cons b bs ih => exact .cons (u8Write_writes native ctx hs b p) (ih _)

end Deku
