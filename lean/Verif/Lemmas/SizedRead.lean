import Verif.Lemmas.Sized
import Verif.Lemmas.Safe
import Verif.Props.Int

/-!
# Integers whose size is given by a field before: sequences, and sizes from the input
-/

namespace Deku

open Prim

theorem Sizing.records_both {s : Sizing} (hs : s.compiles = true) (hW : 1 ≤ s.W) (m : Machine) (size : Nat → Nat) (env : Env)
    (ho : s.order ≠ some .lsb0) : ∀ (l : List (Nat × Nat)) (p : Nat),
      (∀ x ∈ l, x.1 < 256 ∧ 1 ≤ s.bits (size x.1) ∧ s.bits (size x.1) ≤ 8 * s.W ∧ x.2 < 2 ^ s.bits (size x.1)) →
      Writes .msb0 p (Coll.writeAll ((s.record m size).write m env) (l.map fun x => .ofList [.num x.1, .num x.2]))
        (l.flatMap fun x => s.image m.native size x.1 x.2) ∧
      Reads .msb0 p (Coll.arrayRead ((s.record m size).read m env) l.length)
        (l.flatMap fun x => s.image m.native size x.1 x.2) (l.map fun x => .ofList [.num x.1, .num x.2])
  | [], p, _ => ⟨Writes.pure _ _, Reads.pure _ _ _⟩
  | x :: l, p, h => by
    obtain ⟨h1, h2, h3, h4⟩ := h x List.mem_cons_self
    obtain ⟨a, b⟩ := record_both hs hW m size env (p := p) h1 h2 h3 h4 (fun h => absurd h ho) (fun h => absurd h ho)
    have hm : s.order.getD .msb0 = .msb0 := by
      cases h : s.order with
      | none => rfl
      | some o =>
        cases o with
        | msb0 => rfl
        | lsb0 => exact absurd h ho
    rw [hm] at a b
    obtain ⟨c, d⟩ := records_both hs hW m size env ho l (p + (s.image m.native size x.1 x.2).length)
      fun y hy => h y (List.mem_cons_of_mem _ hy)
    simp only [List.flatMap_cons, List.map_cons, List.length_cons, Coll.writeAll, Coll.arrayRead]
    exact ⟨a.bind c, b.bind (d.map fun vs => _ :: vs)⟩

theorem Sizing.readFirst (native : Endian) (b : Byte) (rest : List Byte) :
    readUnsigned native 1 .unit (Reader.new { data := b :: rest }) =
      (.ok b.toNat, { inner := { data := b :: rest, pos := 1, calls := 1 }, bitsRead := 8 }) := by
  have he : endianNat native [b] = b.toNat := by
    cases native <;> simp [endianNat, leNat, beNat]
  simp [readUnsigned, readWhole, Reader.readBytesConstInto, Reader.ioRead, Src.readExact, Reader.new, noFaults, bind, M.bind, M.get, M.modify, pure, M.pure, he]

/-- The reader after the first byte. -/
def Sizing.after (b : Byte) (rest : List Byte) : Reader :=
  { inner := { data := b :: rest, pos := 1, calls := 1 }, bitsRead := 8 }

theorem Sizing.record_first (s : Sizing) (m : Machine) (size : Nat → Nat) (env : Env) (b : Byte) (rest : List Byte) :
    fromBytes ((s.record m size).read m env) (b :: rest) 0 =
      match readUnsigned m.native s.W (s.ctx (size b.toNat)) (after b rest) with
      | (.ok v, r) =>
        if r.bitsRead / 8 ≤ rest.length + 1 then
          .ok (((b :: rest).drop (r.bitsRead / 8), r.bitsRead % 8), .ofList [.num b.toNat, .num v])
        else .err (.incomplete (8 * (r.bitsRead / 8 - (rest.length + 1))))
      | (.err e, _) => .err e
      | (.panic, _) => .panic := by
  unfold fromBytes
  simp only [readFrom, ne_eq, not_true_eq_false, if_false]
  rw [record_read, M.bind_ok (readFirst m.native b rest)]
  simp only [M.bind_def]
  rcases h : readUnsigned m.native s.W (s.ctx (size b.toNat)) (after b rest) with ⟨x, r⟩
  rw [show ({ inner := { data := b :: rest, pos := 1, calls := 1 }, bitsRead := 8 } : Reader) = after b rest from rfl, h]
  cases x <;> rfl

theorem Sizing.after_unread (b : Byte) (rest : List Byte) (o : Order) : (after b rest).unread o = orderBits o rest := by
  cases o <;> simp [after, Reader.unread, Reader.unreadMsb, Reader.unreadLsb, Reader.rest, Reader.leftoverBits, orderBits]

theorem Sizing.oneByte_read {s : Sizing} (hs : s.compiles = true) {n : Nat} (h : s.oneByte n) (native : Endian) :
    readUnsigned native s.W (s.ctx n) = readU8Bytes (s.order.getD .msb0) := by
  obtain ⟨W, b, e, o⟩ := s
  obtain ⟨h1, h2⟩ := h
  simp only at h1
  subst h1
  cases b <;> cases e <;> cases o <;>
    simp_all [compiles, args, ctx, fieldArgs, intArgs, readUnsigned, readUBytesOrd]

theorem Sizing.beyond_refused {s : Sizing} (hs : s.compiles = true) {n : Nat} (h : ¬ s.oneByte n) (hn : 8 * s.W < s.bits n)
    (native : Endian) : Refuses (readUnsigned native s.W (s.ctx n)) .parse := by
  have hbytes : ∀ e k o, s.W ≠ 1 → s.W < k → Refuses (readUBytesOrd s.W e k o) .parse := by
    intro e k o hW hk s; simp only [readUBytesOrd, if_neg hW, readBytesOrd, gt_iff_lt, if_pos hk]; rfl
  have hbits : ∀ e k, 8 * s.W < k → Refuses (Prim.readBits s.W e k) .parse := by
    intro e k hk s; simp only [Prim.readBits, gt_iff_lt, if_pos hk]; rfl
  have hbitsO : ∀ e k o, 8 * s.W < k → Refuses (readBitsOrd s.W e k o) .parse := by
    intro e k o hk s; simp only [readBitsOrd, gt_iff_lt, if_pos hk]; rfl
  obtain ⟨W, c, e, o⟩ := s
  simp only [oneByte, bits] at *
  have hbytes' : ∀ e o, ¬ (W = 1 ∧ n % 8 = 0) → 8 * W < n → Refuses (if n % 8 = 0 then readUBytesOrd W e (n / 8) o else readBitsOrd W e n o) .parse := by
    intro e o h1 h2
    by_cases h : n % 8 = 0
    · rw [if_pos h]; exact hbytes _ _ _ (fun hw => h1 ⟨hw, h⟩) (by omega)
    · rw [if_neg h]; exact hbitsO _ _ _ h2
  have hbytes'' : ∀ e o, ¬ (W = 1 ∧ n % 8 = 0) → 8 * W < n → Refuses (if n % 8 = 0 then readUBytesOrd W e (n / 8) o else Prim.readBits W e n) .parse := by
    intro e o h1 h2
    by_cases h : n % 8 = 0
    · rw [if_pos h]; exact hbytes _ _ _ (fun hw => h1 ⟨hw, h⟩) (by omega)
    · rw [if_neg h]; exact hbits _ _ h2
  cases c <;> cases e <;> cases o <;>
    simp only [compiles, args, ctx, fieldArgs, intArgs, readUnsigned, if_true, if_false, Bool.false_eq_true, Option.map_some, Option.map_none,
      Option.toList_some, Option.toList_none, List.nil_append, List.cons_append, List.append_nil, Option.isSome_none, Option.isSome_some,
      Option.getD_some, true_and, false_or, reduceCtorEq, true_or, and_true, false_and, and_false] at hs h hn ⊢ <;>
    first
      | exact hbytes'' _ _ h hn
      | exact hbytes' _ _ h hn
      | exact hbits _ _ hn
      | exact hbitsO _ _ _ hn
      | exact hbytes _ _ _ h (by omega)

theorem bufNat_nil (W : Nat) (e : Endian) : bufNat W e [] = 0 := by
  have hbe : ∀ W, beNat (List.replicate W (0 : Byte)) = 0 := by
    intro W
    induction W with
    | zero => rfl
    | succ W ih => rw [List.replicate_succ, beNat, ih]; simp
  cases e
  · simpa [bufNat] using leNat_replicate_zero W
  · simpa [bufNat] using hbe W

theorem readSlice_nil {W : Nat} (hW : 1 ≤ W) (e : Endian) (r : Reader) : (readSlice W e [] r).1 = .panic := by
  obtain ⟨k, hk⟩ : ∃ k, 8 * W = k + 1 := ⟨8 * W - 1, by omega⟩
  cases e <;> simp [readSlice, hk, insertZeros, bind, M.bind, pure, M.pure, M.panic, M.assert]

theorem readSliceOrd_nil {W : Nat} (hW : 1 ≤ W) (e : Endian) (r : Reader) : (readSliceOrd W e .msb0 [] r).1 = .panic := by
  obtain ⟨k, hk⟩ : ∃ k, 8 * W = k + 1 := ⟨8 * W - 1, by omega⟩
  cases e <;> simp [readSliceOrd, hk, insertZeros, bind, M.bind, pure, M.pure, M.panic, M.assert]

theorem readSliceOrd_nil_lsb {W : Nat} (e : Endian) (r : Reader) : readSliceOrd W e .lsb0 [] r = (.ok 0, r) := by
  have h := bufNat_nil W e
  have h2 : endianNat e (List.replicate W 0) = 0 := by cases e <;> simpa [bufNat, endianNat] using h
  cases e <;> simpa [readSliceOrd, insertZeros, rchunks8, bind, M.bind, pure, M.pure, M.assert] using h2

theorem Sizing.zero_panics {s : Sizing} (hs : s.compiles = true) (hW : 1 ≤ s.W) (hb : s.inBytes = false)
    (he : s.endian.isSome = true) (ho : s.order ≠ some .lsb0) (native : Endian) (r : Reader) :
    (readUnsigned native s.W (s.ctx 0) r).1 = .panic := by
  obtain ⟨W, c, e, o⟩ := s
  have h1 : ∀ e, (Prim.readBits W e 0 r).1 = .panic := by
    intro e
    simp only [Prim.readBits, gt_iff_lt, Nat.not_lt_zero, if_false, false_and, and_false, readBitsInto_zero]
    exact readSlice_nil hW e r
  have h2 : ∀ e, (readBitsOrd W e 0 .msb0 r).1 = .panic := by
    intro e
    simp only [readBitsOrd, gt_iff_lt, Nat.not_lt_zero, if_false, false_and, and_false, readBitsInto_zero]
    exact readSliceOrd_nil hW e r
  simp only at hb
  subst hb
  rcases e with _ | e
  · simp at he
  rcases o with _ | _ | _
  · exact h1 e
  · exact h2 e
  · exact absurd rfl ho

theorem Sizing.zero_reads {s : Sizing} (hs : s.compiles = true) (h : ¬ s.oneByte 0)
    (hp : ¬ (s.inBytes = false ∧ s.endian.isSome ∧ s.order ≠ some .lsb0)) (native : Endian) (b : Byte) (rest : List Byte) :
    ∃ r, readUnsigned native s.W (s.ctx 0) (after b rest) = (.ok 0, r) ∧ r.bitsRead = 8 := by
  obtain ⟨W, c, e, o⟩ := s
  have h1 : ∀ e o, ∃ r, readBytesOrd W e 0 o (after b rest) = (.ok 0, r) ∧ r.bitsRead = 8 := by
    intro e o
    refine ⟨{ after b rest with inner := { data := b :: rest, pos := 1, calls := 2 } }, ?_, rfl⟩
    simp [readBytesOrd, Reader.readBytes, Reader.ioRead, Src.readExact, after, noFaults, bind, M.bind, M.get, M.modify, pure, M.pure, bufNat_nil]
  have h2 : ∀ e, ∃ r, readBitsOrd W e 0 .lsb0 (after b rest) = (.ok 0, r) ∧ r.bitsRead = 8 := by
    intro e
    refine ⟨after b rest, ?_, rfl⟩
    simp only [readBitsOrd, gt_iff_lt, Nat.not_lt_zero, if_false, false_and, and_false, readBitsInto_zero]
    exact readSliceOrd_nil_lsb e _
  have h3 : ∀ e o, W ≠ 1 → ∃ r, readUBytesOrd W e 0 o (after b rest) = (.ok 0, r) ∧ r.bitsRead = 8 := by
    intro e o hw; rw [readUBytesOrd, if_neg hw]; exact h1 e o
  simp only [oneByte, Nat.zero_mod, and_true] at h hp
  rcases c with _ | _
  · rcases e with _ | e
    · have hw : W ≠ 1 := fun hw => h ⟨hw, .inr rfl⟩
      rcases o with _ | o
      · exact h3 _ _ hw
      · exact h3 _ _ hw
    · rcases o with _ | _ | _
      · exact absurd ⟨rfl, rfl, by simp⟩ hp
      · exact absurd ⟨rfl, rfl, by simp⟩ hp
      · exact h2 e
  · have hw : W ≠ 1 := fun hw => h ⟨hw, .inl rfl⟩
    rcases e with _ | e <;> rcases o with _ | o <;>
      first
        | exact h3 _ _ hw
        | (simp [compiles, args, fieldArgs, intArgs] at hs)

theorem Sizing.ctx_shape_bits {s : Sizing} (h : s.compiles = true) (hb : s.inBytes = false) (native : Endian) (n : Nat) :
    (s.ctx n).shape native s.W = (s.endian.getD native, n, s.order.getD .msb0) ∧ (s.ctx n).isBits = true := by
  obtain ⟨W, b, e, o⟩ := s
  simp only at hb
  subst hb
  cases e <;> cases o <;> exact ⟨rfl, rfl⟩

theorem Sizing.dense_of_agrees {s : Sizing} {native : Endian} {k n : Nat} (hn : s.bits k = n) (h8 : n ≤ 8 * s.W) (ha : s.Agrees native k) :
    Dense (s.endian.getD native) n (s.order.getD .msb0) := by
  intro ho he
  have : s.order = some .lsb0 := by
    cases h : s.order with
    | none => rw [h] at ho; cases ho
    | some o => rw [h] at ho; exact congrArg some ho
  have := ha this he
  subst hn
  unfold bits at *
  split at * <;> simp_all <;> omega

end Deku
