import Verif.Lemmas.Conv
import Verif.Lemmas.CString

/-!
# `CString` as a type read and written as `Vec<u8>`
-/

namespace Deku

open Reader Coll

/-! ### Reading a list and converting its elements -/

theorem bind_pure_run {σ α β : Type} (f : M σ α) (h : α → β) (s : σ) :
    (f >>= fun v => pure (h v)) s = match f s with
      | (.ok v, s') => (.ok (h v), s')
      | (.err e, s') => (.err e, s')
      | (.panic, s') => (.panic, s') := by
  rcases e : f s with ⟨v | _ | _, s'⟩
  · rw [M.bind_ok e]; rfl
  · rw [M.bind_err e]
  · rw [M.bind_panic e]

theorem vecLoop_map {α β σ τ : Type} (h : α → β) (read : M Reader α) {pred : Nat → α → σ → Bool × σ}
    {pred' : Nat → β → τ → Bool × τ} {rel : σ → τ → Prop} (start : Nat)
    (hp : ∀ n v s t, rel s t → (pred' n (h v) t).1 = (pred n v s).1 ∧ rel (pred n v s).2 (pred' n (h v) t).2) :
    ∀ (mem : Nat) (s : σ) (t : τ), rel s t →
      vecLoop (read >>= fun v => pure (h v)) pred' start mem t
        = (vecLoop read pred start mem s >>= fun l => pure (l.map h))
  | 0, s, t, _ => by
    funext r
    simp only [vecLoop, M.bind_assoc_run]
    rcases e : read r with ⟨v | _ | _, r'⟩
    · rw [M.bind_ok e, M.bind_ok e]; rfl
    · rw [M.bind_err e, M.bind_err e]
    · rw [M.bind_panic e, M.bind_panic e]
  | mem + 1, s, t, hst => by
    funext r
    simp only [vecLoop, M.bind_assoc_run]
    rcases e : read r with ⟨v | _ | _, r'⟩
    · rw [M.bind_ok e, M.bind_ok e]
      simp only [M.pure_bind_run, M.get_bind_run, M.bind_assoc_run]
      obtain ⟨h1, h2⟩ := hp (r'.bitsRead - start) v s t hst
      by_cases ha : start ≤ r'.bitsRead
      · have hass : ∀ (k : Unit → M Reader (List β)), (M.assert (decide (start ≤ r'.bitsRead)) >>= k) r' = k () r' := by
          intro k; rw [decide_eq_true ha]; rfl
        rw [hass, hass, h1]
        by_cases hc : (pred (r'.bitsRead - start) v s).1
        · rw [if_pos hc, if_pos hc]; rfl
        · rw [if_neg hc, if_neg hc]
          rw [vecLoop_map h read start hp mem _ _ h2]
          simp only [M.bind_assoc_run]
          rcases e' : vecLoop read pred start mem (pred (r'.bitsRead - start) v s).2 r' with ⟨l | _ | _, r2⟩
          · rw [M.bind_ok e', M.bind_ok e']; rfl
          · rw [M.bind_err e', M.bind_err e']
          · rw [M.bind_panic e', M.bind_panic e']
      · have hass : ∀ (k : Unit → M Reader (List β)), (M.assert (decide (start ≤ r'.bitsRead)) >>= k) r' = (.panic, r') := by
          intro k; simp [M.assert, ha, M.bind_def, M.panic]
        rw [hass, hass]
    · rw [M.bind_err e, M.bind_err e]
    · rw [M.bind_panic e, M.bind_panic e]

/-! ### One byte -/

theorem Src.readExact_length {s : Src} {n : Nat} {bs : List Byte} {s' : Src}
    (h : s.readExact n = (.ok bs, s')) : bs.length = n := by
  unfold Src.readExact at h
  split at h
  · simp at h
  · split at h
    · simp at h
      rw [← h.1]
      simp
      omega
    · simp at h

theorem ioRead_length {n : Nat} {r r' : Reader} {bs : List Byte} (h : Reader.ioRead n r = (.ok (.ok bs), r')) :
    bs.length = n := by
  unfold Reader.ioRead at h
  simp at h
  exact Src.readExact_length (Prod.ext h.1 rfl)

theorem readBytesConstInto_one {o : Order} {r r' : Reader} {bs : List Byte}
    (h : Reader.readBytesConstInto 1 o r = (.ok bs, r')) : bs.length = 1 := by
  unfold Reader.readBytesConstInto at h
  rw [M.get_bind_run] at h
  cases hl : r.leftover with
  | none =>
    rw [hl] at h
    obtain ⟨x, r1, e1, e2⟩ := M.bind_eq_ok h
    rcases x with e | bs'
    · cases e <;> simp [M.throw] at e2
    · have := ioRead_length e1
      obtain ⟨_, r2, _, e3⟩ := M.bind_eq_ok e2
      simp at e3
      rw [← e3.1]
      exact this
  | some l =>
    rw [hl] at h
    cases l with
    | byte b =>
      simp only at h
      unfold Reader.readBytesLeftover at h
      simp only [Nat.one_ne_zero, if_false] at h
      obtain ⟨_, r2, _, e3⟩ := M.bind_eq_ok h
      simp at e3
      rw [← e3.1]
      rfl
    | bits b =>
      obtain ⟨x, r1, e1, e2⟩ := M.bind_eq_ok h
      cases o <;> simp at e2 <;> rw [← e2.1] <;> simp [Reader.packBytes]

theorem u8Read_eq (native : Endian) :
    (uintCodec native 1 .unit).read = (u8Read native >>= fun b => pure (Val.ofByte b)) := by
  funext r
  simp only [uintCodec, u8Read, Prim.readUnsigned, Prim.readWhole, M.bind_assoc_run]
  rcases e : Reader.readBytesConstInto 1 .msb0 r with ⟨bs | _ | _, r'⟩
  · rw [M.bind_ok e, M.bind_ok e]
    have hl := readBytesConstInto_one e
    match bs, hl with
    | [b], _ =>
      have hb : endianNat native [b] = b.toNat := by cases native <;> simp [endianNat, leNat, beNat]
      have := b.isLt
      simp only [M.pure_bind_run, hb, Val.ofByte]
      simp
  · rw [M.bind_err e, M.bind_err e]
  · rw [M.bind_panic e, M.bind_panic e]

theorem u8Write_eq (native : Endian) (ctx : IntCtx) (b : Byte) :
    (uintCodec native 1 ctx).write (.ofByte b) = u8Write native ctx b := by
  have := b.isLt
  simp only [uintCodec, Val.ofByte, u8Write]
  rw [if_pos (by omega)]
  simp

theorem writeAll_ofByte (native : Endian) (ctx : IntCtx) : ∀ bs : List Byte,
    Coll.writeAll (uintCodec native 1 ctx).write (bs.map Val.ofByte) = Coll.writeAll (u8Write native ctx) bs
  | [] => rfl
  | b :: bs => by simp only [List.map_cons, Coll.writeAll, u8Write_eq, writeAll_ofByte native ctx bs]

/-! ### The string -/

/-- Reading and writing a type, as a codec. -/
def Ty.codec (m : Machine) (t : Ty) (env : Env) : Codec := ⟨t.read m env, t.write m env⟩

/-- `u8` without context. -/
def byteTy (native : Endian) : Ty := .prim (some 8) fun _ => uintCodec native 1 .unit

/-- The bytes up to and including the first NUL. -/
def textTy (native : Endian) : Ty :=
  .vec 1 (.until fun _ seen => decide (seen.head? = some (.num 0))) (byteTy native)

/-- `CString::from_vec_with_nul`. -/
def textOf (v : Val) : Option Val :=
  (fromVecWithNul (v.elems.map Val.toByte)).map fun s => .ofList (s.map .ofByte)

/-- `as_bytes_with_nul`. -/
def textBytes (v : Val) : Option Val :=
  if v.isCString then some (.ofList (v.elems ++ [.num 0])) else none

theorem toByte_ofByte (b : Byte) : (Val.ofByte b).toByte = b := by
  simp [Val.ofByte, Val.toByte]

theorem map_toByte_ofByte (bs : List Byte) : (bs.map Val.ofByte).map Val.toByte = bs := by
  simp [Function.comp_def, toByte_ofByte]

theorem ofByte_eq_zero (b : Byte) : Val.ofByte b = .num 0 ↔ b = 0 := by
  constructor
  · intro h
    simp only [Val.ofByte] at h
    injection h with h
    exact BitVec.eq_of_toNat_eq (by simpa using h)
  · rintro rfl; rfl

theorem cstringCodec_eq (native : Endian) (mem : Nat) :
    cstringCodec native mem = convCodec ((textTy native).codec ⟨native, mem⟩ {}) textOf textBytes := by
  simp only [cstringCodec, convCodec, Ty.codec]
  congr 1
  · funext r
    simp only [textTy, byteTy, Ty.read, LimitE.eval, Coll.cstringRead, vecRead, vecWithPredicate, M.bind_assoc_run, M.pure_bind_run]
    simp only [Nat.one_ne_zero, if_false, M.bind_assoc_run, withCapacity, M.pure_bind_run, M.get_bind_run]
    rw [u8Read_eq, vecLoop_map (rel := fun (_ : Unit) (_ : List Val) => True) Val.ofByte (u8Read native) (pred := fun _ b (_ : Unit) => (b == 0, ())) r.bitsRead
      (fun n v s t _ => ⟨by
        simp only [List.head?_cons, Option.some.injEq]
        rw [Bool.eq_iff_iff]
        simp [ofByte_eq_zero], trivial⟩) mem () [] trivial]
    simp only [M.bind_assoc_run]
    rcases e : vecLoop (u8Read native) (fun _ b (_ : Unit) => (b == 0, ())) r.bitsRead mem () r with ⟨l | _ | _, r'⟩
    · rw [M.bind_ok e, M.bind_ok e]
      simp only [M.pure_bind_run, convert, textOf, elems_ofList, map_toByte_ofByte, cstringOf]
      cases fromVecWithNul l <;> rfl
    · rw [M.bind_err e, M.bind_err e]
    · rw [M.bind_panic e, M.bind_panic e]
  · funext v
    unfold textBytes
    by_cases h : v.isCString
    · rw [if_pos h, if_pos h]
      simp only [textTy, byteTy, Ty.write, isList_ofList, if_true, elems_ofList, Coll.cstringWrite]
      have hb : v.isBytes = true := by
        simp only [Val.isCString, Bool.and_eq_true] at h; exact h.1
      rw [← writeAll_ofByte, List.map_append, (isBytes_elems hb).2]
      rfl
    · rw [if_neg h, if_neg h]

/-- `n` bytes. -/
def sizedTextTy (native : Endian) (n : Nat) : Ty := .vec 1 (.count fun _ => n) (byteTy native)

theorem writeWhole_one (native : Endian) (v : Nat) :
    Prim.writeWhole 1 native v = Prim.writeU8Bytes v := by
  cases native <;> simp [Prim.writeWhole, Prim.writeU8Bytes, endianBytes, toLE, toBE]

theorem u8Write_sized (native : Endian) (n : Nat) (b : Byte) : u8Write native (.bytes n) b = u8Write native .unit b := by
  simp only [u8Write, Prim.writeUnsigned, Prim.writeUBytes, writeWhole_one, if_true]

theorem cstringSizedCodec_eq (native : Endian) (mem : Nat) {n : Nat} (hn : n < 2 ^ 64) :
    cstringSizedCodec native mem n = convCodec ((sizedTextTy native n).codec ⟨native, mem⟩ {}) textOf textBytes := by
  have hu : (toUsize (n : Int) : M Reader Nat) = pure n := by
    unfold toUsize
    rw [if_pos (by omega)]
    simp
  simp only [cstringSizedCodec, convCodec, Ty.codec]
  rw [Codec.mk.injEq]
  constructor
  · funext r
    simp only [sizedTextTy, byteTy, Ty.read, LimitE.eval, Coll.cstringReadSized, vecRead, vecWithPredicate, hu, M.bind_assoc_run, M.pure_bind_run]
    by_cases h0 : n = 0
    · subst h0
      rfl
    rw [if_neg h0, if_neg h0]
    simp only [Nat.one_ne_zero, if_false, M.bind_assoc_run, withCapacity]
    by_cases hc : n ≤ mem
    · have hass : ∀ {α : Type} (k : Unit → M Reader α), (M.assert (decide (n ≤ mem)) >>= k) r = k () r := by
        intro α k; rw [decide_eq_true hc]; rfl
      rw [hass, hass]
      simp only [M.get_bind_run, M.bind_assoc_run]
      rw [u8Read_eq, vecLoop_map (rel := fun (a b : Nat) => a = b) Val.ofByte (u8Read native) (pred := countPred) (pred' := countPred) r.bitsRead
        (fun n v s t h => by subst h; exact ⟨rfl, rfl⟩) mem n n rfl]
      simp only [M.bind_assoc_run]
      rcases e : vecLoop (u8Read native) countPred r.bitsRead mem n r with ⟨l | _ | _, r'⟩
      · rw [M.bind_ok e, M.bind_ok e]
        simp only [M.pure_bind_run, convert, textOf, elems_ofList, map_toByte_ofByte, cstringOf]
        cases fromVecWithNul l <;> rfl
      · rw [M.bind_err e, M.bind_err e]
      · rw [M.bind_panic e, M.bind_panic e]
    · have hass : ∀ {α : Type} (k : Unit → M Reader α), (M.assert (decide (n ≤ mem)) >>= k) r = (.panic, r) := by
        intro α k; simp [M.assert, hc, M.bind_def, M.panic]
      rw [hass, hass]
  · funext v
    unfold textBytes
    by_cases h : v.isCString
    · rw [if_pos h, if_pos h]
      simp only [sizedTextTy, byteTy, Ty.write, isList_ofList, if_true, elems_ofList, Coll.cstringWrite]
      have hb : v.isBytes = true := by
        simp only [Val.isCString, Bool.and_eq_true] at h; exact h.1
      rw [funext (u8Write_sized native n), ← writeAll_ofByte, List.map_append, (isBytes_elems hb).2]
      rfl
    · rw [if_neg h, if_neg h]

end Deku
