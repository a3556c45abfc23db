import Verif.Spec.Sized
import Verif.Lemmas.Wire

/-! # Integers whose size is given by a field before -/

namespace Deku

open Prim

namespace Sizing

theorem record_read (s : Sizing) (m : Machine) (size : Nat → Nat) (env : Env) :
    (s.record m size).read m env = (do
      let k ← readUnsigned m.native 1 .unit
      let v ← readUnsigned m.native s.W (s.ctx (size k))
      pure (.ofList [.num k, .num v])) := by
  funext r
  simp only [record, Ty.read, Fields.read, seekRead, magicRead, Attrs.read, padRead, Attrs.value, Attrs.isRead, uintCodec,
    Attrs.check, Attrs.applyMap, bind, M.bind, pure, M.pure, M.get]
  rcases h1 : readUnsigned m.native 1 .unit r with ⟨x, r1⟩
  cases x with
  | ok k =>
    have h0 : ((Expr.field 0).eval ((({} : Env).push (.num k)).at 0)).toNat = k := rfl
    simp only [if_true, Bool.true_eq_false, if_false, Bool.false_eq_true, M.bind, M.pure, h1, h0]
    rcases h2 : readUnsigned m.native s.W (s.ctx (size k)) r1 with ⟨y, r2⟩
    cases y <;> rfl
  | err e => simp [M.bind, h1]
  | panic => simp [M.bind, h1]

theorem record_write (s : Sizing) (m : Machine) (size : Nat → Nat) (env : Env) (k v : Nat) (hk : k < 256) (hv : v < 256 ^ s.W) :
    (s.record m size).write m env (.ofList [.num k, .num v]) = (do
      writeUnsigned m.native 1 .unit k
      writeUnsigned m.native s.W (s.ctx (size k)) v) := by
  funext r
  have hk' : ((k : Int) < 256) := by omega
  have hv' : (v : Int) < 256 ^ s.W := by
    have := (Int.ofNat_lt (n := v) (m := 256 ^ s.W)).2 hv
    rwa [Int.natCast_pow] at this
  simp only [record, Ty.write, Val.ofList, Fields.write, seekWrite, magicWrite, Attrs.write, padWrite, Attrs.put, Attrs.isWritten,
    uintCodec, Attrs.check, Coll.writeAll, bind, M.bind, pure, M.pure, M.get, if_true, Bool.true_eq_false, if_false,
    Bool.false_eq_true]
  have h0 : ((Expr.field 0).eval ((({} : Env).push (.num k)).at 0)).toNat = k := rfl
  rw [h0]
  simp only [Int.natCast_nonneg, Int.pow_one, hk', hv', and_self, if_true, Int.toNat_natCast]
  rcases h1 : writeUnsigned m.native 1 .unit k r with ⟨x, r1⟩
  cases x with
  | ok u =>
    simp only
    rcases h2 : writeUnsigned m.native s.W (s.ctx (size k)) v r1 with ⟨y, r2⟩
    cases y <;> rfl
  | err e => rfl
  | panic => rfl

theorem ctx_some {s : Sizing} (h : s.compiles = true) (n : Nat) : intArgs (s.args n) = some (s.ctx n) := by
  obtain ⟨W, b, e, o⟩ := s
  cases b <;> cases e <;> cases o <;>
    simp_all [compiles, args, ctx, fieldArgs, intArgs]

theorem ctx_shape {s : Sizing} (h : s.compiles = true) (m : Machine) (n : Nat) (h1 : 1 ≤ s.bits n) (hn : s.bits n ≤ 8 * s.W) :
    (s.ctx n).shape m.native s.W = (s.endian.getD m.native, s.bits n, s.order.getD .msb0) ∧
      (s.ctx n).isBits = !s.inBytes := by
  obtain ⟨W, b, e, o⟩ := s
  cases b <;> cases e <;> cases o <;>
    simp_all [compiles, args, ctx, fieldArgs, intArgs, IntCtx.shape, IntCtx.isBits, bits] <;> (intro h; omega)

theorem u8_both (native : Endian) (o : Order) {p k : Nat} (hp : o = .lsb0 → p % 8 = 0) (hk : k < 256) :
    Writes o p (writeUnsigned native 1 .unit k) (orderBits o [BitVec.ofNat 8 k]) ∧
    Reads o p (readUnsigned native 1 .unit) (orderBits o [BitVec.ofNat 8 k]) k := by
  have he : endianBytes 1 native k = [BitVec.ofNat 8 k] := by cases native <;> rfl
  have h0 := round_trip (native := native) (W := 1) (ctx := .unit) (p := p) (v := k) (by omega) rfl (by omega) (by omega) (by simpa using hk)
    (by simp [Compatible, IntCtx.isBits, IntCtx.shape])
  rw [← orderBits_endianBytes, he] at h0
  cases o with
  | msb0 => exact h0
  | lsb0 =>
    refine ⟨?_, h0.2.switch (hp rfl)⟩
    have := writeUnsigned_low (native := native) (W := 1) (ctx := .unit) (v := k) (o := .lsb0) (p := p) rfl (by omega) (by omega)
      (by simp [IntCtx.isBits]) (fun h _ => hp h)
    rwa [← orderBits_endianBytes, he] at this

theorem record_both {s : Sizing} (hs : s.compiles = true) (hW : 1 ≤ s.W) (m : Machine) (size : Nat → Nat) (env : Env) {k v p : Nat}
    (hk : k < 256) (h1 : 1 ≤ s.bits (size k)) (hn : s.bits (size k) ≤ 8 * s.W) (hv : v < 2 ^ s.bits (size k))
    (ha : s.Agrees m.native (size k)) (hp : s.order = some .lsb0 → p % 8 = 0) :
    Writes (s.order.getD .msb0) p ((s.record m size).write m env (.ofList [.num k, .num v])) (s.image m.native size k v) ∧
    Reads (s.order.getD .msb0) p ((s.record m size).read m env) (s.image m.native size k v) (.ofList [.num k, .num v]) := by
  have hlt : v < 256 ^ s.W := by
    rw [show (256 : Nat) ^ s.W = 2 ^ (8 * s.W) by rw [Nat.pow_mul]]
    exact Nat.lt_of_lt_of_le hv (Nat.pow_le_pow_right (by omega) hn)
  rw [record_write s m size env k v hk hlt, record_read]
  obtain ⟨hshape, hbits⟩ := ctx_shape hs m (size k) h1 hn
  have hp' : s.order.getD .msb0 = .lsb0 → p % 8 = 0 := by
    intro h
    refine hp ?_
    cases ho : s.order with
    | none => rw [ho] at h; cases h
    | some o => rw [ho] at h; simp only [Option.getD_some] at h; rw [h]
  have hlen : (orderBits (s.order.getD .msb0) [BitVec.ofNat 8 k]).length = 8 := by
    rw [Reader.length_orderBits]; rfl
  have hc : Compatible m.native s.W (s.ctx (size k)) (p + (orderBits (s.order.getD .msb0) [BitVec.ofNat 8 k]).length) := by
    unfold Compatible
    rw [hshape, hbits, hlen]
    cases hb : s.inBytes with
    | true =>
      simp only [Bool.not_true, Bool.false_eq_true, if_false]
      intro h
      have := hp' h
      omega
    | false =>
      simp only [Bool.not_false, if_true]
      intro h he
      have := ha (by
        cases ho : s.order with
        | none => rw [ho] at h; cases h
        | some o => rw [ho] at h; simp only [Option.getD_some] at h; rw [h]) he
      have hbn : s.bits (size k) = size k := by simp [bits, hb]
      rw [hbn]
      rcases this with h | h
      · rw [hb] at h; cases h
      · exact h
  obtain ⟨w1, r1⟩ := u8_both m.native (s.order.getD .msb0) hp' hk
  obtain ⟨w2, r2⟩ := round_trip hW hshape h1 hn hv hc
  exact ⟨w1.bind w2, r1.bind (r2.map fun v => Val.ofList [.num k, .num v])⟩

end Sizing

end Deku
