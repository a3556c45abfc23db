import Verif.Lemmas.SizedRead
import Verif.Lemmas.Sint

/-!
# Signed integers whose size is given by a field before
-/

namespace Deku

open Prim

namespace Sizing

theorem signedRecord_read (s : Sizing) (m : Machine) (size : Nat → Nat) (env : Env) :
    (s.signedRecord m size).read m env = (do
      let k ← readUnsigned m.native 1 .unit
      let v ← readSigned m.native s.W (s.ctx (size k))
      pure (.ofList [.num k, .num v])) := by
  funext r
  simp only [signedRecord, Ty.read, Fields.read, seekRead, magicRead, Attrs.read, padRead, Attrs.value, Attrs.isRead, uintCodec, sintCodec,
    Attrs.check, Attrs.applyMap, bind, M.bind, pure, M.pure, M.get]
  rcases h1 : readUnsigned m.native 1 .unit r with ⟨x, r1⟩
  cases x with
  | ok k =>
    have h0 : ((Expr.field 0).eval ((({} : Env).push (.num k)).at 0)).toNat = k := rfl
    simp only [if_true, Bool.true_eq_false, if_false, Bool.false_eq_true, M.bind, M.pure, h1, h0]
    rcases h2 : readSigned m.native s.W (s.ctx (size k)) r1 with ⟨y, r2⟩
    cases y <;> rfl
  | err e => simp [M.bind, h1]
  | panic => simp [M.bind, h1]

theorem signedRecord_write (s : Sizing) (hW : 1 ≤ s.W) (m : Machine) (size : Nat → Nat) (env : Env) (k : Nat) (v : Int) (hk : k < 256)
    (hv : InRange (8 * s.W) v) :
    (s.signedRecord m size).write m env (.ofList [.num k, .num v]) = (do
      writeUnsigned m.native 1 .unit k
      writeSigned m.native s.W (s.ctx (size k)) v) := by
  funext r
  have hk' : ((k : Int) < 256) := by omega
  have hv' := (inRange_width hW v).2 hv
  simp only [signedRecord, Ty.write, Val.ofList, Fields.write, seekWrite, magicWrite, Attrs.write, padWrite, Attrs.put, Attrs.isWritten,
    uintCodec, sintCodec, Attrs.check, Coll.writeAll, bind, M.bind, pure, M.pure, M.get, if_true, Bool.true_eq_false, if_false,
    Bool.false_eq_true]
  have h0 : ((Expr.field 0).eval ((({} : Env).push (.num k)).at 0)).toNat = k := rfl
  rw [h0]
  simp only [Int.natCast_nonneg, Int.pow_one, hk', hv', and_self, if_true, Int.toNat_natCast]
  rcases h1 : writeUnsigned m.native 1 .unit k r with ⟨x, r1⟩
  cases x with
  | ok u =>
    simp only
    rcases h2 : writeSigned m.native s.W (s.ctx (size k)) v r1 with ⟨y, r2⟩
    cases y <;> rfl
  | err e => rfl
  | panic => rfl

theorem ctx_sshape {s : Sizing} (h : s.compiles = true) (native : Endian) (n : Nat) :
    (s.ctx n).sshape native s.W = (s.endian.getD native, s.bits n, s.order.getD .msb0) ∧ (s.ctx n).isBits = (!s.inBytes) ∧
    (s.ctx n).extends = s.signExtends n ∧ ((s.ctx n).isBits = true → (s.ctx n).noOrder = decide (s.order = none)) ∧
    (s.ctx n).asked = some (s.bits n) := by
  obtain ⟨W, b, e, o⟩ := s
  cases b <;> cases e <;> cases o <;>
    simp_all [compiles, args, ctx, fieldArgs, intArgs, IntCtx.shape, IntCtx.sshape, IntCtx.isBits, bits, IntCtx.extends, signExtends, IntCtx.noOrder, IntCtx.asked] <;>
    rfl

theorem signed_first (s : Sizing) (m : Machine) (size : Nat → Nat) (env : Env) (b : Byte) (rest : List Byte) :
    fromBytes ((s.signedRecord m size).read m env) (b :: rest) 0 =
      match readSigned m.native s.W (s.ctx (size b.toNat)) (after b rest) with
      | (.ok v, r) =>
        if r.bitsRead / 8 ≤ rest.length + 1 then
          .ok (((b :: rest).drop (r.bitsRead / 8), r.bitsRead % 8), .ofList [.num b.toNat, .num v])
        else .err (.incomplete (8 * (r.bitsRead / 8 - (rest.length + 1))))
      | (.err e, _) => .err e
      | (.panic, _) => .panic := by
  unfold fromBytes
  simp only [readFrom, ne_eq, not_true_eq_false, if_false]
  rw [signedRecord_read, M.bind_ok (readFirst m.native b rest)]
  simp only [M.bind_def]
  rcases h : readSigned m.native s.W (s.ctx (size b.toNat)) (after b rest) with ⟨x, r⟩
  rw [show ({ inner := { data := b :: rest, pos := 1, calls := 1 }, bitsRead := 8 } : Reader) = after b rest from rfl, h]
  cases x <;> rfl

theorem order_lsb {s : Sizing} (h : s.order.getD .msb0 = .lsb0) : s.order = some .lsb0 := by
  cases ho : s.order with
  | none => rw [ho] at h; cases h
  | some o => rw [ho] at h; simp only [Option.getD_some] at h; rw [h]

theorem signExtends_bits {s : Sizing} {n : Nat} : s.signExtends (s.bits n) = s.signExtends n := by
  cases h : s.inBytes <;> simp [signExtends, bits, h]

theorem signed_both {s : Sizing} (hs : s.compiles = true) (hW : 1 ≤ s.W) (m : Machine) (size : Nat → Nat) (env : Env) {k p : Nat} {v : Int}
    (hk : k < 256) (h1 : 1 ≤ s.bits (size k)) (hn : s.bits (size k) ≤ 8 * s.W) (hv : InRange (8 * s.W) v)
    (hacc : s.Accepts (size k) v) (ha : s.Agrees m.native (size k)) (hp : s.order = some .lsb0 → p % 8 = 0) :
    Writes (s.order.getD .msb0) p ((s.signedRecord m size).write m env (.ofList [.num k, .num v])) (s.image m.native size k (pattern s.W v)) ∧
    Reads (s.order.getD .msb0) p ((s.signedRecord m size).read m env) (s.image m.native size k (pattern s.W v))
      (.ofList [.num k, .num (s.signedValue m.native (s.bits (size k)) (fieldBits (s.endian.getD m.native) (s.order.getD .msb0) (s.bits (size k)) (pattern s.W v)))]) := by
  rw [signedRecord_write s hW m size env k v hk hv, signedRecord_read]
  obtain ⟨hshape, hbits, hext, hno, -⟩ := ctx_sshape hs m.native (size k)
  have hp' : s.order.getD .msb0 = .lsb0 → p % 8 = 0 := fun h => hp (order_lsb h)
  have hlen : (orderBits (s.order.getD .msb0) [BitVec.ofNat 8 k]).length = 8 := by
    rw [Reader.length_orderBits]; rfl
  have hc : Compatible m.native s.W (s.ctx (size k)) (p + (orderBits (s.order.getD .msb0) [BitVec.ofNat 8 k]).length) := by
    obtain ⟨hshape', -⟩ := ctx_shape hs m (size k) h1 hn
    unfold Compatible
    rw [hshape', hbits, hlen]
    cases hb : s.inBytes with
    | true =>
      simp only [Bool.not_true, Bool.false_eq_true, if_false]
      intro h
      have := hp' h
      omega
    | false =>
      simp only [Bool.not_false, if_true]
      intro h he
      have := ha (order_lsb h) he
      have hbn : s.bits (size k) = size k := by simp [bits, hb]
      rw [hbn]
      rcases this with h | h
      · rw [hb] at h; cases h
      · exact h
  have hacc' : (s.ctx (size k)).Accepts s.W (s.bits (size k)) v := by
    intro hb
    rw [hno hb]
    rw [hbits] at hb
    have hb' : s.inBytes = false := by simpa using hb
    have := hacc hb'
    rw [show s.bits (size k) = size k by simp [bits, hb']]
    simpa using this
  obtain ⟨w1, r1⟩ := u8_both m.native (s.order.getD .msb0) hp' hk
  have w2 := writeSigned_writes hshape h1 hn hv hacc' hc
  have r2 := (readSigned_delivers hW hshape h1 hn)
  refine ⟨w1.bind w2, r1.bind (Reads.map (a := s.signedValue m.native (s.bits (size k)) _) ?_ fun v => Val.ofList [.num k, .num v])⟩
  have := r2.reads (length_fieldBits (s.endian.getD m.native) (s.order.getD .msb0) (s.bits (size k)) (pattern s.W v))
    (p + (orderBits (s.order.getD .msb0) [BitVec.ofNat 8 k]).length)
  rwa [hext, ← signExtends_bits] at this

theorem signedValue_back {s : Sizing} {native : Endian} {n : Nat} {v : Int} (h1 : 1 ≤ n) (hn : n ≤ 8 * s.W)
    (hd : Dense (s.endian.getD native) n (s.order.getD .msb0)) (hv : InRange (8 * s.W) v)
    (hr : if s.signExtends n then InRange n v else pattern s.W v < 2 ^ n) :
    s.signedValue native n (fieldBits (s.endian.getD native) (s.order.getD .msb0) n (pattern s.W v)) = v := by
  unfold signedValue
  simp only [fieldValue_fieldBits hd]
  split at hr
  · rw [if_pos ‹_›, Nat.mod_mod, twosComplement_pattern h1 hn hr]
  · rw [if_neg ‹_›, Nat.mod_eq_of_lt hr]
    have := twosComplement_pattern (W := s.W) (by omega) (Nat.le_refl _) hv
    rwa [Nat.mod_eq_of_lt (by rw [← Prim.pow256]; exact pattern_lt s.W v)] at this

end Sizing

theorem Sizing.zero_inRange (n : Nat) : InRange n 0 := by
  have : 0 < 2 ^ (n - 1) := Nat.pow_pos (by omega)
  unfold InRange
  omega

theorem Sizing.signed_zero_panics {s : Sizing} (hW : 1 ≤ s.W) (hb : s.inBytes = false)
    (he : s.endian.isSome = true) (native : Endian) (r : Reader) :
    (readSigned native s.W (s.ctx 0) r).1 = .panic := by
  obtain ⟨W, c, e, o⟩ := s
  have h2 : ∀ e o, (readSignedBitsOrd W e 0 o r).1 = .panic := by
    intro e o
    simp only [readSignedBitsOrd, gt_iff_lt, Nat.not_lt_zero, if_false, readBitsInto_zero]
    have : (readSliceSigned W e o [] r).1 = .panic := by
      unfold readSliceSigned
      rcases h : readSliceOrd W e o [] r with ⟨x, r'⟩
      cases x <;> simp [bind, M.bind, h, M.panic]
      cases o with
      | msb0 => have := readSliceOrd_nil hW e r; rw [h] at this; cases this
      | lsb0 => have := readSliceOrd_nil_lsb (W := W) e r; rw [h] at this; cases this
    exact this
  simp only at hb
  subst hb
  rcases e with _ | e
  · simp at he
  rcases o with _ | o
  · exact h2 e _
  · exact h2 e _

theorem Sizing.signed_zero_reads {s : Sizing} (hs : s.compiles = true)
    (hp : ¬ (s.inBytes = false ∧ s.endian.isSome = true)) (native : Endian) (b : Byte) (rest : List Byte) :
    ∃ r, readSigned native s.W (s.ctx 0) (after b rest) = (.ok 0, r) ∧ r.bitsRead = 8 := by
  obtain ⟨W, c, e, o⟩ := s
  have h1 : ∀ e o, ∃ r, readSignedBytesOrd W e 0 o (after b rest) = (.ok 0, r) ∧ r.bitsRead = 8 := by
    intro e o
    refine ⟨{ after b rest with inner := { data := b :: rest, pos := 1, calls := 2 } }, ?_, rfl⟩
    have : 0 < 256 ^ W := Nat.pow_pos (by omega)
    simp [readSignedBytesOrd, Reader.readBytes, Reader.ioRead, Src.readExact, after, noFaults, bind, M.bind, M.get, M.modify, pure, M.pure, bufNat_nil, signed]
  rcases c with _ | _
  · rcases e with _ | e
    · rcases o with _ | o
      · exact h1 _ _
      · exact h1 _ _
    · exact absurd ⟨rfl, rfl⟩ hp
  · rcases e with _ | e <;> rcases o with _ | o <;>
      first
        | exact h1 _ _
        | (simp [compiles, args, fieldArgs, intArgs] at hs)

end Deku
