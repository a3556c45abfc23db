import Verif.Lemmas.SizedSigned
import Verif.Props.IntExact
import Verif.Model.Release

/-!
# Signed integers whose size is given by a field before: C108
-/

namespace Deku

open Prim

/-- **C108**, in part: a value in the range of a signed number of the size is written in just as many bits after `len`, and
read back from any data that starts with these bits; if the reader extends the sign, or the size is the one of the type, or
the value is not negative. Missing: negative values otherwise, for which it is false, see `C108_the_sign_depends_on_the_size`. -/
theorem C108_sized_by_a_field_before_partial (m : Machine) (s : Sizing) (hs : s.compiles = true) (hW : 1 ≤ s.W) (size : Nat → Nat)
    (env : Env) (k n : Nat) (v : Int) (hk : k < 256) (hsz : s.bits (size k) = n) (h1 : 1 ≤ n) (hn : n ≤ 8 * s.W)
    (hv : InRange n v) (hx : s.order = none ∧ s.signExtends n = true ∨ n = 8 * s.W ∨ 0 ≤ v) (ha : s.Agrees m.native (size k)) :
    (∃ out, toBytes ((s.signedRecord m size).write m env (.ofList [.num k, .num v])) = .ok out ∧
      Packed (s.order.getD .msb0) out (s.image m.native size k (v % 256 ^ s.W).toNat)) ∧
    ∀ data rest, orderBits (s.order.getD .msb0) data = s.image m.native size k (v % 256 ^ s.W).toNat ++ rest →
      fromBytes ((s.signedRecord m size).read m env) data 0 =
        .ok ((data.drop ((8 + n) / 8), n % 8), .ofList [.num k, .num v]) := by
  have hd := Sizing.dense_of_agrees hsz hn ha
  have hv8 : InRange (8 * s.W) v := hv.mono hn
  have hpat : n = 8 * s.W ∨ 0 ≤ v → pattern s.W v < 2 ^ n := by
    rintro (h | h)
    · rw [h, ← Prim.pow256]; exact pattern_lt _ _
    · obtain ⟨-, h2⟩ := inRange_bounds h1 hv
      have h3 := two_pow_le_pow hn
      have := pattern_nonneg (W := s.W) h (by omega)
      omega
  have hacc : s.Accepts (size k) v := by
    intro hb
    have : s.bits (size k) = size k := by simp [Sizing.bits, hb]
    rw [← this, hsz]
    split
    · exact hv
    · rename_i ho
      rcases hx with h | h
      · exact absurd h.1 ho
      · exact hpat h
  have hret : if s.signExtends n then InRange n v else pattern s.W v < 2 ^ n := by
    split
    · exact hv
    · rename_i ho
      rcases hx with h | h
      · exact absurd h.2 ho
      · exact hpat h
  obtain ⟨hw, hr⟩ := Sizing.signed_both hs hW m size env (p := 0) hk (by omega) (by omega) hv8 hacc ha (fun _ => rfl)
  have hpe : (v % 256 ^ s.W).toNat = pattern s.W v := by simp [pattern]
  rw [hpe]
  refine ⟨hw.toBytes, fun data rest hdt => ?_⟩
  have := hr.parses hdt
  rw [show (s.image m.native size k (pattern s.W v)).length = 8 + n by
    simp [Sizing.image, length_fieldBits, Reader.length_orderBits, hsz], hsz, Sizing.signedValue_back h1 hn hd hv8 hret] at this
  rw [this, Nat.add_mod_left]

/-- **C108.** Every input with a size in range: what is read, bit for bit, or how much is missing. -/
theorem C108_every_input_in_range (m : Machine) (s : Sizing) (hs : s.compiles = true) (hW : 1 ≤ s.W) (size : Nat → Nat)
    (env : Env) (b : Byte) (rest : List Byte) (n : Nat) (hn : s.bits (size b.toNat) = n) (h1 : 1 ≤ n) (h8 : n ≤ 8 * s.W) :
    fromBytes ((s.signedRecord m size).read m env) (b :: rest) 0 =
      if n ≤ 8 * rest.length then
        .ok ((rest.drop (n / 8), n % 8), .ofList [.num b.toNat, .num (s.signedValue m.native n
          ((orderBits (s.order.getD .msb0) rest).take n))])
      else .err (.incomplete n) := by
  subst hn
  obtain ⟨hshape, -, hext, -⟩ := Sizing.ctx_sshape hs m.native (size b.toNat)
  have hd := readSigned_delivers hW hshape h1 h8
  have := hd (Sizing.after b rest) rfl (by intro l h; cases h)
  rw [Sizing.after_unread, Reader.length_orderBits] at this
  rw [Sizing.signed_first]
  by_cases hl : s.bits (size b.toNat) ≤ 8 * rest.length
  · rw [if_pos hl]
    obtain ⟨r', e, st⟩ := this.1 hl
    rw [e]
    have hb : r'.bitsRead = 8 + s.bits (size b.toNat) := st.bitsRead
    simp only [hb]
    rw [if_pos (by omega), show (8 + s.bits (size b.toNat)) / 8 = s.bits (size b.toNat) / 8 + 1 by omega, List.drop_succ_cons,
      Nat.add_mod_left, hext, ← Sizing.signExtends_bits]
    rfl
  · rw [if_neg hl]
    obtain ⟨k, r', e, _, hk, _⟩ := this.2 hl
    rw [e, hk (by intro b h; cases h)]

/-- **C108.** A size beyond the type is refused by both directions. -/
theorem C108_a_size_beyond_the_type (m : Machine) (s : Sizing) (hs : s.compiles = true) (hW : 1 ≤ s.W) (size : Nat → Nat) (env : Env) (b : Byte)
    (hn : 8 * s.W < s.bits (size b.toNat)) :
    (∀ rest, fromBytes ((s.signedRecord m size).read m env) (b :: rest) 0 = .err .parse) ∧
    ∀ v, InRange (8 * s.W) v → toBytes ((s.signedRecord m size).write m env (.ofList [.num b.toNat, .num v])) = .err .invalidParam := by
  obtain ⟨-, -, -, -, hask⟩ := Sizing.ctx_sshape hs m.native (size b.toNat)
  constructor
  · intro rest
    have := (C21_signed_oversize_refused m.native s.W _ _ 0 (Sizing.zero_inRange _) hask hn).1
    rw [Sizing.signed_first, this]
  · intro v hv
    have hr := (C21_signed_oversize_refused m.native s.W _ _ v hv hask hn).2
    rw [Sizing.signedRecord_write s hW m size env _ v b.isLt hv]
    obtain ⟨w, e, -⟩ := (Sizing.u8_both m.native .msb0 (p := 0) (fun h => by cases h) b.isLt).1 (Writer.new {}) (Writer.new_at _)
    unfold toBytes
    rw [show ((do (do writeUnsigned m.native 1 .unit b.toNat; writeSigned m.native s.W (s.ctx (size b.toNat)) v); Writer.finalize : M Writer Unit)
      (Writer.new {})) = (.err .invalidParam, w) by simp only [M.bind_def, e, hr w]]

/-- **C108.** A size of zero: nothing is read and the value is 0, but for `bits` with an endianness, in either bit order,
where the program panics. -/
theorem C108_a_size_of_zero (m : Machine) (s : Sizing) (hs : s.compiles = true) (hW : 1 ≤ s.W) (size : Nat → Nat)
    (env : Env) (b : Byte) (rest : List Byte) (hn : size b.toNat = 0) :
    fromBytes ((s.signedRecord m size).read m env) (b :: rest) 0 =
      if s.inBytes = false ∧ s.endian.isSome then .panic
      else .ok ((rest, 0), .ofList [.num b.toNat, .num 0]) := by
  rw [Sizing.signed_first, hn]
  by_cases hc : s.inBytes = false ∧ s.endian.isSome
  · have := Sizing.signed_zero_panics hW hc.1 hc.2 m.native (Sizing.after b rest)
    rcases h : readSigned m.native s.W (s.ctx 0) (Sizing.after b rest) with ⟨x, r⟩
    rw [h] at this
    simp only at this
    subst this
    rw [if_pos hc]
  · obtain ⟨r, e, hr⟩ := Sizing.signed_zero_reads hs hc m.native b rest
    rw [e, if_neg hc]
    simp [hr]

/-- **C108**, "what is written comes back" is false of `#[deku(bits = "size(*len)")] value: iW`: every negative value comes
back as another one, if its size happens to be a multiple of eight bits, and as itself if not. What came back cannot be
written again. -/
theorem C108_the_sign_depends_on_the_size (m : Machine) (W : Nat) (size : Nat → Nat) (env : Env) (k : Nat) (v : Int) (hk : k < 256)
    (h1 : 1 ≤ size k) (hn : size k < 8 * W) (hv : InRange (size k) v) (hneg : v < 0) :
    let t := ({ W := W } : Sizing).signedRecord m size
    (∃ out tail, toBytes (t.write m env (.ofList [.num k, .num v])) = .ok out ∧
      fromBytes (t.read m env) out 0 = .ok (tail, .ofList [.num k, .num (if size k % 8 = 0 then v + (2 ^ size k : Nat) else v)])) ∧
    (size k % 8 = 0 → toBytes (t.write m env (.ofList [.num k, .num (v + (2 ^ size k : Nat))])) = .err .invalidParam) := by
  intro t
  have hW : 1 ≤ W := by omega
  have hv8 : InRange (8 * W) v := hv.mono (by omega)
  obtain ⟨w1, r1⟩ := Sizing.u8_both m.native .msb0 (p := 0) (by intro h; cases h) hk
  constructor
  · obtain ⟨bits, u, hl, hw, hr, hu1, hu2⟩ := C18_what_comes_back m.native m.native W (size k) (.bits (size k)) v hW rfl h1 (by omega) hv
      (0 + (orderBits .msb0 [BitVec.ofNat 8 k]).length)
    have hu : u = if size k % 8 = 0 then v + (2 ^ size k : Nat) else v := by
      by_cases h : size k % 8 = 0
      · rw [if_pos h]; exact hu2 (by simp [SignExtends]; omega) hneg
      · rw [if_neg h]; exact hu1 (.inl (by simp [SignExtends]; omega))
    rw [← hu]
    obtain ⟨out, ho, hp⟩ := (w1.bind hw).toBytes
    have hparse := (r1.bind (g := fun k => do
      let v ← readSigned m.native W (.bits (size k))
      pure (Val.ofList [.num k, .num v])) (hr.map fun v => Val.ofList [.num k, .num v])).parses hp
    refine ⟨out, _, ?_, Eq.trans ?_ hparse⟩
    · rw [Sizing.signedRecord_write _ hW m size env k v hk hv8]; exact ho
    · rw [Sizing.signedRecord_read]; rfl
  · intro h8
    have hb := inRange_bounds h1 hv
    have hle : 2 ^ (size k + 1) ≤ 2 ^ (8 * W) := Nat.pow_le_pow_right (by omega) (by omega)
    rw [Nat.pow_succ] at hle
    have hv' : InRange (8 * W) (v + (2 ^ size k : Nat)) := by
      rw [inRange_iff (by omega)]; omega
    have hrec := Sizing.signedRecord_write { W := W } hW m size env k (v + (2 ^ size k : Nat)) hk hv'
    rw [show toBytes (t.write m env (.ofList [.num k, .num (v + (2 ^ size k : Nat))])) = _ from congrArg toBytes hrec]
    obtain ⟨w, e, -⟩ := w1 (Writer.new {}) (Writer.new_at _)
    have hnot : ¬ InRange (size k) (v + (2 ^ size k : Nat)) := by
      intro h
      have := (inRange_iff h1).1 h
      omega
    have hr := writeSignedBits_refuses m.native w hv' (n := size k) (.inr ⟨h1, hnot⟩)
    have hctx : ({ W := W } : Sizing).ctx (size k) = .bits (size k) := rfl
    rw [hctx]
    replace hr : writeSigned m.native W (.bits (size k)) (v + (2 ^ size k : Nat)) w = (.err .invalidParam, w) := by
      simp only [writeSigned]; exact hr
    unfold toBytes
    rw [show ((do (do writeUnsigned m.native 1 .unit k; writeSigned m.native W (.bits (size k)) (v + (2 ^ size k : Nat))); Writer.finalize : M Writer Unit)
      (Writer.new {})) = (.err .invalidParam, w) by simp only [M.bind_def, e, hr]]

/-- **C108**, "no message makes it panic" is false: with an endianness a sender that says zero makes every type of this kind
panic, in either bit order. -/
theorem C108_a_sender_can_make_it_panic (m : Machine) (W : Nat) (hW : 1 ≤ W) (e : Endian) (o : Option Order) (env : Env) (rest : List Byte) :
    fromBytes ((({ W := W, endian := some e, order := o } : Sizing).signedRecord m id).read m env) (0 :: rest) 0 = .panic := by
  rw [C108_a_size_of_zero m _ (by cases o <;> rfl) hW id env 0 rest rfl]
  exact if_pos ⟨rfl, rfl⟩

/-- **C108**, and in big endian Msb0 a release build panics too. -/
theorem C108_a_release_build_panics_too (native : Endian) (s : Sizing) (hW : 1 ≤ s.W) (hb : s.inBytes = false)
    (he : s.endian = some .big) (ho : s.order ≠ some .lsb0) (r : Reader) :
    ((Rel.sintCodec native s.W (s.ctx 0)).read r).1 = .panic := by
  obtain ⟨W, c, e, o⟩ := s
  simp only at hb he hW
  subst hb he
  obtain ⟨k, hk⟩ : ∃ k, 8 * W = k + 1 := ⟨8 * W - 1, by omega⟩
  have h : ((do let n ← Rel.readSignedBitsOrd W .big 0 .msb0; pure (.num n) : M Reader Val) r).1 = .panic := by
    simp [Rel.readSignedBitsOrd, Rel.readSliceSigned, readBitsInto_zero, Rel.readSliceOrd, hk, insertZeros, bind, M.bind, pure, M.pure, M.panic, M.assert]
  rcases o with _ | _ | _
  · exact h
  · exact h
  · exact absurd rfl ho

/-! ### examples -/

/-- -1 in seven bits of an `i16` comes back, and in eight bits it comes back as 255. -/
example : InRange 7 (-1) ∧ InRange 8 (-1) ∧ ({ W := 2 } : Sizing).signExtends 7 = true ∧ ({ W := 2 } : Sizing).signExtends 8 = false := by
  decide

example : fromBytes ((({ W := 2 } : Sizing).signedRecord ⟨.little, 100⟩ id).read ⟨.little, 100⟩ {}) [7, 254] 0 =
    .ok (([254], 7), .ofList [.num 7, .num (-1)]) := by decide +kernel

example : fromBytes ((({ W := 2 } : Sizing).signedRecord ⟨.little, 100⟩ id).read ⟨.little, 100⟩ {}) [8, 255] 0 =
    .ok (([], 0), .ofList [.num 8, .num 255]) := by decide +kernel

/-- With an endianness both come back. -/
example : fromBytes ((({ W := 2, endian := some .little } : Sizing).signedRecord ⟨.little, 100⟩ id).read ⟨.little, 100⟩ {}) [8, 255] 0 =
    .ok (([], 0), .ofList [.num 8, .num (-1)]) := by decide +kernel

example : ({ W := 2, endian := some .little } : Sizing).compiles = true ∧ ({ W := 2, endian := some .little } : Sizing).Agrees .little 8 ∧
    ({ W := 2, endian := some .little } : Sizing).signExtends 8 = true :=
  ⟨rfl, (by intro h; cases h), rfl⟩

/-- A size beyond the type. -/
example : fromBytes ((({ W := 1 } : Sizing).signedRecord ⟨.little, 100⟩ id).read ⟨.little, 100⟩ {}) [16, 1, 2] 0 = .err .parse := by
  decide +kernel

end Deku
