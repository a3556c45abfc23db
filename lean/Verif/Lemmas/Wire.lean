import Verif.Spec.Wire
import Verif.Lemmas.Source
import Verif.Lemmas.Leaves
import Verif.Lemmas.Sint
import Verif.Lemmas.Pieces
import Verif.Props.Int

/-! # Lemmas about what sources describe -/

namespace Deku

open Prim

/-! ### arguments of integers -/

theorem nonzeroArgs_int (args : List Arg) (ctx : IntCtx) (h : nonzeroArgs args = some ctx) :
    intArgs args = some ctx := by
  unfold nonzeroArgs at h
  split at h <;> simp only [Option.some.injEq, reduceCtorEq] at h <;> subst h <;> rfl

theorem intArgs_shape (native : Endian) (args : List Arg) (ctx : IntCtx) (W : Nat) (h : intArgs args = some ctx)
    (hs : intSized args W = true) :
    ctx.shape native W = (endianOf native args, (sizeOf? args).getD (8 * W), orderOf args) ∧
    ctx.sshape native W = (endianOf native args, (sizeOf? args).getD (8 * W), orderOf args) := by
  unfold intArgs at h
  split at h <;> simp only [Option.some.injEq, reduceCtorEq] at h <;> subst h <;>
    simp [IntCtx.shape, IntCtx.sshape, endianOf, sizeOf?, orderOf] <;>
    (simp [intSized, sizeOf?] at hs; intro hW; omega)

theorem orderOf_msb (args : List Arg) (h : args.all (·.msb) = true) : orderOf args = .msb0 := by
  unfold orderOf
  induction args with
  | nil => rfl
  | cons a l ih =>
    rw [List.all_cons, Bool.and_eq_true] at h
    rw [List.findSome?_cons]
    cases a with
    | order o => cases o with | msb0 => rfl | lsb0 => cases h.1
    | _ => exact ih h.2

/-! ### integers -/

theorem intArgs_bits {args : List Arg} {ctx : IntCtx} (h : intArgs args = some ctx) : ctx.isBits = bitSized args := by
  unfold intArgs at h
  split at h <;> simp only [Option.some.injEq, reduceCtorEq] at h <;> subst h <;> rfl

theorem intArgs_whole {args : List Arg} {ctx : IntCtx} (h : intArgs args = some ctx) (hb : bitSized args = false)
    (W : Nat) : (sizeOf? args).getD (8 * W) % 8 = 0 := by
  unfold intArgs at h
  split at h <;> simp only [Option.some.injEq, reduceCtorEq] at h <;> simp [bitSized] at hb <;> simp [sizeOf?]

theorem intOrdered_sound {o : Order} {native : Endian} {args : List Arg} {W : Nat}
    (h : intOrdered o native args W = true) (hb : bitSized args = true) :
    orderOf args = o ∧ Prim.Sound W (endianOf native args) ((sizeOf? args).getD (8 * W)) o := by
  simp only [intOrdered, hb, Bool.not_true, Bool.false_or, decide_eq_true_eq] at h
  exact h

theorem intOrdered_dense {o : Order} {native : Endian} {args : List Arg} {ctx : IntCtx} {W : Nat}
    (hi : intArgs args = some ctx) (h : intOrdered o native args W = true) :
    Dense (endianOf native args) ((sizeOf? args).getD (8 * W)) o := by
  by_cases hb : bitSized args = true
  · exact (intOrdered_sound h hb).2.dense
  · intro _ _; exact .inr (intArgs_whole hi (by simpa using hb) W)

theorem writeWhole_writes_order {W v : Nat} (e : Endian) {o : Order} {p : Nat} (h : o = .lsb0 → p % 8 = 0) :
    Writes o p (writeWhole W e v) (fieldBits e o (8 * W) v) := by
  have := writeBytes_writes (o := o) (p := p) (endianBytes W e v) h
  rwa [orderBits_endianBytes] at this

/-- Every unsigned integer, also one that does not fit in a field of whole bytes. -/
theorem writeUnsigned_low {native : Endian} {W : Nat} {ctx : IntCtx} {e : Endian} {n v : Nat} {o o' : Order} {p : Nat}
    (hs : ctx.shape native W = (e, n, o')) (h1 : 1 ≤ n) (hn : n ≤ 8 * W)
    (hv : ctx.isBits = true → v < 2 ^ n ∧ o' = o ∧ Prim.Sound W e n o)
    (hp : o = .lsb0 → ctx.isBits = false → p % 8 = 0) :
    Writes o p (writeUnsigned native W ctx v) (fieldBits e o n v) := by
  by_cases hb : ctx.isBits = true
  · obtain ⟨hlt, rfl, hd⟩ := hv hb
    have := writeUnsigned_writes native ctx (p := p) (v := v) (by unfold Compatible; rw [if_pos hb, hs]; exact hd)
    rw [hs] at this
    exact this h1 hn hlt
  · have hq : o = .lsb0 → p % 8 = 0 := fun h => hp h (by simpa using hb)
    cases ctx <;> simp [IntCtx.isBits] at hb <;> simp only [IntCtx.shape, Prod.mk.injEq] at hs <;>
      obtain ⟨rfl, rfl, ho⟩ := hs
    case unit => exact writeWhole_writes_order _ hq
    case endian => exact writeWhole_writes_order _ hq
    case bytes => exact writeUBytes_writes _ (fun h => by simp only [if_neg h] at hn; omega) hq
    case order =>
      have := writeUBytes_writes (W := W) (k := W) (v := v) (o := o) (p := p) native (by omega) hq
      rwa [show (if W = 1 then 8 else 8 * W) = 8 * W by split <;> omega] at this
    case endianOrder e _ =>
      have := writeUBytes_writes (W := W) (k := W) (v := v) (o := o) (p := p) e (by omega) hq
      rwa [show (if W = 1 then 8 else 8 * W) = 8 * W by split <;> omega] at this
    case endianBytes => exact writeUBytes_writes _ (fun h => by simp only [if_neg h] at hn; omega) hq
    case endianBytesOrder => exact writeUBytes_writes _ (fun h => by simp only [if_neg h] at hn; omega) hq

/-- Every signed integer that is accepted. -/
theorem writeSigned_low {native : Endian} {W : Nat} {ctx : IntCtx} {e : Endian} {n : Nat} {v : Int} {o o' : Order}
    {p : Nat} (hs : ctx.sshape native W = (e, n, o')) (hc : ctx.shape native W = (e, n, o')) (h1 : 1 ≤ n)
    (hn : n ≤ 8 * W) (hv : InRange (8 * W) v) (ha : ctx.Accepts W n v)
    (hb : ctx.isBits = true → o' = o ∧ Prim.Sound W e n o) (hp : o = .lsb0 → ctx.isBits = false → p % 8 = 0) :
    Writes o p (writeSigned native W ctx v) (fieldBits e o n (pattern W v)) := by
  by_cases h : ctx.isBits = true
  · obtain ⟨rfl, hd⟩ := hb h
    exact writeSigned_writes hs h1 hn hv ha (by unfold Compatible; rw [if_pos h, hc]; exact hd)
  · have hq : o = .lsb0 → p % 8 = 0 := fun h' => hp h' (by simpa using h)
    cases ctx <;> simp [IntCtx.isBits] at h <;> simp only [IntCtx.sshape, IntCtx.shape, Prod.mk.injEq] at hs <;>
      obtain ⟨rfl, rfl, ho⟩ := hs <;> simp only [writeSigned]
    case unit => exact writeWhole_writes_order _ hq
    case endian => exact writeWhole_writes_order _ hq
    all_goals exact writeBytesInt_writes _ (by omega) hq

theorem pattern_emod {W n : Nat} (hn : n ≤ 8 * W) (v : Int) : pattern W v % 2 ^ n = (v % 2 ^ n).toNat := by
  unfold pattern
  have hd : ((2 ^ n : Nat) : Int) ∣ ((256 ^ W : Nat) : Int) := by
    rw [show (256 : Nat) ^ W = 2 ^ (8 * W) by rw [Nat.pow_mul]]
    exact Int.natCast_dvd_natCast.2 (Nat.pow_dvd_pow 2 hn)
  have hp : (0 : Int) < ((256 ^ W : Nat) : Int) := by
    have : 0 < 256 ^ W := Nat.pow_pos (by omega)
    omega
  have h0 : (0 : Int) < ((2 ^ n : Nat) : Int) := by
    have : 0 < 2 ^ n := Nat.pow_pos (by omega)
    omega
  have h1 := Int.emod_nonneg v (Int.ne_of_gt hp)
  have h2 := Int.emod_nonneg v (Int.ne_of_gt h0)
  have h3 := Int.emod_emod_of_dvd v hd
  have e : (2 ^ n : Int) = ((2 ^ n : Nat) : Int) := by simp
  rw [e]
  apply Int.ofNat_inj.1
  rw [Int.natCast_emod, Int.toNat_of_nonneg h1, Int.toNat_of_nonneg h2, h3]

/-! ### what is written if it is accepted -/

theorem flat_append (x y : List Piece) : flat (x ++ y) = flat x ++ flat y := List.flatMap_append

theorem flat_one (x : Piece) : flat [x] = x.bits := by simp [flat]

theorem onBytes_append : ∀ (x y : List Piece) (p : Nat),
    onBytes p (x ++ y) = (onBytes p x && onBytes (p + (flat x).length) y)
  | [], y, p => by simp [onBytes, flat]
  | a :: x, y, p => by
    rw [List.cons_append, onBytes, onBytes, onBytes_append x y]
    simp only [flat, List.flatMap_cons, List.length_append, Bool.and_assoc, Nat.add_assoc]

/-- Wherever it succeeds, it has written these bits. -/
def Emits (o : Order) (g : M Writer Unit) (l : List Piece) : Prop :=
  ∀ p w w', w.At o p → (o = .lsb0 → onBytes p l = true) → g w = (.ok (), w') →
    Writer.Wrote o (flat l) w w' ∧ w'.Ready o

variable {o : Order}

theorem Writes.ran {o : Order} {p : Nat} {g : M Writer Unit} {bits : List Bool} (h : Writes o p g bits) {w w' : Writer}
    (hw : w.At o p) (he : g w = (.ok (), w')) : Writer.Wrote o bits w w' ∧ w'.Ready o := by
  obtain ⟨w1, e1, s1, r1⟩ := h w hw
  rw [he] at e1
  simp only [Prod.mk.injEq, true_and] at e1
  subst e1
  exact ⟨s1, r1⟩

theorem Emits.of {g : M Writer Unit} {x : Piece}
    (h : ∀ p, (o = .lsb0 → x.whole = true → p % 8 = 0) → Writes o p g x.bits) : Emits o g [x] :=
  fun p w w' hw hp he => by
    rw [flat_one]
    refine (h p fun ho hx => ?_).ran hw he
    have := hp ho
    simp only [onBytes, hx, Bool.not_true, Bool.false_or, Bool.and_true, decide_eq_true_eq] at this
    exact this

theorem Emits.pure : Emits o (Pure.pure ()) [] := fun p _ _ hw _ he => (Writes.pure o p).ran hw he

theorem Emits.mark {g : M Writer Unit} {l : List Piece} (a : SAttrs) (t : STy) (h : Emits o g l) :
    Emits o g (a.mark t ++ l) := by
  unfold SAttrs.mark
  split
  · intro p w w' hw hp he
    exact h p w w' hw (fun ho => by simpa [onBytes] using hp ho) he
  · exact h

theorem Emits.panic (l : List Piece) : Emits o M.panic l := by
  intro p w w' _ _ he; simp [M.panic] at he

theorem Emits.bind {f g : M Writer Unit} {x y : List Piece} (hf : Emits o f x) (hg : Emits o g y) :
    Emits o (f >>= fun _ => g) (x ++ y) := by
  intro p w w2 hw hp he
  obtain ⟨u, w1, e1, e2⟩ := M.bind_eq_ok he
  rw [onBytes_append] at hp
  obtain ⟨s1, r1⟩ := hf p w w1 hw (fun h => (Bool.and_eq_true_iff.1 (hp h)).1) e1
  obtain ⟨s2, r2⟩ := hg _ w1 w2 (hw.wrote s1 r1) (fun h => (Bool.and_eq_true_iff.1 (hp h)).2) e2
  rw [flat_append]
  exact ⟨s1.trans s2, r2⟩

theorem Emits.ite {c : Prop} [Decidable c] {f : M Writer Unit} {x : List Piece} (hf : c → Emits o f x) :
    Emits o (if c then f else M.panic) x := by
  by_cases h : c
  · rw [if_pos h]; exact hf h
  · rw [if_neg h]; exact Emits.panic x

/-- What only looks, before. -/
theorem Emits.check {f g : M Writer Unit} {x : List Piece} (hf : ∀ w w', f w = (.ok (), w') → w' = w)
    (hg : Emits o g x) : Emits o (f >>= fun _ => g) x := by
  intro p w w2 hw hp he
  obtain ⟨u, w1, e1, e2⟩ := M.bind_eq_ok he
  have := hf _ _ e1
  subst this
  exact hg p _ w2 hw hp e2

theorem Emits.check' {g : Writer → M Writer Unit} {x : List Piece} (hg : ∀ w, Emits o (g w) x) :
    Emits o (M.get >>= g) x := by
  intro p w w2 hw hp he
  rw [M.get_bind_run] at he
  exact hg w p w w2 hw hp he

theorem Emits.writeAll {α : Type} {g : α → M Writer Unit} {x : α → List Piece} (h : ∀ v, Emits o (g v) (x v)) :
    ∀ vs : List α, Emits o (Coll.writeAll g vs) (vs.flatMap x)
  | [] => Emits.pure
  | v :: vs => by
    rw [List.flatMap_cons]
    exact Emits.bind (h v) (Emits.writeAll h vs)

theorem bytes_emits {native : Endian} {ctx : IntCtx} (h : ctx.isBits = false) (bs : List Byte) :
    Emits o (Coll.writeAll (Coll.u8Write native ctx) bs) [bytesPiece o bs] := by
  cases bs with
  | nil =>
    refine Emits.of fun p _ => ?_
    rw [show (bytesPiece o []).bits = [] by cases o <;> rfl]
    exact Writes.pure o p
  | cons b bs => exact Emits.of fun p hp => byteList_writes native h (b :: bs) fun ho => hp ho rfl

theorem Emits.magic (native : Endian) (bs : List Byte) : Emits o (magicWrite native bs) [bytesPiece o bs] :=
  bytes_emits rfl bs

theorem Emits.pad (order : Option Order) (n : Option Nat) (ho : n.isNone = true ∨ order.getD .msb0 = o) (env : Env) :
    Emits o (padWrite order (n.map fun n _ => (n : Int)) env) [zerosPiece (n.getD 0)] := by
  cases n with
  | none => exact Emits.of fun p _ => Writes.pure o p
  | some n =>
    simp only [Option.isNone_some, Bool.false_eq_true, false_or] at ho
    intro p w w' hw hp he
    simp only [padWrite] at he
    obtain ⟨k, w1, e1, e2⟩ := M.bind_eq_ok he
    obtain ⟨rfl, rfl, _⟩ := padSize_ok e1
    rw [ho] at e2
    exact Emits.of (x := zerosPiece k) (fun p _ => padLoop_writes (Nat.le_refl _) p) p w1 w' hw hp e2

/-! ### integers -/

theorem uint_emits {native : Endian} {args : List Arg} {ctx : IntCtx} {W : Nat} (h : intArgs args = some ctx)
    (hs : intSized args W = true) (hm : intOrdered o native args W = true) (n : Nat) (hn : n < 256 ^ W) :
    Emits o (writeUnsigned native W ctx n) [intPiece o native args W n] := by
  obtain ⟨h1, -⟩ := intArgs_shape native args ctx W h hs
  have hd := intOrdered_dense h hm
  simp only [intSized, decide_eq_true_eq] at hs
  intro p w w' hw hp he
  refine Emits.of (x := intPiece o native args W n) (fun p hp => ?_) p w w' hw hp he
  have hv : ctx.isBits = true → n < 2 ^ (sizeOf? args).getD (8 * W) := fun hb => (accepted_fits hb h1 hn he).2
  have := writeUnsigned_low (v := n) (o := o) (p := p) h1 hs.2.1 hs.2.2
    (fun hb => ⟨hv hb, intOrdered_sound hm (intArgs_bits h ▸ hb)⟩)
    (fun ho hb => hp ho (by rw [intArgs_bits h] at hb; simp [intPiece, hb]))
  unfold intPiece
  dsimp only
  rwa [show ((n : Int) % 2 ^ (sizeOf? args).getD (8 * W)).toNat = n % 2 ^ (sizeOf? args).getD (8 * W) by
    rw [show (2 : Int) ^ (sizeOf? args).getD (8 * W) = ((2 ^ (sizeOf? args).getD (8 * W) : Nat) : Int) by simp,
      ← Int.natCast_emod, Int.toNat_natCast], fieldBits_mod hd]

theorem uintCodec_emits {native : Endian} {args : List Arg} {ctx : IntCtx} {W : Nat} (h : intArgs args = some ctx)
    (hs : intSized args W = true) (hm : intOrdered o native args W = true) (v : Val) :
    Emits o ((uintCodec native W ctx).write v) (match v with | .num n => [intPiece o native args W n] | _ => []) := by
  cases v with
  | num n =>
    simp only [uintCodec]
    refine Emits.ite fun hc => ?_
    have := uint_emits (native := native) h hs hm n.toNat (by
      have := hc.2
      rw [show ((256 : Int) ^ W) = ((256 ^ W : Nat) : Int) by simp] at this
      omega)
    rwa [Int.toNat_of_nonneg hc.1] at this
  | _ => exact Emits.panic _

theorem sintCodec_emits {native : Endian} {args : List Arg} {ctx : IntCtx} {W : Nat} (h : intArgs args = some ctx)
    (hs : intSized args W = true) (hm : intOrdered o native args W = true) (v : Val) :
    Emits o ((sintCodec native W ctx).write v) (match v with | .num n => [intPiece o native args W n] | _ => []) := by
  obtain ⟨h0, h1⟩ := intArgs_shape native args ctx W h hs
  have hd := intOrdered_dense h hm
  simp only [intSized, decide_eq_true_eq] at hs
  cases v with
  | num n =>
    simp only [sintCodec]
    refine Emits.ite fun hc => ?_
    intro p w w' hw hp he
    have hr := (inRange_width hs.1 n).1 hc
    have ha := writeSigned_accepts h1 hs.2.1 hr he
    refine Emits.of (x := intPiece o native args W n) (fun p hp => ?_) p w w' hw hp he
    have := writeSigned_low (o := o) (p := p) h1 h0 hs.2.1 hs.2.2 hr ha
      (fun hb => intOrdered_sound hm (intArgs_bits h ▸ hb))
      (fun ho hb => hp ho (by rw [intArgs_bits h] at hb; simp [intPiece, hb]))
    unfold intPiece
    dsimp only
    rwa [← pattern_emod hs.2.2, fieldBits_mod hd]
  | _ => exact Emits.panic _

theorem leaf_emits (m : Machine) (args : List Arg) (b : Base) (l : Leaf) (h : b.leaf args = some l)
    (hs : b.sized args = true) (hm : b.ordered o m.native args = true) (v : Val) :
    Emits o ((l.codec m).write v) (b.wire o m.native args v) := by
  cases b with
  | uint W =>
    simp only [Base.leaf, Option.map_eq_some_iff] at h
    obtain ⟨ctx, h, rfl⟩ := h
    have := uintCodec_emits (native := m.native) h hs hm v
    cases v <;> exact this
  | sint W =>
    simp only [Base.leaf, Option.map_eq_some_iff] at h
    obtain ⟨ctx, h, rfl⟩ := h
    have := sintCodec_emits (native := m.native) h hs hm v
    cases v <;> exact this
  | nonzero W =>
    simp only [Base.leaf, Option.map_eq_some_iff] at h
    obtain ⟨ctx, h, rfl⟩ := h
    have := uintCodec_emits (native := m.native) (nonzeroArgs_int _ _ h) hs hm v
    simp only [Leaf.codec, nonzeroCodec]
    by_cases h0 : v = .num 0
    · rw [if_pos h0]; exact Emits.panic _
    · rw [if_neg h0]; cases v <;> exact this
  | nonzeroSigned W =>
    simp only [Base.leaf, Option.map_eq_some_iff] at h
    obtain ⟨ctx, h, rfl⟩ := h
    have := sintCodec_emits (native := m.native) (nonzeroArgs_int _ _ h) hs hm v
    simp only [Leaf.codec, nonzeroSignedCodec]
    by_cases h0 : v = .num 0
    · rw [if_pos h0]; exact Emits.panic _
    · rw [if_neg h0]; cases v <;> exact this
  | bool =>
    simp only [Base.leaf, Option.map_eq_some_iff] at h
    obtain ⟨ctx, h, rfl⟩ := h
    simp only [Leaf.codec, boolCodec, Coll.boolWrite, if_true, Bool.false_eq_true, if_false]
    by_cases h1 : v = .num 1
    · subst h1; rw [if_pos rfl]; exact uint_emits h hs hm 1 (by decide)
    · rw [if_neg h1]
      refine Emits.ite fun h0 => ?_
      subst h0; exact uint_emits h hs hm 0 (by decide)
  | cstring =>
    simp only [Base.leaf] at h
    split at h <;> simp only [Option.some.injEq, reduceCtorEq] at h <;> subst h
    · exact Emits.ite fun _ => bytes_emits rfl _
    · exact Emits.ite fun _ => bytes_emits rfl _
  | unit =>
    cases h
    refine Emits.ite fun h0 => ?_
    subst h0
    exact Emits.pure

/-! ### attributes -/

theorem mapM_filterMap {α β : Type} (f : α → Option β) :
    ∀ (l : List α) (r : List β), l.mapM f = some r → l.filterMap f = r
  | [], r, h => by simp at h; subst h; rfl
  | a :: l, r, h => by
    rw [List.mapM_cons] at h
    simp only [Option.bind_eq_bind, Option.bind_eq_some_iff, Option.pure_def, Option.some.injEq] at h
    obtain ⟨b, h1, bs, h2, rfl⟩ := h
    rw [List.filterMap_cons, h1, mapM_filterMap f l bs h2]

theorem evalOpt_bind {α β : Type} (f : α → Option β) (o : Option α) (r : Option β) (h : evalOpt f o = some r) :
    o.bind f = r := by
  cases o with
  | none => cases h; rfl
  | some a =>
    simp only [evalOpt, Option.map_eq_some_iff] at h
    obtain ⟨b, h1, rfl⟩ := h
    exact h1

theorem Given.means_endian (env : List Arg) : (g : Given Endian) → g.means Arg.endian? env = g.endian env
  | .lit _ => rfl
  | .arg i => by
    simp only [Given.means, Given.endian]
    cases env[i]? with
    | none => rfl
    | some x => cases x <;> rfl

theorem Given.means_order (env : List Arg) : (g : Given Order) → g.means Arg.order? env = g.order env
  | .lit _ => rfl
  | .arg i => by
    simp only [Given.means, Given.order]
    cases env[i]? with
    | none => rfl
    | some x => cases x <;> rfl

theorem CtxArg.means_eval (env : List Arg) : (a : CtxArg) → a.means env = a.eval env
  | .endian g => by simp only [CtxArg.means, CtxArg.eval, Given.means_endian]
  | .order g => by simp only [CtxArg.means, CtxArg.eval, Given.means_order]
  | .num _ => rfl

theorem CtxArg.literal_closed : (a : CtxArg) → a.literal = a.closed
  | .endian g => by cases g <;> simp [CtxArg.literal, CtxArg.closed, CtxArg.eval, Given.endian]
  | .order g => by cases g <;> simp [CtxArg.literal, CtxArg.closed, CtxArg.eval, Given.order]
  | .num e => by cases e <;> rfl

theorem SAttrs.passes_def (c : Container) (env : List Arg) (a : SAttrs) : a.passes c env =
    (((a.endian.or c.endian).bind (·.endian env)).map Arg.endian).toList ++ sizeArg a.bits a.bytes ++
    (((a.order.or c.order).bind (·.order env)).map Arg.order).toList ++ a.ctx.filterMap (·.eval env) := by
  simp only [SAttrs.passes, Given.means_endian, Given.means_order, CtxArg.means_eval]

theorem SId.passes_def (c : Container) (env : List Arg) (W : Nat) (e : Option (Given Endian)) (bits bytes : Option Nat) :
    (SId.typed W e bits bytes).passes c env =
    (((e.or c.endian).bind (·.endian env)).map Arg.endian).toList ++ sizeArg bits bytes ++
      ((c.order.bind (·.order env)).map Arg.order).toList := by
  simp only [SId.passes, Given.means_endian, Given.means_order]

theorem Container.scope_def (c : Container) (args : List Arg) : c.scope args =
    if args = [] ∧ c.params ≠ [] then (c.ctxDefault.getD []).filterMap CtxArg.closed else args := by
  simp only [Container.scope, funext CtxArg.literal_closed]

theorem Container.bind_scope (c : Container) (args env : List Arg) (h : c.bind args = some env) :
    env = c.scope args := by
  unfold Container.bind at h
  rw [Container.scope_def]
  split at h
  · rename_i hc
    cases h
    rw [if_neg]
    rintro ⟨rfl, h2⟩
    exact h2 (List.eq_nil_of_length_eq_zero hc.1.symm)
  · rename_i hc
    cases args with
    | cons _ _ => cases h
    | nil =>
      rw [if_pos]
      · cases hd : c.ctxDefault with
        | none => rw [hd] at h; cases h
        | some l =>
          rw [hd] at h
          exact (mapM_filterMap _ _ _ h).symm
      · refine ⟨rfl, fun h2 => hc ?_⟩
        rw [h2]; simp

theorem fieldArgs_sizeArg (endian : Option Endian) (bits bytes : Option Nat) (order : Option Order) (ctx : List Arg)
    (h : (bits.isSome && bytes.isSome) = false) :
    fieldArgs endian bits bytes order ctx =
      (endian.map Arg.endian).toList ++ sizeArg bits bytes ++ (order.map Arg.order).toList ++ ctx := by
  unfold fieldArgs sizeArg
  cases bits <;> cases bytes <;> simp at h ⊢

theorem SAttrs.validate_size (a : SAttrs) (h : a.validate = true) : (a.bits.isSome && a.bytes.isSome) = false := by
  simp only [SAttrs.validate, Bool.and_eq_true, Bool.not_eq_true'] at h
  exact h.1.1.2

theorem SAttrs.fieldArgs_passes (c : Container) (env : List Arg) (a : SAttrs) (endian : Option Endian)
    (order : Option Order) (ctx : List Arg) (h1 : evalOpt (·.endian env) (a.endian.or c.endian) = some endian)
    (h2 : evalOpt (·.order env) (a.order.or c.order) = some order) (h3 : a.ctx.mapM (·.eval env) = some ctx)
    (hv : a.validate = true) : fieldArgs endian a.bits a.bytes order ctx = a.passes c env := by
  rw [fieldArgs_sizeArg _ _ _ _ _ (a.validate_size hv), SAttrs.passes_def, evalOpt_bind _ _ _ h1, evalOpt_bind _ _ _ h2,
    mapM_filterMap _ _ _ h3]

theorem Given.order_msb (env : List Arg) (h : env.all (·.msb) = true) (g : Given Order) (o : Order)
    (hg : g ≠ .lit .lsb0) (he : g.order env = some o) : o = .msb0 := by
  cases g with
  | lit x => cases he; cases o with | msb0 => rfl | lsb0 => exact absurd rfl hg
  | arg i =>
    simp only [Given.order] at he
    split at he
    · rename_i o' hi
      cases he
      have := List.all_eq_true.1 h _ (List.mem_of_getElem? hi)
      cases o with | msb0 => rfl | lsb0 => cases this
    · cases he

theorem CtxArg.eval_msb (env : List Arg) (h : env.all (·.msb) = true) (a : CtxArg) (x : Arg) (ha : a.msb = true)
    (he : a.eval env = some x) : x.msb = true := by
  cases a with
  | order g =>
    simp only [CtxArg.eval, Option.map_eq_some_iff] at he
    obtain ⟨o, h1, rfl⟩ := he
    obtain rfl := g.order_msb env h o (by rintro rfl; cases ha) h1
    rfl
  | endian g =>
    simp only [CtxArg.eval, Option.map_eq_some_iff] at he
    obtain ⟨e, _, rfl⟩ := he; rfl
  | num e => cases he; rfl

theorem CtxArg.closed_msb (a : CtxArg) (x : Arg) (ha : a.msb = true) (he : a.closed = some x) : x.msb = true := by
  unfold CtxArg.closed at he
  split at he
  · cases he; rfl
  · cases he
  · exact CtxArg.eval_msb [] rfl _ _ ha he

theorem filterMap_all {α β : Type} (f : α → Option β) (p : α → Bool) (q : β → Bool)
    (hf : ∀ a b, p a = true → f a = some b → q b = true) (l : List α) (h : l.all p = true) :
    (l.filterMap f).all q = true := by
  rw [List.all_eq_true] at h ⊢
  intro b hb
  rw [List.mem_filterMap] at hb
  obtain ⟨a, ha, e⟩ := hb
  exact hf a b (h a ha) e

theorem Container.scope_msb (c : Container) (args : List Arg) (hc : c.msb = true) (h : args.all (·.msb) = true) :
    (c.scope args).all (·.msb) = true := by
  simp only [Container.msb, Bool.and_eq_true] at hc
  rw [Container.scope_def]
  split
  · exact filterMap_all _ _ _ CtxArg.closed_msb _ hc.2
  · exact h

theorem orderArg_msb (env : List Arg) (h : env.all (·.msb) = true) (a c : Option (Given Order))
    (ha : givenMsb a = true) (hc : givenMsb c = true) (o : Order) (he : (a.or c).bind (·.order env) = some o) :
    o = .msb0 := by
  simp only [givenMsb, decide_eq_true_eq] at ha hc
  cases a with
  | some g => exact g.order_msb env h o (fun e => ha (by rw [e])) he
  | none =>
    cases c with
    | none => cases he
    | some g => exact g.order_msb env h o (fun e => hc (by rw [e])) he

theorem sizeArg_msb (bits bytes : Option Nat) : (sizeArg bits bytes).all (·.msb) = true := by
  unfold sizeArg
  cases bits <;> cases bytes <;> rfl

theorem endianArg_msb (e : Option Endian) : ((e.map Arg.endian).toList).all (·.msb) = true := by
  cases e <;> rfl

theorem orderArgs_msb (o : Option Order) (h : ∀ x, o = some x → x = .msb0) :
    ((o.map Arg.order).toList).all (·.msb) = true := by
  cases o with
  | none => rfl
  | some x => rw [h x rfl]; rfl

theorem SAttrs.passes_msb (c : Container) (env : List Arg) (a : SAttrs) (hc : c.msb = true) (ha : a.msb = true)
    (h : env.all (·.msb) = true) : (a.passes c env).all (·.msb) = true := by
  simp only [SAttrs.msb, Bool.and_eq_true] at ha
  simp only [Container.msb, Bool.and_eq_true] at hc
  simp only [SAttrs.passes_def, List.all_append, endianArg_msb, sizeArg_msb, Bool.true_and, Bool.and_eq_true]
  exact ⟨orderArgs_msb _ fun o he => orderArg_msb env h _ _ ha.1 hc.1 o he,
    filterMap_all _ _ _ (fun a b => CtxArg.eval_msb env h a b) _ ha.2⟩

theorem SId.passes_msb (c : Container) (env : List Arg) (id : SId) (hc : c.msb = true)
    (h : env.all (·.msb) = true) : (id.passes c env).all (·.msb) = true := by
  simp only [Container.msb, Bool.and_eq_true] at hc
  cases id with
  | ctx _ => rfl
  | typed W e bits bytes =>
    simp only [SId.passes_def, List.all_append, endianArg_msb, sizeArg_msb, Bool.true_and]
    exact orderArgs_msb _ fun o he => orderArg_msb env h none c.order rfl hc.1 o he

def SId.Gives (c : Container) (env : List Arg) (did : DId) (id : SId) : Prop :=
  match id with
  | .ctx e => did = .arg e
  | .typed W _ _ _ => ∃ size ctx, did = .typed size W ctx ctx ∧ intArgs (id.passes c env) = some ctx

/-- The id is read, written and stored with the same arguments. -/
theorem SId.elab_passes (c : Container) (env : List Arg) (anyPat : Bool) (id : SId) (did : DId)
    (h : id.elab c env anyPat = some did) (hv : id.validate = true) (hn : id.named c anyPat = true) :
    id.Gives c env did := by
  cases id with
  | ctx e => cases h; rfl
  | typed W e bits bytes =>
    simp only [SId.elab, Option.bind_eq_bind, Option.bind_eq_some_iff, Option.pure_def, Option.some.injEq] at h
    obtain ⟨endian, h1, order, h2, ctx, h3, stored, h4, store, h5, rfl⟩ := h
    have hb : (bits.isSome && bytes.isSome) = false := by
      simp only [SId.validate, Bool.not_eq_true'] at hv; exact hv
    have hst : stored = endian := by
      have : (if anyPat then e else e.or c.endian) = e.or c.endian := by
        cases anyPat with
        | false => simp
        | true =>
          simp only [SId.named, Bool.not_true, Bool.false_or, Bool.or_eq_true, Option.isSome_iff_exists,
            Option.isNone_iff_eq_none] at hn
          simp only [if_true]
          rcases hn with ⟨x, rfl⟩ | hn
          · rfl
          · rw [hn, Option.or_none]
      rw [this, h1] at h4
      exact (Option.some.inj h4).symm
    subst hst
    rw [h3] at h5
    cases h5
    refine ⟨_, ctx, rfl, ?_⟩
    rw [fieldArgs_sizeArg _ _ _ _ _ hb] at h3
    rw [SId.passes_def, evalOpt_bind _ _ _ h1, evalOpt_bind _ _ _ h2]
    simpa using h3

/-! ### scopes -/

/-- The same names. -/
def Env.Same (a b : Env) : Prop := a.ctx = b.ctx ∧ a.vars = b.vars

theorem Env.Same.refl (a : Env) : a.Same a := ⟨rfl, rfl⟩

theorem Env.Same.at {a b : Env} (h : a.Same b) (n : Nat) : (a.at n).Same b := h

theorem Env.Same.push {a b : Env} (h : a.Same b) (v : Val) : (a.push v).Same (b.push v) :=
  ⟨h.1, by simp only [Env.push, h.2]⟩

theorem Expr.eval_same {a b : Env} (h : a.Same b) (e : Expr) : e.eval a = e.eval b := by
  induction e with
  | lit _ => rfl
  | field _ => simp only [Expr.eval, h.2]
  | arg _ => simp only [Expr.eval, h.1]
  | op _ _ _ hx hy => simp only [Expr.eval, hx, hy]
  | lop _ _ hx => simp only [Expr.eval, hx]

theorem Cond.eval_same {a b : Env} (h : a.Same b) : ∀ c : Cond, c.eval a = c.eval b
  | .eq x y => by simp only [Cond.eval, Expr.eval_same h]
  | .lt x y => by simp only [Cond.eval, Expr.eval_same h]
  | .not c => by simp only [Cond.eval, Cond.eval_same h c]
  | .and c d => by simp only [Cond.eval, Cond.eval_same h c, Cond.eval_same h d]
  | .or c d => by simp only [Cond.eval, Cond.eval_same h c, Cond.eval_same h d]

theorem inside_same {a b : Env} (h : a.Same b) (args : List Expr) : inside args a = inside args b := by
  unfold inside
  simp only [Expr.val, Expr.eval_same h]

theorem SAttrs.isWritten_rest (a : SAttrs) (order : Option Order) (dflt : Val) {env env' : Env} (h : env.Same env') :
    (a.rest order dflt).toAttrs.isWritten env = a.written env' := by
  simp only [Attrs.isWritten, DAttrs.toAttrs, SAttrs.rest, SAttrs.written]
  cases a.skip with
  | none => rfl
  | some s =>
    cases a.cond with
    | none => cases s <;> rfl
    | some c => cases s <;> simp only [Option.map_some, Cond.eval_same h]

/-! ### fields -/

theorem SAttrs.emits (native : Endian) (a : SAttrs) (order : Option Order) (dflt : Val)
    (ho : (a.padBitsBefore.isNone && a.padBytesBefore.isNone && a.padBitsAfter.isNone && a.padBytesAfter.isNone) = true ∨
      order.getD .msb0 = o) (wr : Env → Val → M Writer Unit) {env env' : Env} (hs : env.Same env') (v : Val)
    (l : List Piece) (h : ∀ e : Env, e.Same env' → Emits o (wr e v) l) :
    Emits o ((a.rest order dflt).toAttrs.write native wr env v) (a.wire o env' l) := by
  have hp1 : (padOf a.padBitsBefore a.padBytesBefore).isNone = true ∨ order.getD .msb0 = o := by
    refine ho.imp (fun h => ?_) id
    simp only [Bool.and_eq_true, Option.isNone_iff_eq_none] at h
    rw [h.1.1.1, h.1.1.2]; rfl
  have hp2 : (padOf a.padBitsAfter a.padBytesAfter).isNone = true ∨ order.getD .msb0 = o := by
    refine ho.imp (fun h => ?_) id
    simp only [Bool.and_eq_true, Option.isNone_iff_eq_none] at h
    rw [h.1.2, h.2]; rfl
  unfold Attrs.write SAttrs.wire
  have hseek : Emits o (seekWrite (a.rest order dflt).toAttrs.seek env) [] := Emits.pure
  rw [← List.nil_append [bytesPiece o a.magic], List.append_assoc, List.append_assoc, List.append_assoc]
  refine Emits.bind hseek (Emits.bind (Emits.magic native a.magic) (Emits.bind ?_ ?_))
  · have := Emits.pad order (padOf a.padBitsBefore a.padBytesBefore) hp1 env
    rwa [padOf_getD] at this
  · refine Emits.check' fun w => ?_
    refine Emits.check (fun w w' he => ?_) (Emits.bind ?_ ?_)
    · have := check_ok he w
      rw [he] at this
      exact (Prod.mk.inj this).2
    · unfold Attrs.put
      rw [a.isWritten_rest order dflt (hs.at _)]
      by_cases hw : a.written env' = true
      · rw [if_pos hw, if_pos hw]; exact h _ (hs.at _)
      · rw [if_neg hw, if_neg hw]; exact Emits.pure
    · have := Emits.pad order (padOf a.padBitsAfter a.padBytesAfter) hp2 ((env.at 0).push v)
      rwa [padOf_getD] at this

theorem SFields.elabStored_inv (c : Container) (env : List Arg) (typed : Option Nat) (fs : SFields) (ds : DFields)
    (h : fs.elabStored c env typed = some ds) :
    ∃ W a rest rest', typed = some W ∧ fs = .cons a (.base (.uint W)) rest ∧ rest.elab c env = some rest' ∧
      ds = .cons {} (.leaf (some (8 * W)) (.uint W .unit)) rest' := by
  unfold SFields.elabStored at h
  split at h
  · cases h
  · split at h
    · split at h
      · rename_i hc
        simp only [Option.bind_eq_bind, Option.bind_eq_some_iff, Option.pure_def, Option.some.injEq] at h
        obtain ⟨r, h1, rfl⟩ := h
        obtain ⟨_, rfl⟩ := hc
        exact ⟨_, _, _, _, rfl, rfl, h1, rfl⟩
      · cases h
    · cases h

/-- A list of bytes is written like any list of `u8`. -/
theorem byteVec_emits {m : Machine} {args : List Arg} {ctx : IntCtx} (h : intArgs args = some ctx)
    (hs : intSized args 1 = true) (hm : intOrdered o m.native args 1 = true) (env : Env) (v : Val) (z : Bool) (u : STy)
    (hu : (STy.vec z u).isVecU8 = true) (n : Expr) (env' : Env) :
    Emits o (((Def.bytes n ctx).toTy m).write m env v) ((STy.vec z u).wire o m.native args env' v) := by
  have : u = .base (.uint 1) := by
    unfold STy.isVecU8 at hu
    split at hu
    · rename_i e; cases e; rfl
    · cases hu
  subst this
  rw [Def.toTy, Ty.write, STy.wire]
  refine Emits.ite fun hb => ?_
  simp only [Val.isBytes, Bool.and_eq_true, List.all_eq_true, decide_eq_true_eq] at hb
  have h1 := Emits.writeAll (g := Coll.u8Write m.native ctx)
    (x := fun b : Byte => [intPiece o m.native args 1 b.toNat])
    (fun b => uint_emits h hs hm b.toNat (by have := b.isLt; omega)) (v.elems.map Val.toByte)
  rw [List.flatMap_map] at h1
  have e : v.elems.flatMap (fun x => (STy.base (.uint 1)).wire o m.native args env' x) =
      v.elems.flatMap fun x => [intPiece o m.native args 1 x.toByte.toNat] := by
    rw [List.flatMap_def, List.flatMap_def]
    congr 1
    refine List.map_congr_left fun x hx => ?_
    rw [STy.wire]
    conv => lhs; rw [hb.2 x hx]
    rfl
  rw [e]
  exact h1

mutual

theorem STy.emits (m : Machine) : ∀ (t : STy) (lim : Option Lim) (args : List Arg) (d : Def), t.ordered o m.native args = true →
    t.idsNamed = true → t.sized args = true → t.elab lim args = some d →
    ∀ (env env' : Env), env.Same env' → ∀ v, Emits o ((d.toTy m).write m env v) (t.wire o m.native args env' v)
  | .base b, lim, args, d, hm, _, hz, h, env, env', hs, v => by
    rw [STy.elab] at h
    split at h
    · cases h
    · simp only [Option.bind_eq_bind, Option.bind_eq_some_iff, Option.pure_def, Option.some.injEq] at h
      obtain ⟨l, h1, rfl⟩ := h
      rw [STy.sized] at hz
      rw [Def.toTy, Ty.write, STy.wire]
      rw [STy.ordered] at hm
      exact leaf_emits m args b l h1 hz hm v
  | .option t, lim, args, d, hm, hn, hz, h, env, env', hs, v => by
    simp only [STy.elab, Option.bind_eq_bind, Option.bind_eq_some_iff, Option.pure_def, Option.some.injEq] at h
    obtain ⟨x, h1, rfl⟩ := h
    rw [STy.ordered] at hm
    rw [STy.idsNamed] at hn
    rw [STy.sized] at hz
    rw [Def.toTy, Ty.write.eq_def, STy.wire.eq_def]
    cases v with
    | none => exact Emits.pure
    | some y => exact STy.emits m t _ _ _ hm hn hz h1 env env' hs y
    | _ => exact Emits.panic _
  | .array n t, lim, args, d, hm, hn, hz, h, env, env', hs, v => by
    simp only [STy.elab, Option.bind_eq_bind, Option.bind_eq_some_iff, Option.pure_def, Option.some.injEq] at h
    obtain ⟨x, h1, rfl⟩ := h
    rw [STy.ordered] at hm
    rw [STy.idsNamed] at hn
    rw [STy.sized] at hz
    rw [Def.toTy, Ty.write, STy.wire]
    exact Emits.ite fun _ => Emits.writeAll (fun y => STy.emits m t _ _ _ hm hn hz h1 env env' hs y) _
  | .pair a b, lim, args, d, hm, hn, hz, h, env, env', hs, v => by
    simp only [STy.elab, Option.bind_eq_bind, Option.bind_eq_some_iff, Option.pure_def, Option.some.injEq] at h
    obtain ⟨x, h1, y, h2, rfl⟩ := h
    rw [STy.ordered, Bool.and_eq_true] at hm
    rw [STy.idsNamed, Bool.and_eq_true] at hn
    rw [STy.sized, Bool.and_eq_true] at hz
    rw [Def.toTy, Ty.write.eq_def, STy.wire.eq_def]
    dsimp only
    split
    · exact Emits.bind (STy.emits m a _ _ _ hm.1 hn.1 hz.1 h1 env env' hs _)
        (STy.emits m b _ _ _ hm.2 hn.2 hz.2 h2 env env' hs _)
    · exact Emits.panic _
  | .vec z t, none, args, d, _, _, _, h, _, _, _, _ => by simp [STy.elab] at h
  | .vec z t, some l, args, d, hm, hn, hz, h, env, env', hs, v => by
    simp only [STy.elab, Option.bind_eq_bind, Option.bind_eq_some_iff, Option.pure_def, Option.some.injEq] at h
    obtain ⟨x, h1, rfl⟩ := h
    rw [STy.ordered] at hm
    rw [STy.idsNamed] at hn
    rw [STy.sized] at hz
    rw [Def.toTy, Ty.write, STy.wire]
    exact Emits.ite fun _ => Emits.writeAll (fun y => STy.emits m t _ _ _ hm hn hz h1 env env' hs y) _
  | .struct c fs, lim, args, d, hm, hn, hz, h, env, env', hs, v => by
    rw [STy.elab] at h
    split at h
    · cases h
    · simp only [Option.bind_eq_bind, Option.bind_eq_some_iff, Option.pure_def, Option.some.injEq] at h
      obtain ⟨sc, h1, ds, h2, rfl⟩ := h
      obtain rfl := Container.bind_scope c args sc h1
      rw [STy.ordered] at hm
      rw [STy.idsNamed] at hn
      rw [STy.sized] at hz
      rw [Def.toTy, Ty.write, STy.wire]
      have hseek : Emits o (seekWrite none (inside ((c.scope args).map Arg.expr) env)) [] := Emits.pure
      rw [← List.nil_append ([bytesPiece o c.magic]), List.append_assoc]
      refine Emits.bind hseek (Emits.bind (Emits.magic m.native c.magic) ?_)
      refine SFields.emits m c (c.scope args) fs ds hm hn hz h2 _ _ ?_ v v
      exact inside_same hs _ ▸ Env.Same.refl _
  | .enum c id vs, lim, args, d, hm, hn, hz, h, env, env', hs, v => by
    rw [STy.elab] at h
    split at h
    · cases h
    · rename_i hcond
      simp only [not_or, Bool.not_eq_false] at hcond
      simp only [Option.bind_eq_bind, Option.bind_eq_some_iff, Option.pure_def, Option.some.injEq] at h
      obtain ⟨sc, h1, did, h2, ds, h3, rfl⟩ := h
      obtain rfl := Container.bind_scope c args sc h1
      rw [STy.ordered, Bool.and_eq_true] at hm
      rw [STy.idsNamed, Bool.and_eq_true] at hn
      rw [STy.sized, Bool.and_eq_true] at hz
      have hid := SId.elab_passes c _ _ id did h2 hcond.2.1 hn.1
      rw [Def.toTy, Ty.write.eq_def, STy.wire.eq_def]
      dsimp only
      split
      · refine Emits.bind (Emits.magic m.native c.magic) ?_
        refine SVariants.emits m c (c.scope args) id did hz.1 hm.1 hid vs ds hm.2 hn.2 hz.2 h3 _ _ _
          ?_ _
        exact inside_same hs _ ▸ Env.Same.refl _
      · exact Emits.panic _

theorem SFields.emits (m : Machine) (c : Container) (sc : List Arg) :
    ∀ (fs : SFields) (ds : DFields), fs.ordered o m.native c sc = true → fs.idsNamed = true →
    fs.sized c sc = true → fs.elab c sc = some ds → ∀ (env env' : Env), env.Same env' → ∀ all v,
      Emits o ((ds.toFields m).write m env all v) (fs.wire o m.native c sc env' all v)
  | .nil, ds, _, _, _, h, env, env', hs, all, v => by
    simp only [SFields.elab, Option.some.injEq] at h
    subst h
    rw [DFields.toFields, Fields.write, SFields.wire]
    exact Emits.ite fun _ => Emits.pure
  | .cons a t rest, ds, hm, hn, hz, h, env, env', hs, all, v => by
    simp only [SFields.ordered, Bool.and_eq_true] at hm
    obtain ⟨⟨hm1, hm2⟩, hm3⟩ := hm
    rw [SFields.idsNamed, Bool.and_eq_true] at hn
    rw [SFields.sized, Bool.and_eq_true] at hz
    obtain ⟨endian, order, ctx, dflt, d, rest', h1, h2, h3, h4, h5, h6, hv, h7⟩ := SFields.elab_cons c sc a t rest ds h
    rw [a.fieldArgs_passes c sc endian order ctx h1 h2 h3 hv] at h5
    have ho : (a.padBitsBefore.isNone && a.padBytesBefore.isNone && a.padBitsAfter.isNone && a.padBytesAfter.isNone) =
        true ∨ order.getD .msb0 = o := by
      simp only [SAttrs.ordered, Bool.or_eq_true, decide_eq_true_eq] at hm1
      refine hm1.imp id fun h => ?_
      rw [show (fun x : Given Order => x.means Arg.order? sc) = fun x => x.order sc from
        funext (Given.means_order sc), evalOpt_bind _ _ _ h2] at h
      exact h
    have hval : ∀ x (e : Env), e.Same env' →
        Emits o ((d.toTy m).write m e x) (t.wire o m.native (a.passes c sc) env' x) := by
      intro x e he
      rcases h5 with ⟨n, u, _, ht, hu, rfl⟩ | h5
      · cases t with
        | vec z t =>
          refine byteVec_emits hu ?_ ?_ e x z t ht n env' <;>
            have : t = .base (.uint 1) := by
              unfold STy.isVecU8 at ht
              split at ht
              · rename_i e; cases e; rfl
              · cases ht
          · subst this
            have := hz.1
            rw [STy.sized, STy.sized] at this
            exact this
          · subst this
            rw [STy.ordered, STy.ordered] at hm2
            exact hm2
        | _ => cases ht
      · exact STy.emits m t _ _ d hm2 hn.1 hz.1 h5 e env' he x
    rcases h7 with ⟨ht, rfl⟩ | ⟨f, ht, rfl⟩
    · rw [DFields.toFields, Fields.write.eq_def, SFields.wire.eq_def]
      simp only [ht]
      cases v with
      | cons x xs =>
        exact Emits.bind (a.emits m.native order dflt ho _ hs x _ fun e he => (hval x e he).mark a t)
          (SFields.emits m c sc rest rest' hm3 hn.2 hz.2 h6 _ _ (hs.push x) all xs)
      | _ => exact Emits.panic _
    · rw [DFields.toFields, Fields.write.eq_def, SFields.wire.eq_def]
      simp only [ht]
      exact Emits.bind (a.emits m.native order dflt ho _ hs (f.eval all) _ fun e he => (hval _ e he).mark a t)
        (SFields.emits m c sc rest rest' hm3 hn.2 hz.2 h6 _ _ (hs.push _) all v)

theorem SFields.emitsStored (m : Machine) (c : Container) (sc : List Arg) (put : Val → M Writer Unit) (bits : Int → Piece)
    (hput : ∀ x, Emits o (put x) (match x with | .num n => [bits n] | _ => [])) (typed : Option Nat) :
    ∀ (fs : SFields) (ds : DFields), fs.ordered o m.native c sc = true → fs.idsNamed = true →
    fs.sized c sc = true → fs.elabStored c sc typed = some ds → ∀ (env env' : Env), env.Same env' → ∀ v,
      Emits o ((ds.toFields m).writeStored m (fun _ => put) env v) (fs.wireStored o m.native c bits sc env' v)
  | .nil, ds, _, _, _, h, _, _, _, _ => by simp [SFields.elabStored] at h
  | .cons a t rest, ds, hm, hn, hz, h, env, env', hs, v => by
    obtain ⟨W, _, rest2, rest', _, e, h4, rfl⟩ := SFields.elabStored_inv c sc _ _ ds h
    obtain rfl : rest = rest2 := by cases e; rfl
    rw [SFields.ordered, Bool.and_eq_true] at hm
    rw [SFields.idsNamed, Bool.and_eq_true] at hn
    rw [SFields.sized, Bool.and_eq_true] at hz
    rw [DFields.toFields, Fields.writeStored.eq_def, SFields.wireStored.eq_def]
    cases v with
    | cons x xs =>
      exact Emits.bind (hput x) (SFields.emits m c sc rest rest' hm.2 hn.2 hz.2 h4 _ _ (hs.push x) _ xs)
    | _ => exact Emits.panic _

theorem SVariants.emits (m : Machine) (c : Container) (sc : List Arg) (id : SId) (did : DId) (hid : id.sized c sc = true)
    (hio : id.ordered o m.native c sc = true)
    (hd : id.Gives c sc did) :
    ∀ (vs : SVariants) (ds : DVariants), vs.ordered o m.native c sc = true → vs.idsNamed = true →
    vs.sized c id sc = true → vs.elab c sc id.size = some ds → ∀ (i : Nat) (env env' : Env), env.Same env' → ∀ v,
      Emits o ((ds.toVariants m).writeAt m env (did.toSrc m) (did.store m) i v)
        (vs.wireAt o m.native c id i sc env' v)
  | .nil, ds, _, _, _, h, i, env, env', hs, v => by
    simp only [SVariants.elab, Option.some.injEq] at h
    subst h
    rw [DVariants.toVariants, Variants.writeAt]
    exact Emits.panic _
  | .cons a fs rest, ds, hm, hn, hz, h, i + 1, env, env', hs, v => by
    obtain ⟨fs', rest', _, h2, rfl⟩ := SVariants.elab_cons c sc _ a fs rest ds h
    rw [SVariants.ordered, Bool.and_eq_true] at hm
    rw [SVariants.idsNamed, Bool.and_eq_true] at hn
    rw [SVariants.sized, Bool.and_eq_true] at hz
    rw [DVariants.toVariants, Variants.writeAt, SVariants.wireAt]
    exact SVariants.emits m c sc id did hid hio hd rest rest' hm.2 hn.2 hz.2 h2 i env env' hs v
  | .cons a fs rest, ds, hm, hn, hz, h, 0, env, env', hs, v => by
    obtain ⟨fs', rest', h1, h2, rfl⟩ := SVariants.elab_cons c sc _ a fs rest ds h
    rw [SVariants.ordered, Bool.and_eq_true] at hm
    rw [SVariants.idsNamed, Bool.and_eq_true] at hn
    simp only [SVariants.sized, Bool.and_eq_true] at hz
    rw [DVariants.toVariants, Variants.writeAt.eq_def, SVariants.wireAt.eq_def]
    cases id with
    | ctx e =>
      simp only [SId.Gives] at hd
      subst hd
      by_cases hk : a.kind.isPat = true
      · rw [if_pos hk] at h1
        obtain ⟨W, _, _, _, ht, _⟩ := SFields.elabStored_inv c sc _ fs fs' h1
        cases ht
      · rw [if_neg hk] at h1
        simp only [DId.toSrc, DVAttrs.toVAttrs, hk, Bool.false_eq_true, if_false]
        have h3 := SFields.emits m c sc fs fs' hm.1 hn.1 hz.1.2 h1 env env' hs v v
        have := Emits.bind Emits.pure h3
        exact this
    | typed W e bits bytes =>
      obtain ⟨size, ctx, rfl, hi⟩ := hd
      have hput : ∀ x, Emits o ((uintCodec m.native W ctx).write x) (match x with
          | .num n => [intPiece o m.native ((SId.typed W e bits bytes).passes c sc) W n] | _ => []) :=
        fun x => uintCodec_emits hi hid hio x
      have hstored : a.kind.isPat = true → Emits o ((fs'.toFields m).writeStored m
          ((DId.typed size W ctx ctx).store m) env v)
          (fs.wireStored o m.native c (intPiece o m.native ((SId.typed W e bits bytes).passes c sc) W) sc env' v) := by
        intro hk
        rw [if_pos hk] at h1
        exact SFields.emitsStored m c sc _ _ hput _ fs fs' hm.1 hn.1 hz.1.2 h1 env env' hs v
      obtain ⟨k, dflt⟩ := a
      cases k with
      | id n =>
        rw [if_neg (by simp [VKind.isPat])] at h1
        have h3 := SFields.emits m c sc fs fs' hm.1 hn.1 hz.1.2 h1 env env' hs v v
        exact Emits.bind (hput (.num n)) h3
      | any => exact Emits.bind Emits.pure (hstored rfl)
      | range lo hi => exact Emits.bind Emits.pure (hstored rfl)

end

/-! ### values -/

theorem ofByte_toByte (n : Int) : Val.num n = Val.ofByte (Val.toByte (.num n)) ↔ 0 ≤ n ∧ n < 256 := by
  simp only [Val.ofByte, Val.toByte, BitVec.toNat_ofInt, Val.num.injEq]
  omega

theorem Base.leaf_has (args : List Arg) (b : Base) (l : Leaf) (h : b.leaf args = some l) (v : Val) :
    l.has v = b.has v := by
  cases b <;> simp only [Base.leaf, Option.map_eq_some_iff] at h
  case cstring =>
    have : v.isCString = Base.has .cstring v := by
      have hp : ∀ l : List Val, ((l.all fun x => decide (x = Val.ofByte (Val.toByte x))) && l.all fun x => decide (x ≠ .num 0)) =
          l.all fun x => match x with | .num n => decide (0 < n ∧ n < 256) | _ => false := by
        intro l
        induction l with
        | nil => rfl
        | cons x xs ih =>
          have hx : (decide (x = Val.ofByte (Val.toByte x)) && decide (x ≠ .num 0)) =
              (match x with | .num n => decide (0 < n ∧ n < 256) | _ => false) := by
            cases x with
            | num n =>
              rw [Bool.eq_iff_iff]
              simp only [Bool.and_eq_true, decide_eq_true_eq, ofByte_toByte, ne_eq, Val.num.injEq]
              omega
            | _ => simp [Val.ofByte]
          rw [List.all_cons, List.all_cons, List.all_cons, ← ih, ← hx]
          simp only [Bool.and_assoc, Bool.and_left_comm]
      simp only [Val.isCString, Val.isBytes, Bool.and_assoc, hp]
      rfl
    split at h <;> simp only [Option.some.injEq, reduceCtorEq] at h <;> subst h <;> exact this
  case unit => cases h; cases v <;> rfl
  case bool =>
    obtain ⟨ctx, _, rfl⟩ := h
    cases v <;> simp [Leaf.has, Base.has]
  all_goals
    obtain ⟨ctx, _, rfl⟩ := h
    cases v <;> rfl

theorem byteVec_has (z : Bool) (t : STy) (h : (STy.vec z t).isVecU8 = true) (v : Val) :
    (STy.vec z t).has v = v.isBytes := by
  have : t = .base (.uint 1) := by
    unfold STy.isVecU8 at h
    split at h
    · rename_i e; cases e; rfl
    · cases h
  subst this
  rw [STy.has, Val.isBytes]
  congr 1
  congr 1
  funext x
  rw [STy.has]
  cases x with
  | num n => simp only [Base.has, ofByte_toByte]; rfl
  | _ => simp [Base.has, Val.ofByte]

theorem SAttrs.anySet_temp (a : SAttrs) (h : a.anySet = false) : a.temp = none := by
  simp only [SAttrs.anySet, Bool.or_eq_false_iff] at h
  have := h.1.1.1.1.1.1.2
  simpa using this

/-- The size of the type of the id, if it is read. -/
def DId.width : DId → Option Nat
  | .typed _ W _ _ => some W
  | .arg _ => none

mutual

theorem STy.elab_has : ∀ (t : STy) (lim : Option Lim) (args : List Arg) (d : Def), t.elab lim args = some d →
    ∀ v, d.has v = t.has v
  | .base b, lim, args, d, h, v => by
    rw [STy.elab] at h
    split at h
    · cases h
    · simp only [Option.bind_eq_bind, Option.bind_eq_some_iff, Option.pure_def, Option.some.injEq] at h
      obtain ⟨l, h1, rfl⟩ := h
      rw [Def.has, STy.has]
      exact Base.leaf_has args b l h1 v
  | .option t, lim, args, d, h, v => by
    simp only [STy.elab, Option.bind_eq_bind, Option.bind_eq_some_iff, Option.pure_def, Option.some.injEq] at h
    obtain ⟨x, h1, rfl⟩ := h
    rw [Def.has.eq_def, STy.has.eq_def]
    cases v with
    | some y => exact STy.elab_has t _ _ _ h1 y
    | _ => rfl
  | .array n t, lim, args, d, h, v => by
    simp only [STy.elab, Option.bind_eq_bind, Option.bind_eq_some_iff, Option.pure_def, Option.some.injEq] at h
    obtain ⟨x, h1, rfl⟩ := h
    rw [Def.has, STy.has]
    simp only [STy.elab_has t _ _ _ h1]
  | .pair a b, lim, args, d, h, v => by
    simp only [STy.elab, Option.bind_eq_bind, Option.bind_eq_some_iff, Option.pure_def, Option.some.injEq] at h
    obtain ⟨x, h1, y, h2, rfl⟩ := h
    rw [Def.has.eq_def, STy.has.eq_def]
    simp only [STy.elab_has a _ _ _ h1, STy.elab_has b _ _ _ h2]
    split <;> first | rfl | (rename_i hx; split <;> first | rfl | exact absurd rfl (hx _ _))
  | .vec z t, none, args, d, h, _ => by simp [STy.elab] at h
  | .vec z t, some l, args, d, h, v => by
    simp only [STy.elab, Option.bind_eq_bind, Option.bind_eq_some_iff, Option.pure_def, Option.some.injEq] at h
    obtain ⟨x, h1, rfl⟩ := h
    rw [Def.has, STy.has]
    simp only [STy.elab_has t _ _ _ h1]
  | .struct c fs, lim, args, d, h, v => by
    rw [STy.elab] at h
    split at h
    · cases h
    · simp only [Option.bind_eq_bind, Option.bind_eq_some_iff, Option.pure_def, Option.some.injEq] at h
      obtain ⟨sc, h1, ds, h2, rfl⟩ := h
      rw [Def.has, STy.has]
      exact SFields.elab_has c sc fs ds h2 v v
  | .enum c id vs, lim, args, d, h, v => by
    rw [STy.elab] at h
    split at h
    · cases h
    · simp only [Option.bind_eq_bind, Option.bind_eq_some_iff, Option.pure_def, Option.some.injEq] at h
      obtain ⟨sc, h1, did, h2, ds, h3, rfl⟩ := h
      rw [Def.has.eq_def, STy.has.eq_def]
      have hd : did.width = id.size := by
        cases id with
        | ctx e => cases h2; rfl
        | typed W e bits bytes =>
          simp only [SId.elab, Option.bind_eq_bind, Option.bind_eq_some_iff, Option.pure_def, Option.some.injEq] at h2
          obtain ⟨_, _, _, _, _, _, _, _, _, _, rfl⟩ := h2
          rfl
      cases v with
      | variant i w => exact SVariants.elab_has c sc _ did hd vs ds h3 i w
      | _ => rfl

theorem SFields.elab_has (c : Container) (sc : List Arg) : ∀ (fs : SFields) (ds : DFields), fs.elab c sc = some ds →
    ∀ all v, ds.has all v = fs.has all v
  | .nil, ds, h, all, v => by
    simp only [SFields.elab, Option.some.injEq] at h
    subst h
    rw [DFields.has, SFields.has]
  | .cons a t rest, ds, h, all, v => by
    obtain ⟨endian, order, ctx, dflt, d, rest', h1, h2, h3, h4, h5, h6, hv, h7⟩ := SFields.elab_cons c sc a t rest ds h
    have hval : ∀ x, d.has x = t.has x := by
      intro x
      rcases h5 with ⟨n, u, _, ht, _, rfl⟩ | h5
      · cases t with
        | vec z t => rw [Def.has]; exact (byteVec_has z t ht x).symm
        | _ => cases ht
      · exact STy.elab_has t _ _ d h5 x
    rcases h7 with ⟨ht, rfl⟩ | ⟨f, ht, rfl⟩
    · rw [DFields.has.eq_def, SFields.has.eq_def]
      simp only [ht, hval]
      cases v with
      | cons x xs => simp only [SFields.elab_has c sc rest rest' h6]
      | _ => rfl
    · rw [DFields.has.eq_def, SFields.has.eq_def]
      simp only [ht, hval, SFields.elab_has c sc rest rest' h6]

theorem SFields.elabStored_has (c : Container) (sc : List Arg) (W : Nat) : ∀ (fs : SFields) (ds : DFields),
    fs.elabStored c sc (some W) = some ds → ∀ v, ds.hasStored W v = fs.has v v
  | .nil, ds, h, _ => by simp [SFields.elabStored] at h
  | .cons a t rest, ds, h, v => by
    have ht : a.temp = none := by
      unfold SFields.elabStored at h
      split at h
      · split at h
        · rename_i hc; exact a.anySet_temp hc.1
        · cases h
      · cases h
    obtain ⟨W', _, rest2, rest', e1, e, h4, rfl⟩ := SFields.elabStored_inv c sc _ _ ds h
    obtain rfl : rest = rest2 := by cases e; rfl
    obtain rfl : t = .base (.uint W') := by cases e; rfl
    cases e1
    rw [DFields.hasStored.eq_def, SFields.has.eq_def]
    simp only [ht]
    cases v with
    | cons x xs =>
      simp only [SFields.elab_has c sc rest rest' h4]
      rw [STy.has]
      congr 1
      cases x <;> rfl
    | _ => rfl

theorem SVariants.elab_has (c : Container) (sc : List Arg) (typed : Option Nat) (did : DId)
    (hd : did.width = typed) :
    ∀ (vs : SVariants) (ds : DVariants), vs.elab c sc typed = some ds → ∀ i v, ds.hasAt did i v = vs.hasAt i v
  | .nil, ds, h, i, v => by
    simp only [SVariants.elab, Option.some.injEq] at h
    subst h
    rw [DVariants.hasAt, SVariants.hasAt]
  | .cons a fs rest, ds, h, i + 1, v => by
    obtain ⟨fs', rest', _, h2, rfl⟩ := SVariants.elab_cons c sc _ a fs rest ds h
    rw [DVariants.hasAt, SVariants.hasAt]
    exact SVariants.elab_has c sc typed did hd rest rest' h2 i v
  | .cons a fs rest, ds, h, 0, v => by
    obtain ⟨fs', rest', h1, h2, rfl⟩ := SVariants.elab_cons c sc _ a fs rest ds h
    rw [DVariants.hasAt.eq_def, SVariants.hasAt]
    dsimp only
    cases did with
    | arg e =>
      subst hd
      by_cases hk : a.kind.isPat = true
      · rw [if_pos hk] at h1
        obtain ⟨W, _, _, _, ht, _⟩ := SFields.elabStored_inv c sc _ fs fs' h1
        cases ht
      · rw [if_neg hk] at h1
        exact SFields.elab_has c sc fs fs' h1 v v
    | typed size W ctx store =>
      subst hd
      by_cases hk : a.kind.isPat = true
      · rw [if_pos hk] at h1
        simp only [hk, if_true]
        exact SFields.elabStored_has c sc W fs fs' h1 v
      · rw [if_neg hk] at h1
        simp only [hk, Bool.false_eq_true, if_false]
        exact SFields.elab_has c sc fs fs' h1 v v

end

/-! ### sizes -/

theorem intSized_uint {native : Endian} {args : List Arg} {ctx : IntCtx} {W : Nat} (h : intArgs args = some ctx)
    (hs : intSized args W = true) : uintValid native W ctx = true := by
  rw [uintValid, (intArgs_shape native args ctx W h hs).1]
  exact hs

theorem intSized_sint {native : Endian} {args : List Arg} {ctx : IntCtx} {W : Nat} (h : intArgs args = some ctx)
    (hs : intSized args W = true) : sintValid native W ctx = true := by
  rw [sintValid, (intArgs_shape native args ctx W h hs).2]
  exact hs

theorem Base.leaf_valid (native : Endian) (args : List Arg) (b : Base) (l : Leaf) (h : b.leaf args = some l)
    (hs : b.sized args = true) : l.valid native = true := by
  cases b <;> simp only [Base.leaf, Option.map_eq_some_iff] at h
  case cstring =>
    split at h <;> simp only [Option.some.injEq, reduceCtorEq] at h <;> subst h
    · rfl
    · have hs := of_decide_eq_true hs
      simp only [sizeOf?, List.findSome?_cons, Option.getD_some] at hs
      apply decide_eq_true
      omega
  case unit => cases h; rfl
  case uint => obtain ⟨ctx, h, rfl⟩ := h; exact intSized_uint h hs
  case bool => obtain ⟨ctx, h, rfl⟩ := h; exact intSized_uint h hs
  case sint => obtain ⟨ctx, h, rfl⟩ := h; exact intSized_sint h hs
  case nonzero => obtain ⟨ctx, h, rfl⟩ := h; exact intSized_uint (nonzeroArgs_int _ _ h) hs
  case nonzeroSigned => obtain ⟨ctx, h, rfl⟩ := h; exact intSized_sint (nonzeroArgs_int _ _ h) hs

theorem sizeOf?_endian (e : Option Endian) (l : List Arg) : sizeOf? ((e.map Arg.endian).toList ++ l) = sizeOf? l := by
  cases e <;> rfl

theorem SId.elab_valid (native : Endian) (c : Container) (env : List Arg) (anyPat : Bool) (id : SId) (did : DId)
    (h : id.elab c env anyPat = some did) (hv : id.validate = true) (hs : id.sized c env = true) :
    did.valid native = true ∧ ∀ k fs, id.holds k = true → (k.isPat = true → id.size ≠ none ∧ fs.stores = true) →
      did.allows k fs = true := by
  cases id with
  | ctx e =>
    cases h
    refine ⟨rfl, fun k fs _ hk => ?_⟩
    cases hp : k.isPat with
    | false => rw [DId.allows, hp]; rfl
    | true => exact absurd rfl (hk hp).1
  | typed W e bits bytes =>
    simp only [SId.elab, Option.bind_eq_bind, Option.bind_eq_some_iff, Option.pure_def, Option.some.injEq] at h
    obtain ⟨endian, h1, order, h2, ctx, h3, stored, h4, store, h5, rfl⟩ := h
    have hb : (bits.isSome && bytes.isSome) = false := by
      simp only [SId.validate, Bool.not_eq_true'] at hv; exact hv
    have hz : ∀ x : Option Endian, intSized (fieldArgs x bits bytes order []) W = true := by
      intro x
      rw [fieldArgs_sizeArg _ _ _ _ _ hb]
      simp only [SId.sized, SId.passes_def, evalOpt_bind _ _ _ h2, intSized, List.append_assoc, sizeOf?_endian] at hs ⊢
      simpa using hs
    refine ⟨?_, ?_⟩
    · rw [DId.valid, intSized_uint h3 (hz _), intSized_uint h5 (hz _)]; rfl
    · intro k fs h1 h2
      cases k with
      | id n => exact h1
      | any => exact (h2 rfl).2
      | range lo hi => exact (h2 rfl).2

mutual

theorem STy.elab_valid (native : Endian) : ∀ (t : STy) (lim : Option Lim) (args : List Arg) (d : Def),
    t.sized args = true → t.elab lim args = some d → d.valid native = true
  | .base b, lim, args, d, hz, h => by
    rw [STy.elab] at h
    split at h
    · cases h
    · simp only [Option.bind_eq_bind, Option.bind_eq_some_iff, Option.pure_def, Option.some.injEq] at h
      obtain ⟨l, h1, rfl⟩ := h
      rw [STy.sized] at hz
      rw [Def.valid]
      exact Base.leaf_valid native args b l h1 hz
  | .option t, lim, args, d, hz, h => by
    simp only [STy.elab, Option.bind_eq_bind, Option.bind_eq_some_iff, Option.pure_def, Option.some.injEq] at h
    obtain ⟨x, h1, rfl⟩ := h
    rw [STy.sized] at hz
    rw [Def.valid]
    exact STy.elab_valid native t _ _ _ hz h1
  | .array n t, lim, args, d, hz, h => by
    simp only [STy.elab, Option.bind_eq_bind, Option.bind_eq_some_iff, Option.pure_def, Option.some.injEq] at h
    obtain ⟨x, h1, rfl⟩ := h
    rw [STy.sized] at hz
    rw [Def.valid]
    exact STy.elab_valid native t _ _ _ hz h1
  | .pair a b, lim, args, d, hz, h => by
    simp only [STy.elab, Option.bind_eq_bind, Option.bind_eq_some_iff, Option.pure_def, Option.some.injEq] at h
    obtain ⟨x, h1, y, h2, rfl⟩ := h
    rw [STy.sized, Bool.and_eq_true] at hz
    rw [Def.valid, STy.elab_valid native a _ _ _ hz.1 h1, STy.elab_valid native b _ _ _ hz.2 h2]
    rfl
  | .vec z t, none, args, d, _, h => by simp [STy.elab] at h
  | .vec z t, some l, args, d, hz, h => by
    simp only [STy.elab, Option.bind_eq_bind, Option.bind_eq_some_iff, Option.pure_def, Option.some.injEq] at h
    obtain ⟨x, h1, rfl⟩ := h
    rw [STy.sized] at hz
    rw [Def.valid]
    exact STy.elab_valid native t _ _ _ hz h1
  | .struct c fs, lim, args, d, hz, h => by
    rw [STy.elab] at h
    split at h
    · cases h
    · simp only [Option.bind_eq_bind, Option.bind_eq_some_iff, Option.pure_def, Option.some.injEq] at h
      obtain ⟨sc, h1, ds, h2, rfl⟩ := h
      obtain rfl := Container.bind_scope c args sc h1
      rw [STy.sized] at hz
      rw [Def.valid]
      exact SFields.elab_valid native c _ fs ds hz h2
  | .enum c id vs, lim, args, d, hz, h => by
    rw [STy.elab] at h
    split at h
    · cases h
    · rename_i hcond
      simp only [not_or, Bool.not_eq_false] at hcond
      simp only [Option.bind_eq_bind, Option.bind_eq_some_iff, Option.pure_def, Option.some.injEq] at h
      obtain ⟨sc, h1, did, h2, ds, h3, rfl⟩ := h
      obtain rfl := Container.bind_scope c args sc h1
      rw [STy.sized, Bool.and_eq_true] at hz
      obtain ⟨hv, ha⟩ := SId.elab_valid native c _ _ id did h2 hcond.2.1 hz.1
      rw [Def.valid, hv, SVariants.elab_valid native c _ id did ha vs ds hz.2 h3]
      rfl

theorem SFields.elab_valid (native : Endian) (c : Container) (sc : List Arg) : ∀ (fs : SFields) (ds : DFields),
    fs.sized c sc = true → fs.elab c sc = some ds → ds.valid native = true
  | .nil, ds, _, h => by
    simp only [SFields.elab, Option.some.injEq] at h
    subst h
    rw [DFields.valid]
  | .cons a t rest, ds, hz, h => by
    rw [SFields.sized, Bool.and_eq_true] at hz
    obtain ⟨endian, order, ctx, dflt, d, rest', h1, h2, h3, h4, h5, h6, hv, h7⟩ := SFields.elab_cons c sc a t rest ds h
    rw [a.fieldArgs_passes c sc endian order ctx h1 h2 h3 hv] at h5
    have hd : d.valid native = true := by
      rcases h5 with ⟨n, u, _, ht, hu, rfl⟩ | h5
      · cases t with
        | vec z t =>
          have : t = .base (.uint 1) := by
            unfold STy.isVecU8 at ht
            split at ht
            · rename_i e; cases e; rfl
            · cases ht
          subst this
          have := hz.1
          rw [STy.sized, STy.sized] at this
          rw [Def.valid]
          exact intSized_uint hu this
        | _ => cases ht
      · exact STy.elab_valid native t _ _ d hz.1 h5
    have hr := SFields.elab_valid native c sc rest rest' hz.2 h6
    rcases h7 with ⟨_, rfl⟩ | ⟨f, _, rfl⟩ <;> rw [DFields.valid, hd, hr] <;> rfl

theorem SFields.elabStored_valid (native : Endian) (c : Container) (sc : List Arg) (typed : Option Nat) :
    ∀ (fs : SFields) (ds : DFields), fs.sized c sc = true →
      fs.elabStored c sc typed = some ds → ds.valid native = true ∧ typed ≠ none ∧ ds.stores = true
  | .nil, ds, _, h => by simp [SFields.elabStored] at h
  | .cons a t rest, ds, hz, h => by
    obtain ⟨W, _, rest2, rest', e1, e, h4, rfl⟩ := SFields.elabStored_inv c sc _ _ ds h
    obtain rfl : rest = rest2 := by cases e; rfl
    rw [SFields.sized, Bool.and_eq_true] at hz
    obtain rfl : t = .base (.uint W) := by cases e; rfl
    have h1 := hz.1
    rw [STy.sized] at h1
    have h1 := of_decide_eq_true h1
    refine ⟨?_, by rw [e1]; simp, rfl⟩
    rw [DFields.valid, SFields.elab_valid native c sc rest rest' hz.2 h4, Def.valid]
    rw [Bool.and_true]
    apply decide_eq_true
    simp only [IntCtx.shape]
    omega

theorem SVariants.elab_valid (native : Endian) (c : Container) (sc : List Arg) (id : SId) (did : DId)
    (ha : ∀ k fs, id.holds k = true → (k.isPat = true → id.size ≠ none ∧ fs.stores = true) → did.allows k fs = true) :
    ∀ (vs : SVariants) (ds : DVariants), vs.sized c id sc = true → vs.elab c sc id.size = some ds →
      ds.valid native did = true
  | .nil, ds, _, h => by
    simp only [SVariants.elab, Option.some.injEq] at h
    subst h
    rw [DVariants.valid]
  | .cons a fs rest, ds, hz, h => by
    obtain ⟨fs', rest', h1, h2, rfl⟩ := SVariants.elab_cons c sc _ a fs rest ds h
    simp only [SVariants.sized, Bool.and_eq_true] at hz
    have hr := SVariants.elab_valid native c sc id did ha rest rest' hz.2 h2
    have hf : fs'.valid native = true ∧ (a.kind.isPat = true → id.size ≠ none ∧ fs'.stores = true) := by
      by_cases hk : a.kind.isPat = true
      · rw [if_pos hk] at h1
        obtain ⟨g1, g2⟩ := SFields.elabStored_valid native c sc _ fs fs' hz.1.2 h1
        exact ⟨g1, fun _ => g2⟩
      · rw [if_neg hk] at h1
        exact ⟨SFields.elab_valid native c sc fs fs' hz.1.2 h1, fun h => absurd h hk⟩
    rw [DVariants.valid, ha _ _ hz.1.1 hf.2, hf.1, hr]
    rfl

end

/-! ### plain sources -/

theorem ctx_plain_msb (l : List CtxArg) (h : l.all (·.noOrder) = true) : l.all (·.msb) = true := by
  rw [List.all_eq_true] at h ⊢
  intro x hx
  have := h x hx
  cases x <;> first | rfl | cases this

theorem Container.plain_msb (c : Container) (h : c.plain = true) : c.msb = true := by
  simp only [Container.plain, Bool.and_eq_true, Option.isNone_iff_eq_none] at h
  rw [Container.msb, h.1, ctx_plain_msb _ h.2]
  rfl

theorem SAttrs.plain_msb (s : Style) (a : SAttrs) (h : a.plain s = true) : a.msb = true := by
  simp only [SAttrs.plain, Bool.and_eq_true, Option.isNone_iff_eq_none] at h
  rw [SAttrs.msb, h.1.1.1, ctx_plain_msb _ h.1.1.2]
  rfl

mutual

theorem STy.plain_msb (s : Style) : ∀ t : STy, t.plain s = true → t.msb = true ∧ t.idsNamed = true
  | .base b, _ => ⟨by rw [STy.msb], by rw [STy.idsNamed]⟩
  | .option t, h => by
    rw [STy.plain] at h; rw [STy.msb, STy.idsNamed]; exact STy.plain_msb s t h
  | .array n t, h => by
    rw [STy.plain] at h; rw [STy.msb, STy.idsNamed]; exact STy.plain_msb s t h
  | .vec z t, h => by
    rw [STy.plain] at h; rw [STy.msb, STy.idsNamed]; exact STy.plain_msb s t h
  | .pair a b, h => by
    rw [STy.plain, Bool.and_eq_true] at h
    obtain ⟨h1, h2⟩ := STy.plain_msb s a h.1
    obtain ⟨h3, h4⟩ := STy.plain_msb s b h.2
    rw [STy.msb, STy.idsNamed, h1, h2, h3, h4]; exact ⟨rfl, rfl⟩
  | .struct c fs, h => by
    rw [STy.plain, Bool.and_eq_true] at h
    obtain ⟨h1, h2⟩ := SFields.plain_msb s fs h.2
    rw [STy.msb, STy.idsNamed, c.plain_msb h.1, h1, h2]; exact ⟨rfl, rfl⟩
  | .enum c id vs, h => by
    simp only [STy.plain, Bool.and_eq_true] at h
    obtain ⟨⟨⟨hc, hi⟩, _⟩, hv⟩ := h
    obtain ⟨h1, h2⟩ := SVariants.plain_msb s vs hv
    have hn : id.named c vs.anyPat = true := by
      cases id with
      | ctx e => rfl
      | typed W e bits bytes => simp only [SId.plain, Bool.and_eq_true] at hi; exact hi.2
    rw [STy.msb, STy.idsNamed, c.plain_msb hc, h1, h2, hn]; exact ⟨rfl, rfl⟩

theorem SFields.plain_msb (s : Style) : ∀ fs : SFields, fs.plain s = true → fs.msb = true ∧ fs.idsNamed = true
  | .nil, _ => ⟨by rw [SFields.msb], by rw [SFields.idsNamed]⟩
  | .cons a t rest, h => by
    simp only [SFields.plain, Bool.and_eq_true] at h
    obtain ⟨h1, h2⟩ := STy.plain_msb s t h.1.2
    obtain ⟨h3, h4⟩ := SFields.plain_msb s rest h.2
    rw [SFields.msb, SFields.idsNamed, a.plain_msb s h.1.1.1, h1, h2, h3, h4]; exact ⟨rfl, rfl⟩

theorem SVariants.plain_msb (s : Style) : ∀ vs : SVariants, vs.plain s = true → vs.msb = true ∧ vs.idsNamed = true
  | .nil, _ => ⟨by rw [SVariants.msb], by rw [SVariants.idsNamed]⟩
  | .cons a fs rest, h => by
    simp only [SVariants.plain, Bool.and_eq_true] at h
    obtain ⟨h1, h2⟩ := SFields.plain_msb s fs h.1
    obtain ⟨h3, h4⟩ := SVariants.plain_msb s rest h.2
    rw [SVariants.msb, SVariants.idsNamed, h1, h2, h3, h4]; exact ⟨rfl, rfl⟩

end

/-! ### sources without `bit_order = "lsb"` -/

theorem intOrdered_msb (native : Endian) (args : List Arg) (W : Nat) (h : args.all (·.msb) = true) :
    intOrdered .msb0 native args W = true := by
  simp [intOrdered, orderOf_msb args h]

theorem Base.ordered_msb (native : Endian) (args : List Arg) (b : Base) (h : args.all (·.msb) = true) :
    b.ordered .msb0 native args = true := by
  cases b <;> simp only [Base.ordered, intOrdered_msb native args _ h]

theorem SId.ordered_msb (native : Endian) (c : Container) (env : List Arg) (id : SId) (hc : c.msb = true)
    (h : env.all (·.msb) = true) : id.ordered .msb0 native c env = true := by
  cases id with
  | ctx e => rfl
  | typed W e bits bytes => exact intOrdered_msb native _ W (SId.passes_msb c env _ hc h)

theorem SAttrs.ordered_msb (c : Container) (env : List Arg) (a : SAttrs) (hc : c.msb = true) (ha : a.msb = true)
    (h : env.all (·.msb) = true) : a.ordered .msb0 c env = true := by
  simp only [SAttrs.ordered, Bool.or_eq_true, decide_eq_true_eq]
  right
  rw [show (fun x : Given Order => x.means Arg.order? env) = fun x => x.order env from funext (Given.means_order env)]
  cases ho : (a.order.or c.order).bind fun x => x.order env with
  | none => rfl
  | some x =>
    simp only [SAttrs.msb, Bool.and_eq_true] at ha
    simp only [Container.msb, Bool.and_eq_true] at hc
    exact orderArg_msb env h _ _ ha.1 hc.1 x ho

mutual

theorem STy.ordered_msb (native : Endian) : ∀ (t : STy) (args : List Arg), t.msb = true → args.all (·.msb) = true →
    t.ordered .msb0 native args = true
  | .base b, args, _, ha => by rw [STy.ordered]; exact b.ordered_msb native args ha
  | .option t, args, h, ha => by rw [STy.msb] at h; rw [STy.ordered]; exact STy.ordered_msb native t args h ha
  | .array n t, args, h, ha => by rw [STy.msb] at h; rw [STy.ordered]; exact STy.ordered_msb native t args h ha
  | .vec z t, args, h, ha => by rw [STy.msb] at h; rw [STy.ordered]; exact STy.ordered_msb native t args h ha
  | .pair a b, args, h, ha => by
    rw [STy.msb, Bool.and_eq_true] at h
    rw [STy.ordered, STy.ordered_msb native a args h.1 ha, STy.ordered_msb native b args h.2 ha]; rfl
  | .struct c fs, args, h, ha => by
    rw [STy.msb, Bool.and_eq_true] at h
    rw [STy.ordered]
    exact SFields.ordered_msb native c h.1 fs _ h.2 (c.scope_msb args h.1 ha)
  | .enum c id vs, args, h, ha => by
    rw [STy.msb, Bool.and_eq_true] at h
    rw [STy.ordered, id.ordered_msb native c _ h.1 (c.scope_msb args h.1 ha),
      SVariants.ordered_msb native c h.1 vs _ h.2 (c.scope_msb args h.1 ha)]; rfl

theorem SFields.ordered_msb (native : Endian) (c : Container) (hc : c.msb = true) : ∀ (fs : SFields) (env : List Arg),
    fs.msb = true → env.all (·.msb) = true → fs.ordered .msb0 native c env = true
  | .nil, _, _, _ => by rw [SFields.ordered]
  | .cons a t rest, env, h, he => by
    simp only [SFields.msb, Bool.and_eq_true] at h
    rw [SFields.ordered, a.ordered_msb c env hc h.1.1 he,
      STy.ordered_msb native t _ h.1.2 (a.passes_msb c env hc h.1.1 he), SFields.ordered_msb native c hc rest env h.2 he]
    rfl

theorem SVariants.ordered_msb (native : Endian) (c : Container) (hc : c.msb = true) :
    ∀ (vs : SVariants) (env : List Arg), vs.msb = true → env.all (·.msb) = true →
      vs.ordered .msb0 native c env = true
  | .nil, _, _, _ => by rw [SVariants.ordered]
  | .cons a fs rest, env, h, he => by
    rw [SVariants.msb, Bool.and_eq_true] at h
    rw [SVariants.ordered, SFields.ordered_msb native c hc fs env h.1 he,
      SVariants.ordered_msb native c hc rest env h.2 he]; rfl

end

/-- `to_bytes` of what emits these bits. -/
theorem Emits.toBytes {o : Order} {g : M Writer Unit} {l : List Piece} (h : Emits o g l)
    (hl : o = .lsb0 → onBytes 0 l = true) {out : List Byte} (ho : Deku.toBytes g = .ok out) : Packed o out (flat l) := by
  obtain ⟨w, hw⟩ := toBytes_accepted ho
  obtain ⟨s, r⟩ := h 0 _ _ (Writer.new_at o) hl hw
  obtain ⟨out', e, h'⟩ := toBytes_of_wrote hw s r
  rw [ho] at e
  cases e
  exact h'

theorem STy.even_onBytes {o : Order} {native : Endian} {t : STy} {env : Env} {v : Val} (h : t.even o native env v = true)
    (ho : o = .lsb0) : onBytes 0 (t.wire o native [] env v) = true := by
  subst ho
  simpa [STy.even] using h

/-- `from_bytes` on any data that starts with the bits read. -/
theorem Reads.parses {α : Type} {o : Order} {f : M Reader α} {bits rest : List Bool} {a : α} {data : List Byte}
    (h : Reads o 0 f bits a) (hd : orderBits o data = bits ++ rest) :
    Deku.fromBytes f data 0 = .ok ((data.drop (bits.length / 8), bits.length % 8), a) := by
  have hlen := congrArg List.length hd
  rw [Reader.length_orderBits, List.length_append] at hlen
  obtain ⟨r', e, hb, _⟩ := h.fromBytes hd
  have e' : readFrom f 0 (Reader.new { data := data }) = (.ok a, r') := by
    simp only [readFrom]; exact e
  unfold Deku.fromBytes
  rw [e']
  simp only [hb]
  rw [if_pos (by omega)]

end Deku
