import Verif.Spec.Consistent
import Verif.Lemmas.Wire
import Verif.Lemmas.CoreFits

/-! # Consistent values are written as described and parsed from it -/

namespace Deku

open Prim

variable {o : Order}

theorem settled_append : ∀ (x y : List Piece) (p : Nat),
    settled o p (x ++ y) = (settled o p x && settled o (p + (flat x).length) y)
  | [], y, p => by simp [settled, flat]
  | a :: x, y, p => by
    rw [List.cons_append, settled, settled, settled_append x y]
    simp only [flat, List.flatMap_cons, List.length_append, Bool.and_assoc, Nat.add_assoc]

theorem settled_one {x : Piece} {p : Nat} (h : settled o p [x] = true) :
    (o = .lsb0 → x.whole = true → p % 8 = 0) ∧ (x.strict = true → p % 8 = 0) := by
  simp only [settled, Bool.and_true, Bool.or_eq_true, Bool.not_eq_true', Bool.or_eq_false_iff, Bool.and_eq_false_iff,
    decide_eq_false_iff_not, decide_eq_true_eq] at h
  refine ⟨fun ho hw => ?_, fun hs => ?_⟩
  · rcases h with ⟨h | h, _⟩ | h
    · exact absurd ho h
    · rw [hw] at h; cases h
    · exact h
  · rcases h with ⟨_, h⟩ | h
    · rw [hs] at h; cases h
    · exact h

theorem settled_even : ∀ (l : List Piece) (p : Nat), settled o p l = true → o = .lsb0 → onBytes p l = true
  | [], _, _, _ => rfl
  | x :: l, p, h, ho => by
    have h' : settled o p ([x] ++ l) = true := h
    rw [settled_append, Bool.and_eq_true, flat_one] at h'
    have := (settled_one h'.1).1 ho
    simp only [onBytes, settled_even l _ h'.2 ho, Bool.and_true, Bool.or_eq_true, Bool.not_eq_true', decide_eq_true_eq]
    cases hx : x.whole with
    | false => exact .inl rfl
    | true => exact .inr (this hx)

/-- Where the pieces can begin, they are what is written, and the value is what is read from them. -/
def Carries {α : Type} (o : Order) (f : M Reader α) (g : M Writer Unit) (l : List Piece) (v : α) : Prop :=
  ∀ p, settled o p l = true → Writes o p g (flat l) ∧ Reads o p f (flat l) v

namespace Carries

variable {α β : Type}

theorem pure (v : α) : Carries o (Pure.pure v) (Pure.pure ()) [] v := fun p _ => ⟨Writes.pure o p, Reads.pure o p v⟩

theorem of {f : M Reader α} {g : M Writer Unit} {x : Piece} {v : α}
    (h : ∀ p, (o = .lsb0 → x.whole = true → p % 8 = 0) → (x.strict = true → p % 8 = 0) →
      Writes o p g x.bits ∧ Reads o p f x.bits v) : Carries o f g [x] v := by
  intro p hp
  rw [flat_one]
  exact h p (settled_one hp).1 (settled_one hp).2

theorem bind {f : M Reader α} {f' : α → M Reader β} {g g' : M Writer Unit} {l l' : List Piece} {v : α} {v' : β}
    (h : Carries o f g l v) (h' : Carries o (f' v) g' l' v') :
    Carries o (f >>= f') (g >>= fun _ => g') (l ++ l') v' := by
  intro p hp
  rw [settled_append, Bool.and_eq_true] at hp
  obtain ⟨h1, h2⟩ := h p hp.1
  obtain ⟨h3, h4⟩ := h' _ hp.2
  rw [flat_append]
  exact ⟨h1.bind h3, h2.bind h4⟩

theorem map {f : M Reader α} {g : M Writer Unit} {l : List Piece} {v : α} (h : Carries o f g l v) (k : α → β) :
    Carries o (f >>= fun a => Pure.pure (k a)) g l (k v) := fun p hp => ⟨(h p hp).1, (h p hp).2.map k⟩

theorem strict {f : M Reader α} {g : M Writer Unit} {l : List Piece} {v : α}
    (h : ∀ p, p % 8 = 0 → settled o p l = true → Writes o p g (flat l) ∧ Reads o p f (flat l) v) :
    Carries o f g ([⟨false, true, []⟩] ++ l) v := by
  intro p hp
  rw [settled_append, Bool.and_eq_true] at hp
  rw [flat_append]
  have := (settled_one hp.1).2 rfl
  exact h p this (by simpa [flat] using hp.2)

theorem magic (native : Endian) (bs : List Byte) :
    Carries o (magicRead native bs) (magicWrite native bs) [bytesPiece o bs] () := by
  cases bs with
  | nil =>
    refine Carries.of fun p _ _ => ?_
    rw [show (bytesPiece o []).bits = [] by cases o <;> rfl]
    exact ⟨Writes.pure o p, Reads.pure o p ()⟩
  | cons b bs =>
    exact Carries.of fun p hp _ =>
      ⟨magicWrite_writes native (b :: bs) fun ho => hp ho rfl, magicRead_reads native (b :: bs) fun ho => hp ho rfl⟩

theorem pad (order : Option Order) (n : Option Nat) (ho : n.isNone = true ∨ order.getD .msb0 = o) (hn : n.getD 0 < 2 ^ 64)
    (env env' : Env) :
    Carries o (padRead order (n.map fun (n : Nat) (_ : Env) => (n : Int)) env)
      (padWrite order (n.map fun (n : Nat) (_ : Env) => (n : Int)) env')
      [zerosPiece (n.getD 0)] () := by
  refine Carries.of fun p _ _ => ?_
  cases n with
  | none => exact ⟨Writes.pure o p, Reads.pure o p ()⟩
  | some n =>
    simp only [Option.isNone_some, Bool.false_eq_true, false_or] at ho
    simp only [Option.getD_some] at hn
    have hsz : ∀ {τ : Type} (s : τ), padSize (n : Int) s = (.ok n, s) := by
      intro τ s
      unfold padSize
      rw [if_pos ⟨by omega, by exact_mod_cast hn⟩]
      rfl
    constructor
    · intro w hw
      simp only [padWrite, Option.map_some]
      rw [M.bind_ok (hsz w), ho]
      exact padLoop_writes (Nat.le_refl _) p w hw
    · intro r rest hr hu
      simp only [padRead, Option.map_some]
      rw [M.bind_ok (hsz r), ho]
      obtain ⟨r', e, st⟩ := skipBits_reads (o := o) p (List.replicate n false) r rest hr hu
      rw [List.length_replicate] at e
      exact ⟨r', e, st⟩

theorem pieces {f : M Reader α} {g : α → M Writer Unit} {x : α → List Piece} :
    ∀ {vs : List α} {p : Nat}, (∀ v ∈ vs, Carries o f (g v) (x v) v) → settled o p (vs.flatMap x) = true →
      Pieces o f (fun _ => True) g p (vs.map fun v => flat (x v)) vs
  | [], _, _, _ => trivial
  | v :: vs, p, h, hp => by
    rw [List.flatMap_cons, settled_append, Bool.and_eq_true] at hp
    obtain ⟨h1, h2⟩ := h v List.mem_cons_self p hp.1
    exact ⟨trivial, h2, h1, pieces (fun v hv => h v (List.mem_cons_of_mem _ hv)) hp.2⟩

end Carries

theorem flat_flatMap {α : Type} (x : α → List Piece) (vs : List α) :
    flat (vs.flatMap x) = (vs.map fun v => flat (x v)).flatten := by
  induction vs with
  | nil => rfl
  | cons v vs ih => rw [List.flatMap_cons, flat_append, ih]; rfl

/-! ### leaves -/

theorem SoundOn.reads {α : Type} {p : Nat} {P Q : Nat → Prop} {f : M Reader α} {g : M Writer Unit} {bits : List Bool}
    {v : α} (h : SoundOn o P f g v Q) (hp : P p) (hw : Writes o p g bits) : Reads o p f bits v := by
  obtain ⟨w, hat⟩ := Writer.exists_at o p
  obtain ⟨w', e, _⟩ := hw w hat
  obtain ⟨x, hW, hR, _⟩ := h p w w' hp hat e
  rwa [hw.unique hW]

theorem leaf_reads {m : Machine} {l : Leaf} {v : Val} {p : Nat} {bits : List Bool} (hv : l.valid m.native = true)
    (hg : l.good m v = true) (hc : (l.check m.native o (some (p % 8))).isSome = true)
    (hw : Writes o p ((l.codec m).write v) bits) : Reads o p (l.codec m).read bits v := by
  obtain ⟨b, hb⟩ := Option.isSome_iff_exists.1 hc
  have : ∀ q, q = p → Align.holds (some (p % 8)) q := by rintro _ rfl k hk; cases hk; rfl
  exact (Leaf.sound (P := (· = p)) (Q := fun _ => True) hv hg hb this fun _ _ => trivial).reads rfl hw

/-! ### integers -/

theorem intFits_of {native : Endian} {args : List Arg} {ctx : IntCtx} {W p : Nat} (hi : intArgs args = some ctx)
    (hs : intSized args W = true) (hm : intOrdered o native args W = true) (ho : orderOf args = o)
    (hp : o = .lsb0 → bitSized args = false → p % 8 = 0) :
    intFits o W ctx.isBits (ctx.shape native W) (some (p % 8)) = true ∧
    intFits o W ctx.isBits (ctx.sshape native W) (some (p % 8)) = true := by
  obtain ⟨h1, h2⟩ := intArgs_shape native args ctx W hi hs
  rw [h1, h2, and_self, intFits_iff, intArgs_bits hi]
  refine ⟨ho, ?_⟩
  split
  · exact (intOrdered_sound hm ‹_›).2
  · intro h; rw [hp h (by simpa using ‹¬bitSized args = true›)]

theorem int_carries {α : Type} {native : Endian} {args : List Arg} {ctx : IntCtx} {W : Nat} {n : Int}
    {f : M Reader α} {g : M Writer Unit} {v : α} (hi : intArgs args = some ctx) (hm : intOrdered o native args W = true)
    (hw : ∀ o' p, intOrdered o' native args W = true → (o' = .lsb0 → bitSized args = false → p % 8 = 0) →
      Writes o' p g (intPiece o' native args W n).bits)
    (hr : ∀ o' p, intOrdered o' native args W = true → (o' = .lsb0 → bitSized args = false → p % 8 = 0) →
      orderOf args = o' → Reads o' p f (intPiece o' native args W n).bits v) :
    Carries o f g [intPiece o native args W n] v := by
  refine Carries.of fun p h1 h2 => ?_
  have hp : o = .lsb0 → bitSized args = false → p % 8 = 0 := fun ho hb => h1 ho (by simp [intPiece, hb])
  refine ⟨hw o p hm hp, ?_⟩
  by_cases ho : orderOf args = o
  · exact hr o p hm hp ho
  · have hb : bitSized args = false := by
      cases hb : bitSized args with
      | false => rfl
      | true => exact absurd (intOrdered_sound hm hb).1 ho
    have h0 : p % 8 = 0 := h2 (by simp [intPiece, hb, ho])
    have := hr (orderOf args) p (by simp [intOrdered, hb]) (fun _ _ => h0) rfl
    have hk := intArgs_whole hi hb W
    obtain ⟨k, hk⟩ : ∃ k, (sizeOf? args).getD (8 * W) = 8 * k := ⟨(sizeOf? args).getD (8 * W) / 8, by omega⟩
    simp only [intPiece, hk, ← orderBits_endianBytes] at this ⊢
    exact this.switch h0

theorem emod_nat (n k : Nat) : ((n : Int) % 2 ^ k).toNat = n % 2 ^ k := by
  rw [show (2 : Int) ^ k = ((2 ^ k : Nat) : Int) by simp, ← Int.natCast_emod, Int.toNat_natCast]

theorem uint_writes {native : Endian} {args : List Arg} {ctx : IntCtx} {W n p : Nat} (hi : intArgs args = some ctx)
    (hs : intSized args W = true) (hm : intOrdered o native args W = true)
    (hp : o = .lsb0 → bitSized args = false → p % 8 = 0) (hn : n < 2 ^ (sizeOf? args).getD (8 * W)) :
    Writes o p (writeUnsigned native W ctx n) (intPiece o native args W n).bits := by
  obtain ⟨h1, -⟩ := intArgs_shape native args ctx W hi hs
  simp only [intSized, decide_eq_true_eq] at hs
  have := writeUnsigned_low (v := n) (o := o) (p := p) h1 hs.2.1 hs.2.2
    (fun hb => ⟨hn, intOrdered_sound hm (intArgs_bits hi ▸ hb)⟩) (fun ho hb => hp ho (intArgs_bits hi ▸ hb))
  unfold intPiece
  dsimp only
  rwa [emod_nat, Nat.mod_eq_of_lt hn]

theorem sint_writes {native : Endian} {args : List Arg} {ctx : IntCtx} {W p : Nat} {n : Int}
    (hi : intArgs args = some ctx) (hs : intSized args W = true) (hm : intOrdered o native args W = true)
    (hp : o = .lsb0 → bitSized args = false → p % 8 = 0) (hr : InRange (8 * W) n)
    (ha : ctx.Accepts W ((sizeOf? args).getD (8 * W)) n) :
    Writes o p (writeSigned native W ctx n) (intPiece o native args W n).bits := by
  obtain ⟨h0, h1⟩ := intArgs_shape native args ctx W hi hs
  have hd := intOrdered_dense hi hm
  simp only [intSized, decide_eq_true_eq] at hs
  have := writeSigned_low (o := o) (p := p) h1 h0 hs.2.1 hs.2.2 hr ha
    (fun hb => intOrdered_sound hm (intArgs_bits hi ▸ hb)) (fun ho hb => hp ho (intArgs_bits hi ▸ hb))
  unfold intPiece
  dsimp only
  rwa [← pattern_emod hs.2.2, fieldBits_mod hd]

theorem intArgs_noOrder {args : List Arg} {ctx : IntCtx} (h : intArgs args = some ctx) :
    ctx.noOrder = !orderGiven args := by
  unfold intArgs at h
  split at h <;> simp only [Option.some.injEq, reduceCtorEq] at h <;> subst h <;> rfl

theorem intArgs_extends {args : List Arg} {ctx : IntCtx} (h : intArgs args = some ctx) (W : Nat) :
    ctx.extends = (bitSized args && (endianGiven args || decide ((sizeOf? args).getD (8 * W) % 8 ≠ 0))) := by
  unfold intArgs at h
  split at h <;> simp only [Option.some.injEq, reduceCtorEq] at h <;> subst h <;>
    simp [IntCtx.extends, bitSized, endianGiven, sizeOf?] <;> rfl

/-- What is asked of a signed integer. -/
theorem signedFits_good {args : List Arg} {ctx : IntCtx} {W : Nat} {n : Int} (hi : intArgs args = some ctx)
    (hs : intSized args W = true) (hh : InRange (8 * W) n) (h : signedFits args W n = true) :
    ctx.Accepts W ((sizeOf? args).getD (8 * W)) n ∧ ctx.Returns W ((sizeOf? args).getD (8 * W)) n := by
  simp only [intSized, decide_eq_true_eq] at hs
  simp only [signedFits, signKept, Bool.and_eq_true, Bool.or_eq_true, decide_eq_true_eq, Bool.not_eq_true'] at h
  unfold IntCtx.Accepts IntCtx.Returns
  rw [intArgs_noOrder hi, intArgs_extends hi W, intArgs_bits hi]
  obtain ⟨hr, hsg⟩ := h
  have hr' : InRange ((sizeOf? args).getD (8 * W)) n := by
    unfold InRange; rw [Int.natCast_pow]; exact hr
  have hsmall : (0 ≤ n ∨ (sizeOf? args).getD (8 * W) = 8 * W) → pattern W n < 2 ^ (sizeOf? args).getD (8 * W) := by
    rintro (h0 | h0)
    · have h1 := hr'.2
      have h2 := hh.2
      have e1 : (256 : Nat) ^ W = 2 ^ (8 * W) := by rw [Nat.pow_mul]
      have e2 : 2 ^ (8 * W) = 2 * 2 ^ (8 * W - 1) := by
        rw [← Nat.pow_succ']; congr 1; omega
      have e3 : 2 ^ (sizeOf? args).getD (8 * W) = 2 * 2 ^ ((sizeOf? args).getD (8 * W) - 1) := by
        rw [← Nat.pow_succ']; congr 1; omega
      have hp := pattern_nonneg (W := W) h0 (by rw [e1, e2]; omega)
      rw [e3]
      omega
    · rw [h0, show 2 ^ (8 * W) = 256 ^ W by rw [Nat.pow_mul]]
      exact pattern_lt W n
  constructor
  · intro hb
    cases ho : orderGiven args with
    | false => simpa using hr'
    | true =>
      simp only [Bool.not_true, Bool.false_eq_true, if_false]
      refine hsmall (hsg.imp id fun h => ?_)
      rcases h with h | h
      · exact h
      · rw [ho] at h; cases h.1.2
  · split
    · exact hr'
    · rename_i hne
      refine hsmall (hsg.imp id fun h => ?_)
      rcases h with h | h
      · exact h
      · exact absurd (by simp only [Bool.and_eq_true, Bool.or_eq_true, decide_eq_true_eq]; exact ⟨h.1.1, h.2⟩) hne

theorem lt_width (n W : Nat) : (n : Int) < 256 ^ W ↔ n < 256 ^ W := by
  rw [show ((256 : Int) ^ W) = ((256 ^ W : Nat) : Int) by rw [Int.natCast_pow]; rfl]
  exact Int.ofNat_lt

theorem uintCodec_carries {native : Endian} {args : List Arg} {ctx : IntCtx} {W n p : Nat} (hi : intArgs args = some ctx)
    (hs : intSized args W = true) (hm : intOrdered o native args W = true)
    (hp : o = .lsb0 → bitSized args = false → p % 8 = 0) (hn : n < 2 ^ (sizeOf? args).getD (8 * W)) (hh : n < 256 ^ W) :
    Writes o p ((uintCodec native W ctx).write (.num n)) (intPiece o native args W n).bits := by
  simp only [uintCodec]
  rw [if_pos ⟨by omega, (lt_width n W).2 hh⟩, Int.toNat_natCast]
  exact uint_writes hi hs hm hp hn

theorem sintCodec_carries {native : Endian} {args : List Arg} {ctx : IntCtx} {W p : Nat} {n : Int}
    (hi : intArgs args = some ctx) (hs : intSized args W = true) (hm : intOrdered o native args W = true)
    (hp : o = .lsb0 → bitSized args = false → p % 8 = 0) (hh : -(256 ^ W) ≤ 2 * n ∧ 2 * n < 256 ^ W)
    (hn : signedFits args W n = true) :
    Writes o p ((sintCodec native W ctx).write (.num n)) (intPiece o native args W n).bits := by
  simp only [sintCodec]
  rw [if_pos hh]
  have hr := (inRange_width (of_decide_eq_true hs).1 n).1 hh
  exact sint_writes hi hs hm hp hr (signedFits_good hi hs hr hn).1

theorem uint_good {m : Machine} {args : List Arg} {ctx : IntCtx} {W : Nat} {n : Int} (hi : intArgs args = some ctx)
    (hs : intSized args W = true) (hn : n < 2 ^ (sizeOf? args).getD (8 * W)) :
    (Leaf.uint W ctx).good m (.num n) = true := by
  simp only [Leaf.good, (intArgs_shape m.native args ctx W hi hs).1, Bool.or_eq_true, decide_eq_true_eq]
  exact .inr hn

theorem sint_good {m : Machine} {args : List Arg} {ctx : IntCtx} {W : Nat} {n : Int} (hi : intArgs args = some ctx)
    (hs : intSized args W = true) (hh : -(256 ^ W) ≤ 2 * n ∧ 2 * n < 256 ^ W) (hn : signedFits args W n = true) :
    (Leaf.sint W ctx).good m (.num n) = true := by
  simp only [Leaf.good, (intArgs_shape m.native args ctx W hi hs).2]
  have := (signedFits_good hi hs ((inRange_width (of_decide_eq_true hs).1 n).1 hh) hn).2
  unfold IntCtx.Returns InRange at this
  split at this
  · rw [if_pos ‹_›]
    rw [Int.natCast_pow] at this
    exact decide_eq_true this
  · rw [if_neg ‹_›]
    exact decide_eq_true this

theorem leaf_carries (m : Machine) (args : List Arg) (b : Base) (l : Leaf) (h : b.leaf args = some l)
    (hs : b.sized args = true) (hm : b.ordered o m.native args = true) (v : Val) (hf : b.fits m.mem args v = true) :
    Carries o (l.codec m).read ((l.codec m).write v) (b.wire o m.native args v) v := by
  have hv := Base.leaf_valid m.native args b l h hs
  unfold Base.fits at hf
  rw [Bool.and_eq_true] at hf
  obtain ⟨hh, hf⟩ := hf
  cases b with
  | uint W =>
    simp only [Base.leaf, Option.map_eq_some_iff] at h
    obtain ⟨ctx, h, rfl⟩ := h
    cases v with
    | num n =>
      have hh := of_decide_eq_true hh
      have hf := of_decide_eq_true hf
      obtain ⟨n, rfl⟩ := Int.eq_ofNat_of_zero_le hh.1
      have hw := fun o' p hm hp => uintCodec_carries (o := o') (p := p) (n := n) (native := m.native) h hs hm hp
        (by exact_mod_cast hf.2) ((lt_width _ _).1 hh.2)
      exact int_carries h hm hw fun o' p hm hp ho => leaf_reads hv (uint_good h hs hf.2)
        (by simp only [Leaf.check]; rw [if_pos (intFits_of h hs hm ho hp).1]; rfl) (hw o' p hm hp)
    | _ => cases hh
  | nonzero W =>
    simp only [Base.leaf, Option.map_eq_some_iff] at h
    obtain ⟨ctx, h, rfl⟩ := h
    have h := nonzeroArgs_int _ _ h
    cases v with
    | num n =>
      have hh := of_decide_eq_true hh
      have hf := of_decide_eq_true hf
      obtain ⟨n, rfl⟩ := Int.eq_ofNat_of_zero_le hf.1
      have hw : ∀ o' p, intOrdered o' m.native args W = true → (o' = .lsb0 → bitSized args = false → p % 8 = 0) →
          Writes o' p ((nonzeroCodec m.native W ctx).write (.num n)) (intPiece o' m.native args W n).bits := by
        intro o' p hm hp
        simp only [nonzeroCodec]
        rw [if_neg (by simp only [Val.num.injEq]; omega)]
        exact uintCodec_carries h hs hm hp (by exact_mod_cast hf.2) ((lt_width _ _).1 hh.2)
      exact int_carries h hm hw fun o' p hm hp ho => leaf_reads hv (uint_good h hs hf.2)
        (by simp only [Leaf.check]; rw [if_pos (intFits_of h hs hm ho hp).1]; rfl) (hw o' p hm hp)
    | _ => cases hh
  | sint W =>
    simp only [Base.leaf, Option.map_eq_some_iff] at h
    obtain ⟨ctx, h, rfl⟩ := h
    cases v with
    | num n =>
      have hh := of_decide_eq_true hh
      have hw := fun o' p hm hp => sintCodec_carries (o := o') (p := p) (n := n) (native := m.native) h hs hm hp hh hf
      exact int_carries h hm hw fun o' p hm hp ho => leaf_reads hv (sint_good h hs hh hf)
        (by simp only [Leaf.check]; rw [if_pos (intFits_of h hs hm ho hp).2]; rfl) (hw o' p hm hp)
    | _ => cases hh
  | nonzeroSigned W =>
    simp only [Base.leaf, Option.map_eq_some_iff] at h
    obtain ⟨ctx, h, rfl⟩ := h
    have h := nonzeroArgs_int _ _ h
    cases v with
    | num n =>
      have hh := of_decide_eq_true hh
      have hw : ∀ o' p, intOrdered o' m.native args W = true → (o' = .lsb0 → bitSized args = false → p % 8 = 0) →
          Writes o' p ((nonzeroSignedCodec m.native W ctx).write (.num n)) (intPiece o' m.native args W n).bits := by
        intro o' p hm hp
        simp only [nonzeroSignedCodec]
        rw [if_neg (by simp only [Val.num.injEq]; omega)]
        exact sintCodec_carries h hs hm hp hh.2 hf
      exact int_carries h hm hw fun o' p hm hp ho => leaf_reads hv (sint_good h hs hh.2 hf)
        (by simp only [Leaf.check]; rw [if_pos (intFits_of h hs hm ho hp).2]; rfl) (hw o' p hm hp)
    | _ => cases hh
  | bool =>
    simp only [Base.leaf, Option.map_eq_some_iff] at h
    obtain ⟨ctx, h, rfl⟩ := h
    cases v with
    | num n =>
      have hh := of_decide_eq_true hh
      have h2 : 2 ≤ 2 ^ (sizeOf? args).getD (8 * 1) :=
        Nat.pow_le_pow_right (n := 2) (by omega) (of_decide_eq_true hs).2.1
      have hw : ∀ o' p, intOrdered o' m.native args 1 = true → (o' = .lsb0 → bitSized args = false → p % 8 = 0) →
          Writes o' p ((boolCodec m.native ctx).write (.num n)) (intPiece o' m.native args 1 n).bits := by
        intro o' p hm hp
        simp only [boolCodec, Coll.boolWrite, if_true, Bool.false_eq_true, if_false]
        rcases hh with rfl | rfl
        · rw [if_neg (by decide), if_pos rfl]
          exact uint_writes (n := 0) h hs hm hp (by omega)
        · rw [if_pos rfl]
          exact uint_writes (n := 1) h hs hm hp (by omega)
      exact int_carries h hm hw fun o' p hm hp ho => leaf_reads hv rfl
        (by simp only [Leaf.check]; rw [if_pos (intFits_of h hs hm ho hp).1]; rfl) (hw o' p hm hp)
    | _ => cases hh
  | cstring =>
    have hc : v.isCString = true := by
      have := Base.leaf_has args .cstring l h v
      rw [hh] at this
      simp only [Base.leaf] at h
      split at h <;> simp only [Option.some.injEq, reduceCtorEq] at h <;> subst h <;> exact this
    have hw : ∀ o' p, (o' = .lsb0 → p % 8 = 0) →
        Writes o' p ((l.codec m).write v) (orderBits o' (v.elems.map Val.toByte ++ [0])) := by
      intro o' p hp
      simp only [Base.leaf] at h
      split at h <;> simp only [Option.some.injEq, reduceCtorEq] at h <;> subst h <;>
        simp only [Leaf.codec, cstringCodec, cstringSizedCodec] <;> rw [if_pos hc] <;>
        exact byteList_writes m.native rfl _ hp
    have hg : l.good m v = true := by
      simp only [Base.leaf] at h
      split at h <;> simp only [Option.some.injEq, reduceCtorEq] at h <;> subst h <;>
        simp only [sizeOf?, Bool.and_eq_true, decide_eq_true_eq, List.findSome?_cons] at hf
      · exact decide_eq_true hf.1
      · exact decide_eq_true (by omega)
    have hr : ∀ p, Reads .msb0 p (l.codec m).read (orderBits .msb0 (v.elems.map Val.toByte ++ [0])) v := by
      intro p
      refine leaf_reads hv hg ?_ (hw .msb0 p nofun)
      simp only [Base.leaf] at h
      split at h <;> simp only [Option.some.injEq, reduceCtorEq] at h <;> subst h <;> rfl
    refine Carries.of fun p h1 _ => ?_
    have hp : o = .lsb0 → p % 8 = 0 := fun ho => h1 ho (by simp [bytesPiece])
    refine ⟨hw o p hp, ?_⟩
    cases o with
    | msb0 => exact hr p
    | lsb0 => exact (hr p).switch (hp rfl)
  | unit =>
    cases h
    have hh := of_decide_eq_true hh
    subst hh
    simp only [Leaf.codec, unitCodec, if_true]
    exact Carries.pure _

end Deku
