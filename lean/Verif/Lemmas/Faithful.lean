import Verif.Spec.Faithful
import Verif.Lemmas.Parse
import Verif.Lemmas.ConsistentTypes

/-! # What is parsed is described -/

namespace Deku

open Parser

variable {α β : Type} {o : Order} {N : Nat}

/-- Of up to `N` bits the parser takes these, and `R` is true of the number of bits before (up to whole bytes), of the
value and of them. -/
def Parser.Gives (N : Nat) (q : Parser α) (R : Nat → α → List Bool → Prop) : Prop :=
  ∀ k l a k' l' p, l.length ≤ N → (l.length + p) % 8 = 0 → q k l = .ok a k' l' → ∃ u, l = u ++ l' ∧ R p a u

theorem Parser.Gives.mono {q : Parser α} {R S : Nat → α → List Bool → Prop} (h : q.Gives N R)
    (hS : ∀ p a u, u.length ≤ N → R p a u → S p a u) : q.Gives N S := by
  intro k l a k' l' p hl hp e
  obtain ⟨u, h1, h2⟩ := h k l a k' l' p hl hp e
  exact ⟨u, h1, hS _ _ _ (by rw [h1, List.length_append] at hl; omega) h2⟩

theorem Parser.Gives.pure {R : Nat → α → List Bool → Prop} (a : α) (h : ∀ p, R p a []) : (Pure.pure a : Parser α).Gives N R := by
  intro k l b k' l' p _ _ e
  cases e
  exact ⟨[], rfl, h p⟩

theorem Parser.Gives.fail {w : Why} {R : Nat → α → List Bool → Prop} : (Parser.fail w : Parser α).Gives N R :=
  fun _ _ _ _ _ _ _ _ e => nomatch e

theorem Parser.Gives.unclear {R : Nat → α → List Bool → Prop} : (Parser.unclear : Parser α).Gives N R :=
  fun _ _ _ _ _ _ _ _ e => nomatch e

theorem Parser.bind_eq_ok {q : Parser α} {f : α → Parser β} {k : Bool} {l : List Bool} {b : β} {k' : Bool} {l' : List Bool}
    (h : (q >>= f) k l = .ok b k' l') : ∃ a k1 l1, q k l = .ok a k1 l1 ∧ f a k1 l1 = .ok b k' l' := by
  rw [Parser.bind_run] at h
  cases hq : q k l with
  | ok a k1 l1 => rw [hq] at h; exact ⟨a, k1, l1, rfl, h⟩
  | no => rw [hq] at h; cases h
  | unclear => rw [hq] at h; cases h

theorem Parser.Gives.bind {q : Parser α} {f : α → Parser β} {R : Nat → α → List Bool → Prop}
    {S : α → Nat → β → List Bool → Prop} (hq : q.Gives N R) (hf : ∀ a, (f a).Gives N (S a)) :
    (q >>= f).Gives N fun p b u => ∃ a u1 u2, u = u1 ++ u2 ∧ R p a u1 ∧ S a (p + u1.length) b u2 := by
  intro k l b k' l' p hl hp e
  obtain ⟨a, k1, l1, e1, e2⟩ := Parser.bind_eq_ok e
  obtain ⟨u1, h1, h2⟩ := hq k l a k1 l1 p hl hp e1
  subst h1
  rw [List.length_append] at hl hp
  obtain ⟨u2, h3, h4⟩ := hf a k1 l1 b k' l' (p + u1.length) (by omega) (by omega) e2
  subst h3
  exact ⟨u1 ++ u2, by rw [List.append_assoc], a, u1, u2, rfl, h2, h4⟩

/-- The value is made from what is read. -/
theorem Parser.Gives.map {q : Parser α} {g : α → β} {R : Nat → α → List Bool → Prop} {S : Nat → β → List Bool → Prop}
    (hq : q.Gives N R) (h : ∀ p a u, R p a u → S p (g a) u) : (q >>= fun a => Pure.pure (g a)).Gives N S := by
  refine (hq.bind (S := fun a _ b u => b = g a ∧ u = []) fun a => Gives.pure _ fun _ => ⟨rfl, rfl⟩).mono ?_
  rintro p b u _ ⟨a, u1, u2, rfl, h1, rfl, rfl⟩
  rw [List.append_nil]
  exact h p a u1 h1

theorem Parser.Gives.guard (w : Why) (b : Bool) : (Parser.guard w b).Gives N fun _ _ u => u = [] ∧ b = true := by
  cases b
  · exact Gives.fail
  · exact Gives.pure _ fun _ => ⟨rfl, rfl⟩

/-- What is read is as the guard says. -/
theorem Parser.Gives.guarded {q : Parser α} {w : Why} {b : Bool} {R : Nat → α → List Bool → Prop} (h : b = true → q.Gives N R) :
    (Parser.guard w b >>= fun _ => q).Gives N R := by
  cases b
  · intro k l a k' l' p _ _ e; cases e
  · exact h rfl

theorem Parser.Gives.provided {q : Parser α} {b : Bool → List Bool → Bool} {R : Nat → α → List Bool → Prop}
    (h : ∀ k l, b k l = true → ∀ a k' l' p, l.length ≤ N → (l.length + p) % 8 = 0 → q k l = .ok a k' l' →
      ∃ u, l = u ++ l' ∧ R p a u) : (Parser.provided b >>= fun _ => q).Gives N R := by
  intro k l a k' l' p hl hp e
  rw [Parser.bind_run, Parser.provided] at e
  by_cases hb : b k l = true
  · rw [if_pos hb] at e
    exact h k l hb a k' l' p hl hp e
  · rw [if_neg hb] at e; cases e

theorem Parser.Gives.inOrder {q : Parser α} {o' : Order} {whole : Bool} {R : Nat → α → List Bool → Prop} (h : q.Gives N R) :
    (Parser.inOrder o o' whole >>= fun _ => q).Gives N
      fun p a u => (o' = o ∨ whole = true ∧ p % 8 = 0) ∧ R p a u := by
  refine Gives.provided fun k l hb a k' l' p hl hp e => ?_
  obtain ⟨u, h1, h2⟩ := h k l a k' l' p hl hp e
  simp only [Bool.or_eq_true, decide_eq_true_eq, Bool.and_eq_true] at hb
  exact ⟨u, h1, hb.imp id fun h => ⟨h.1, by omega⟩, h2⟩

theorem Parser.Gives.take (n : Nat) : (Parser.take n).Gives N fun _ a u => u = a ∧ a.length = n := by
  intro k l a k' l' p _ _ e
  unfold Parser.take at e
  by_cases h : n ≤ l.length
  · rw [if_pos h] at e
    cases e
    exact ⟨l.take n, (List.take_append_drop n l).symm, rfl, by rw [List.length_take]; omega⟩
  · rw [if_neg h] at e; cases e

theorem Parser.Gives.drop (n : Nat) : (Parser.drop n).Gives N fun _ _ u => u.length = n := by
  intro k l a k' l' p _ _ e
  unfold Parser.drop at e
  by_cases h : n ≤ l.length
  · rw [if_pos h] at e
    cases e
    exact ⟨l.take n, (List.take_append_drop n l).symm, by dsimp only; rw [List.length_take]; omega⟩
  · rw [if_neg h] at e; cases e

theorem Parser.Gives.leftThen {q : Nat → Parser α} {R : Nat → α → List Bool → Prop} (h : ∀ n, (q n).Gives N R) :
    (Parser.left >>= q).Gives N R := fun k l a k' l' p hl hp e => h l.length k l a k' l' p hl hp e

theorem Parser.Gives.sized {q : Nat → Parser α} {w : Why} {n : Int} {R : Nat → α → List Bool → Prop}
    (h : 0 ≤ n → n < 2 ^ 64 → (q n.toNat).Gives N R) : (Parser.size w n >>= q).Gives N R := by
  unfold Parser.size
  rw [Parser.bind_assoc]
  simp only [Parser.pure_bind]
  exact Gives.guarded fun hb => h (of_decide_eq_true hb).1 (of_decide_eq_true hb).2

/-- One after the other. -/
def Elems (R : Nat → α → List Bool → Prop) : Nat → List α → List Bool → Prop
  | _, [], u => u = []
  | p, v :: vs, u => ∃ u1 u2, u = u1 ++ u2 ∧ R p v u1 ∧ Elems R (p + u1.length) vs u2

theorem Parser.Gives.times {q : Parser α} {R : Nat → α → List Bool → Prop} (h : q.Gives N R) :
    ∀ n, (q.times n).Gives N fun p vs u => vs.length = n ∧ Elems R p vs u
  | 0 => Gives.pure _ fun _ => ⟨rfl, rfl⟩
  | n + 1 => by
    refine (h.bind fun v => (Gives.times h n).map (S := fun p vs u => ∃ ws, vs = v :: ws ∧ ws.length = n ∧ Elems R p ws u)
      fun p ws u h => ⟨ws, rfl, h⟩).mono ?_
    rintro p vs u _ ⟨v, u1, u2, rfl, h1, ws, rfl, h2, h3⟩
    exact ⟨by rw [List.length_cons, h2], u1, u2, rfl, h1, h3⟩

theorem upTo_gives {q : Parser α} {R : Nat → α → List Bool → Prop} (h : q.Gives N R) (last : α → Nat → Bool) (start : Nat) :
    ∀ (n : Nat) (k : Bool) (l : List Bool) (vs : List α) (k' : Bool) (l' : List Bool) (p : Nat), l.length ≤ N →
      (l.length + p) % 8 = 0 → q.upTo last start n k l = .ok vs k' l' →
      ∃ u, l = u ++ l' ∧ Elems R p vs u ∧ vs.length ≤ n ∧
        ∃ ini x, vs = ini ++ [x] ∧ last x (start - l'.length) = true ∧ ∀ y ∈ ini, ∃ j, last y j = false
  | 0, _, _, _, _, _, _, _, _, e => by
    rw [Parser.upTo] at e
    obtain ⟨_, _, _, _, e2⟩ := Parser.bind_eq_ok e
    cases e2
  | n + 1, k, l, vs, k', l', p, hl, hp, e => by
    rw [Parser.upTo] at e
    obtain ⟨v, k1, l1, e1, e2⟩ := Parser.bind_eq_ok e
    obtain ⟨u1, h1, h2⟩ := h k l v k1 l1 p hl hp e1
    subst h1
    rw [List.length_append] at hl hp
    obtain ⟨j, k2, l2, e3, e4⟩ := Parser.bind_eq_ok e2
    cases e3
    by_cases hj : last v (start - l1.length) = true
    · rw [if_pos hj] at e4
      cases e4
      exact ⟨u1, rfl, ⟨u1, [], by simp, h2, rfl⟩, by simp, [], v, rfl, hj, nofun⟩
    · rw [if_neg hj] at e4
      obtain ⟨ws, k3, l3, e5, e6⟩ := Parser.bind_eq_ok e4
      cases e6
      obtain ⟨u2, h3, h4, h5, ini, x, h6, h7, h8⟩ := upTo_gives h last start n k1 l1 ws k' l' (p + u1.length) (by omega)
        (by omega) e5
      subst h3
      refine ⟨u1 ++ u2, by rw [List.append_assoc], ⟨u1, u2, rfl, h2, h4⟩, by rw [List.length_cons]; omega, v :: ini, x,
        by rw [h6]; rfl, h7, fun y hy => ?_⟩
      rcases List.mem_cons.1 hy with rfl | hy
      · exact ⟨_, Bool.not_eq_true _ ▸ hj⟩
      · exact h8 y hy

/-! ### the bits -/

/-- The pieces have as many bits as these, in bit order Msb0 at the right places; if there is no padding (`pf`) they are
these. -/
structure Spells (o : Order) (pf : Bool) (p : Nat) (w : List Piece) (u : List Bool) : Prop where
  len : (flat w).length = u.length
  bits : pf = true → flat w = u
  settled : o = .msb0 → settled o p w = true

theorem Spells.nil {pf : Bool} {p : Nat} : Spells o pf p [] [] := ⟨rfl, fun _ => rfl, fun _ => rfl⟩

theorem Spells.mono {pf pf' : Bool} {p : Nat} {w : List Piece} {u : List Bool} (h : Spells o pf p w u)
    (hp : pf' = true → pf = true) : Spells o pf' p w u := ⟨h.len, fun h' => h.bits (hp h'), h.settled⟩

theorem Spells.append {pf : Bool} {p : Nat} {x y : List Piece} {u v : List Bool} (hx : Spells o pf p x u)
    (hy : Spells o pf (p + u.length) y v) : Spells o pf p (x ++ y) (u ++ v) where
  len := by rw [flat_append, List.length_append, List.length_append, hx.len, hy.len]
  bits := fun h => by rw [flat_append, hx.bits h, hy.bits h]
  settled := fun h => by rw [settled_append, hx.settled h, hx.len, hy.settled h]; rfl

theorem Spells.bytes {pf : Bool} {p : Nat} (bs : List Byte) : Spells o pf p [bytesPiece o bs] (orderBits o bs) where
  len := by rw [flat_one]; rfl
  bits := fun _ => by rw [flat_one]; rfl
  settled := fun h => by subst h; rfl

theorem Spells.zeros {pf : Bool} {p n : Nat} {u : List Bool} (h : u.length = n) (hp : pf = true → n = 0) :
    Spells o pf p [zerosPiece n] u where
  len := by rw [flat_one, h]; exact List.length_replicate
  bits := fun h' => by
    have := hp h'
    subst this
    rw [flat_one, List.eq_nil_of_length_eq_zero h]; rfl
  settled := fun h => by subst h; rfl

theorem Spells.elems {pf : Bool} {w : α → List Piece} {C : α → Prop} :
    ∀ {vs : List α} {p : Nat} {u : List Bool}, Elems (fun p v u => C v ∧ Spells o pf p (w v) u) p vs u →
      (∀ v ∈ vs, C v) ∧ Spells o pf p (vs.flatMap w) u
  | [], _, _, h => by cases h; exact ⟨nofun, Spells.nil⟩
  | v :: vs, p, u, ⟨u1, u2, e, ⟨h1, h2⟩, h3⟩ => by
    obtain ⟨h4, h5⟩ := Spells.elems h3
    subst e
    refine ⟨fun x hx => ?_, by rw [List.flatMap_cons]; exact h2.append h5⟩
    rcases List.mem_cons.1 hx with rfl | hx
    · exact h1
    · exact h4 x hx

theorem Elems.mono {R S : Nat → α → List Bool → Prop} (h : ∀ p v u, R p v u → S p v u) :
    ∀ {vs : List α} {p : Nat} {u : List Bool}, Elems R p vs u → Elems S p vs u
  | [], _, _, e => e
  | _ :: _, _, _, ⟨u1, u2, e, h1, h2⟩ => ⟨u1, u2, e, h _ _ _ h1, Elems.mono h h2⟩

/-! ### bytes -/

theorem orderBits_byteOf {l : List Bool} (h : l.length = 8) : orderBits o [byteOf (present o l)] = l := by
  rw [← bytesOf_one o h]
  exact Prim.orderBits_bytesOf o l (by omega)

theorem octet_gives : (octet o).Gives N fun _ b u => u = orderBits o [b] :=
  (Gives.take 8).map fun _ l u ⟨h1, h2⟩ => by rw [h1, orderBits_byteOf h2]

theorem byte_gives : (byte o).Gives N fun _ b u => u = orderBits o [b] :=
  octet_gives.inOrder.mono fun _ _ _ _ h => h.2

theorem bytes_elems : ∀ {bs : List Byte} {p : Nat} {u : List Bool}, Elems (fun _ b u => u = orderBits o [b]) p bs u →
    u = orderBits o bs
  | [], _, _, h => by cases h; cases o <;> rfl
  | b :: bs, _, _, ⟨u1, u2, e, h1, h2⟩ => by
    rw [e, h1, bytes_elems h2, ← orderBits_append]; rfl

theorem magic_gives : ∀ magic : List Byte, (magicParse o magic).Gives N fun _ _ u => u = orderBits o magic
  | [] => Gives.pure _ fun _ => by cases o <;> rfl
  | b :: bs => by
    refine (byte_gives.bind fun x => Gives.guarded (R := fun _ _ u => x = b ∧ u = orderBits o bs) fun hb =>
      (magic_gives bs).mono fun _ _ _ _ h => ⟨of_decide_eq_true hb, h⟩).mono ?_
    rintro p _ u _ ⟨x, u1, u2, rfl, rfl, rfl, rfl⟩
    rw [← orderBits_append]; rfl

theorem skip_gives (o' : Order) (n : Nat) : (Parser.skip o o' n).Gives N fun _ _ u => u.length = n := by
  unfold Parser.skip
  refine (Gives.inOrder (R := fun _ _ u => u.length = n) ?_).mono fun _ _ _ _ h => h.2
  refine Gives.provided fun k l _ a k' l' p hl hp e => ?_
  exact Gives.drop n k l a k' l' p hl hp e

theorem pad_gives (order : Option Order) (bits bytes : Option Nat) : (padParse o order bits bytes).Gives N
    fun _ _ u => u.length = bits.getD 0 + 8 * bytes.getD 0 ∧ padSmall bits bytes = true := by
  unfold padParse
  by_cases h : (bits.isNone && bytes.isNone) = true
  · rw [if_pos h]
    simp only [Bool.and_eq_true, Option.isNone_iff_eq_none] at h
    obtain ⟨rfl, rfl⟩ := h
    exact Gives.pure _ fun _ => ⟨rfl, by decide⟩
  · rw [if_neg h]
    exact Gives.guarded fun hb => (skip_gives _ _).mono fun _ _ _ _ h => ⟨h, hb⟩

/-! ### integers -/

theorem size_whole (W : Nat) : ∀ args : List Arg, bitSized args = false → (sizeOf? args).getD (8 * W) % 8 = 0
  | [], _ => by simp [sizeOf?]
  | a :: args, h => by
    have ih := size_whole W args
    cases a with
    | bits n => cases h
    | bytes k => simp [sizeOf?]
    | endian e => exact ih h
    | order e => exact ih h
    | num e => exact ih h

theorem int_dense {native : Endian} {args : List Arg} {W : Nat} (h : intOrdered o native args W = true) :
    Prim.Dense (endianOf native args) ((sizeOf? args).getD (8 * W)) o := by
  intro ho he
  cases hb : bitSized args with
  | false => exact .inr (size_whole W args hb)
  | true =>
    unfold intOrdered at h
    rw [hb] at h
    simp only [Bool.not_true, Bool.false_or, decide_eq_true_eq] at h
    exact (h.2 ho he).imp id fun h => by omega

theorem int_gives (args : List Arg) (W : Nat) : (intParse o args W).Gives N fun p l u => u = l ∧
    l.length = (sizeOf? args).getD (8 * W) ∧ (orderOf args = o ∨ bitSized args = false ∧ p % 8 = 0) :=
  (Gives.inOrder (Gives.take _)).mono fun _ _ _ _ h => ⟨h.2.1, h.2.2, h.1.imp id fun h => ⟨by simpa using h.1, h.2⟩⟩

theorem int_spells {native : Endian} {args : List Arg} {W : Nat} {p : Nat} {pf : Bool} {l : List Bool} {v : Int}
    (hd : Prim.Dense (endianOf native args) ((sizeOf? args).getD (8 * W)) o)
    (hl : l.length = (sizeOf? args).getD (8 * W)) (ha : orderOf args = o ∨ bitSized args = false ∧ p % 8 = 0)
    (hv : v % 2 ^ l.length = fieldValue (endianOf native args) o l) : Spells o pf p [intPiece o native args W v] l := by
  have hb : (intPiece o native args W v).bits = l := by
    unfold intPiece
    simp only [← hl, hv, Int.toNat_natCast]
    exact Prim.fieldBits_fieldValue (hl ▸ hd)
  refine ⟨by rw [flat_one, hb], fun _ => by rw [flat_one, hb], fun ho => ?_⟩
  subst ho
  simp only [settled, intPiece, Bool.and_true, Bool.or_eq_true, Bool.not_eq_true', decide_eq_true_eq]
  rcases ha with ha | ha
  · left; simp [ha]
  · exact .inr ha.2

theorem unsigned_fits {native : Endian} {args : List Arg} {W : Nat} {l : List Bool}
    (hd : Prim.Dense (endianOf native args) ((sizeOf? args).getD (8 * W)) o) (hl : l.length = (sizeOf? args).getD (8 * W)) :
    fieldValue (endianOf native args) o l < 2 ^ (sizeOf? args).getD (8 * W) := by
  rw [← hl]
  exact Prim.fieldValue_dense_lt (hl ▸ hd)

theorem two_pow_le_256 {n W : Nat} (h : n ≤ 8 * W) : 2 ^ n ≤ 256 ^ W := by
  rw [Prim.pow256]
  exact Nat.pow_le_pow_right (by omega) h

/-- What is read as a number is one of the type and fits. -/
theorem unsigned_good {native : Endian} {args : List Arg} {W : Nat} {l : List Bool}
    (ho : intOrdered o native args W = true) (hs : intSized args W = true) (hl : l.length = (sizeOf? args).getD (8 * W)) :
    0 ≤ unsignedOf o native args l ∧ unsignedOf o native args l < 256 ^ W ∧
      unsignedFits args W (unsignedOf o native args l) = true ∧
      unsignedOf o native args l % 2 ^ l.length = fieldValue (endianOf native args) o l := by
  have h1 := unsigned_fits (int_dense ho) hl
  have h2 := two_pow_le_256 (of_decide_eq_true hs).2.2
  unfold unsignedOf unsignedFits
  rw [hl]
  generalize hn : (sizeOf? args).getD (8 * W) = n at *
  have h3 : ((fieldValue (endianOf native args) o l : Nat) : Int) < (2 ^ n : Nat) := by exact_mod_cast h1
  have h4 : ((2 ^ n : Nat) : Int) ≤ (256 ^ W : Nat) := by exact_mod_cast h2
  rw [Int.natCast_pow] at h3 h4
  rw [Int.natCast_pow] at h4
  simp only [Int.cast_ofNat_Int] at h3 h4
  refine ⟨Int.natCast_nonneg _, by omega, decide_eq_true ⟨Int.natCast_nonneg _, h3⟩, Int.emod_eq_of_lt (Int.natCast_nonneg _) h3⟩

theorem signed_good {native : Endian} {args : List Arg} {W : Nat} {l : List Bool}
    (ho : intOrdered o native args W = true) (hs : intSized args W = true) (hk : signKept args W = true)
    (hl : l.length = (sizeOf? args).getD (8 * W)) :
    -(256 ^ W) ≤ 2 * signedOf o native args W l ∧ 2 * signedOf o native args W l < 256 ^ W ∧
      signedFits args W (signedOf o native args W l) = true ∧
      signedOf o native args W l % 2 ^ l.length = fieldValue (endianOf native args) o l := by
  have h1 := unsigned_fits (int_dense ho) hl
  have hz := of_decide_eq_true hs
  have h2 := two_pow_le_256 hz.2.2
  have e : signedOf o native args W l = twosComplement l.length (fieldValue (endianOf native args) o l) := by
    unfold signedOf
    dsimp only
    rw [hl, Nat.mod_eq_of_lt h1]
    split
    · rfl
    · rename_i hn
      unfold signKept at hk
      simp only [Bool.or_eq_true, decide_eq_true_eq, Bool.and_eq_true] at hk
      rcases hk with hk | hk
      · rw [hk]
      · exact absurd (by simp only [Bool.and_eq_true, Bool.or_eq_true, decide_eq_true_eq]; exact ⟨hk.1.1, hk.2⟩) hn
  have hsf : signedFits args W (signedOf o native args W l) =
      decide (-(2 ^ ((sizeOf? args).getD (8 * W) - 1)) ≤ signedOf o native args W l ∧
        signedOf o native args W l < 2 ^ ((sizeOf? args).getD (8 * W) - 1)) := by
    unfold signedFits
    rw [hk, Bool.or_true, Bool.and_true]
  rw [hsf, e, hl]
  have hr := Prim.twosComplement_inRange hz.2.1 h1
  have hr2 := (Prim.inRange_iff hz.2.1).1 hr
  have hm : twosComplement ((sizeOf? args).getD (8 * W)) (fieldValue (endianOf native args) o l) %
      ((2 ^ (sizeOf? args).getD (8 * W) : Nat) : Int) = fieldValue (endianOf native args) o l := by
    unfold twosComplement
    split
    · exact Int.emod_eq_of_lt (Int.natCast_nonneg _) (by exact_mod_cast h1)
    · rw [Int.sub_emod_right]
      exact Int.emod_eq_of_lt (Int.natCast_nonneg _) (by exact_mod_cast h1)
  unfold InRange at hr
  generalize twosComplement _ _ = x at *
  have h4 : ((2 ^ (sizeOf? args).getD (8 * W) : Nat) : Int) ≤ (256 ^ W : Nat) := by exact_mod_cast h2
  simp only [Int.natCast_pow, Int.cast_ofNat_Int] at h4 hr hr2 hm
  exact ⟨by omega, by omega, decide_eq_true hr, hm⟩

/-! ### leaves -/

theorem string_gives (bs : List Byte) : (stringParse bs).Gives N fun _ v u => u = [] ∧
    ∃ ws, bs = ws ++ [0] ∧ 0 ∉ ws ∧ v = .ofList (ws.map .ofByte) := by
  unfold stringParse
  refine Gives.guarded fun hb => Gives.pure _ fun _ => ⟨rfl, bs.dropLast, ?_, (of_decide_eq_true hb).2, rfl⟩
  have h := (of_decide_eq_true hb).1
  obtain ⟨ys, rfl⟩ := List.getLast?_eq_some_iff.1 h
  simp

theorem elems_ofBytes (ws : List Byte) : (Val.ofList (ws.map .ofByte)).elems.map Val.toByte = ws := by
  rw [elems_ofList, List.map_map]
  exact List.map_id'' (fun b => by simp [Val.toByte, Val.ofByte]) ws

theorem string_has {ws : List Byte} (h : 0 ∉ ws) : Base.has .cstring (.ofList (ws.map .ofByte)) = true := by
  unfold Base.has
  dsimp only
  rw [isList_ofList, elems_ofList, Bool.true_and, List.all_eq_true]
  intro x hx
  obtain ⟨b, hb, rfl⟩ := List.mem_map.1 hx
  have h0 : b ≠ 0 := fun e => h (e ▸ hb)
  have := b.isLt
  have : b.toNat ≠ 0 := fun e => h0 (BitVec.eq_of_toNat_eq e)
  simp only [Val.ofByte]
  exact decide_eq_true (by omega)

theorem base_gives (m : Machine) (args : List Arg) (b : Base) (ho : b.ordered o m.native args = true)
    (hs : b.sized args = true) (hf : b.faithful args = true) : (b.parse o m args).Gives N
      fun p v u => b.fits m.mem args v = true ∧ Spells o true p (b.wire o m.native args v) u ∧
        (b.eager args = true → u ≠ []) := by
  have hne : ∀ {l : List Bool} {W : Nat}, l.length = (sizeOf? args).getD (8 * W) → intSized args W = true → l ≠ [] :=
    fun hl hs e => by
      subst e
      have := (of_decide_eq_true hs).2.1
      rw [← hl] at this
      exact absurd this (by decide)
  cases b with
  | uint W =>
    refine (int_gives args W).map fun p l u ⟨h1, h2, h3⟩ => ?_
    subst h1
    obtain ⟨g1, g2, g3, g4⟩ := unsigned_good ho hs h2
    exact ⟨by simp only [Base.fits, Base.has, g3, Bool.and_true]; exact decide_eq_true ⟨g1, g2⟩,
      int_spells (int_dense ho) h2 h3 g4, fun _ => hne h2 hs⟩
  | sint W =>
    refine (int_gives args W).map fun p l u ⟨h1, h2, h3⟩ => ?_
    subst h1
    obtain ⟨g1, g2, g3, g4⟩ := signed_good ho hs hf h2
    exact ⟨by simp only [Base.fits, Base.has, g3, Bool.and_true]; exact decide_eq_true ⟨g1, g2⟩,
      int_spells (int_dense ho) h2 h3 g4, fun _ => hne h2 hs⟩
  | nonzero W =>
    refine ((int_gives args W).bind fun l => Gives.guarded (R := fun _ v u => u = [] ∧ unsignedOf o m.native args l ≠ 0 ∧
      v = .num (unsignedOf o m.native args l)) fun hb => Gives.pure _ fun _ => ⟨rfl, of_decide_eq_true hb, rfl⟩).mono ?_
    rintro p v u _ ⟨l, u1, u2, rfl, ⟨rfl, h2, h3⟩, rfl, h4, rfl⟩
    obtain ⟨g1, g2, g3, g4⟩ := unsigned_good ho hs h2
    rw [List.append_nil]
    exact ⟨by simp only [Base.fits, Base.has, g3, Bool.and_true]; exact decide_eq_true ⟨by omega, g2⟩,
      int_spells (int_dense ho) h2 h3 g4, fun _ => hne h2 hs⟩
  | nonzeroSigned W =>
    refine ((int_gives args W).bind fun l => Gives.guarded (R := fun _ v u => u = [] ∧ signedOf o m.native args W l ≠ 0 ∧
      v = .num (signedOf o m.native args W l)) fun hb => Gives.pure _ fun _ => ⟨rfl, of_decide_eq_true hb, rfl⟩).mono ?_
    rintro p v u _ ⟨l, u1, u2, rfl, ⟨rfl, h2, h3⟩, rfl, h4, rfl⟩
    obtain ⟨g1, g2, g3, g4⟩ := signed_good ho hs hf h2
    rw [List.append_nil]
    exact ⟨by simp only [Base.fits, Base.has, g3, Bool.and_true]; exact decide_eq_true ⟨h4, g1, g2⟩,
      int_spells (int_dense ho) h2 h3 g4, fun _ => hne h2 hs⟩
  | bool =>
    refine ((int_gives args 1).bind fun l => Gives.guarded (R := fun _ v u => u = [] ∧
      (unsignedOf o m.native args l = 0 ∨ unsignedOf o m.native args l = 1) ∧
      v = .num (unsignedOf o m.native args l)) fun hb => Gives.pure _ fun _ => ⟨rfl, of_decide_eq_true hb, rfl⟩).mono ?_
    rintro p v u _ ⟨l, u1, u2, rfl, ⟨rfl, h2, h3⟩, rfl, h4, rfl⟩
    obtain ⟨g1, g2, g3, g4⟩ := unsigned_good ho hs h2
    rw [List.append_nil]
    exact ⟨by simp only [Base.fits, Base.has, Bool.and_true]; exact decide_eq_true h4,
      int_spells (int_dense ho) h2 h3 g4, fun _ => hne h2 hs⟩
  | cstring =>
    have key : ∀ (q : Parser (List Byte)), (q.Gives N fun _ bs u => u = orderBits o bs ∧ bs.length ≤ m.mem ∧
        (match sizeOf? args with | none => True | some n => 8 * bs.length = n)) →
        (q >>= stringParse).Gives N fun p v u => Base.fits m.mem args .cstring v = true ∧
          Spells o true p (Base.wire o m.native args .cstring v) u ∧ (Base.eager args .cstring = true → u ≠ []) := by
      intro q hq
      refine (hq.bind string_gives).mono ?_
      rintro p v u _ ⟨bs, u1, u2, rfl, ⟨rfl, h2, h3⟩, rfl, ws, rfl, h4, rfl⟩
      rw [List.append_nil]
      have hl : (Val.ofList (ws.map .ofByte)).elems.length = ws.length := by rw [elems_ofList, List.length_map]
      rw [List.length_append, List.length_singleton] at h2 h3
      refine ⟨?_, ?_, fun _ e => ?_⟩
      · unfold Base.fits
        rw [string_has h4]
        simp only [hl, Bool.true_and, Bool.and_eq_true, decide_eq_true_eq]
        refine ⟨h2, ?_⟩
        cases hn : sizeOf? args with
        | none => rfl
        | some n => rw [hn] at h3; exact decide_eq_true h3
      · have e : Base.wire o m.native args .cstring (.ofList (ws.map .ofByte)) = [bytesPiece o (ws ++ [0])] := by
          unfold Base.wire
          dsimp only
          rw [elems_ofBytes]
        rw [e]
        exact Spells.bytes _
      · have := congrArg List.length e
        rw [Reader.length_orderBits] at this
        simp at this
    unfold Base.parse
    cases hn : sizeOf? args with
    | none =>
      refine key _ fun k l a k' l' p hl hp e => ?_
      obtain ⟨u, h1, h2, h3, _⟩ := upTo_gives byte_gives _ _ _ k l a k' l' p hl hp e
      exact ⟨u, h1, bytes_elems h2, h3, by rw [hn]; trivial⟩
    | some n =>
      unfold Base.faithful at hf
      rw [hn] at hf
      have hf := of_decide_eq_true hf
      dsimp only [Option.getD] at hf
      have := key (Parser.guard .panic (decide (n / 8 ≤ m.mem)) >>= fun _ => (byte o).times (n / 8)) (Gives.guarded fun hb =>
        (byte_gives.times _).mono fun _ bs u _ h => ⟨bytes_elems h.2, by rw [h.1]; exact of_decide_eq_true hb, by
          rw [hn]; show 8 * bs.length = n; omega⟩)
      rw [Parser.bind_assoc] at this
      exact this
  | unit => exact Gives.pure _ fun _ => ⟨rfl, Spells.nil, nofun⟩

/-! ### lists -/

/-- What the limit says of the elements and their bits. -/
def Lim.met (env : Env) (vs : List Val) (n : Nat) : Lim → Prop
  | .count e => e.eval env = vs.length ∧ e.eval env < 2 ^ 64
  | .bytes e => 8 * e.eval env = n ∧ n < 2 ^ 64
  | .bits e => e.eval env = n ∧ n < 2 ^ 64
  | .until x => ∃ ini, vs = ini ++ [.num x] ∧ ∀ y ∈ ini, y ≠ .num x
  | .all => False

theorem Lim.met_good {env : Env} {vs : List Val} {n : Nat} {b : Bool} {l : Lim} {eager : Bool}
    (hf : limsFaithful eager [l] = true) (hb : eager = true → b = true) (h : l.met env vs n) : l.good env vs n b = true := by
  cases l with
  | count e => exact decide_eq_true h
  | bytes e => simp only [Lim.good, hb hf, Bool.and_true]; exact decide_eq_true h
  | bits e => simp only [Lim.good, hb hf, Bool.and_true]; exact decide_eq_true h
  | «until» x =>
    obtain ⟨ini, rfl, h2⟩ := h
    simp only [Lim.good, List.reverse_append, List.reverse_singleton, List.singleton_append, decide_true, Bool.true_and]
    rw [List.all_eq_true]
    intro y hy
    exact decide_eq_true (h2 y (List.mem_reverse.1 hy))
  | all => cases h

/-- A list of this many bits. -/
theorem sizedList_gives {q : Parser Val} {R : Nat → Val → List Bool → Prop} (hq : q.Gives N R) (mem n : Nat) :
    (if (false || decide (n = 0)) = true then (Pure.pure [] : Parser (List Val)) else do
      let start ← left
      q.upTo (fun _ k => decide (k = n)) start mem).Gives N
      fun p vs u => vs.length ≤ mem ∧ Elems R p vs u ∧ u.length = n := by
  by_cases hn : n = 0
  · subst hn
    exact Gives.pure _ fun _ => ⟨Nat.zero_le _, rfl, rfl⟩
  · rw [if_neg (by simpa using hn)]
    intro k l vs k' l' p hl hp e
    obtain ⟨start, k1, l1, e1, e2⟩ := Parser.bind_eq_ok e
    cases e1
    obtain ⟨u, h1, h2, h3, ini, x, _, h4, _⟩ := upTo_gives hq _ _ _ k l vs k' l' p hl hp e2
    refine ⟨u, h1, h3, h2, ?_⟩
    have := of_decide_eq_true h4
    rw [h1, List.length_append] at this
    omega

theorem lim_gives {q : Parser Val} {R : Nat → Val → List Bool → Prop} (hq : q.Gives N R) (mem : Nat) (env : Env) (l : Lim)
    (hl : l ≠ .all) : (l.parse mem false env q).Gives N
      fun p vs u => vs.length ≤ mem ∧ Elems R p vs u ∧ l.met env vs u.length := by
  cases l with
  | count e =>
    refine Gives.sized fun h1 h2 => Gives.guarded fun hb => (hq.times _).mono fun p vs u _ h => ?_
    exact ⟨by rw [h.1]; exact of_decide_eq_true hb, h.2, by rw [h.1]; omega, h2⟩
  | bytes e =>
    refine Gives.sized fun h1 h2 => Gives.sized fun h3 h4 => (sizedList_gives hq mem _).mono fun p vs u _ h => ?_
    exact ⟨h.1, h.2.1, by rw [h.2.2]; omega, by rw [h.2.2]; omega⟩
  | bits e =>
    refine Gives.sized fun h1 h2 => (sizedList_gives hq mem _).mono fun p vs u _ h => ?_
    exact ⟨h.1, h.2.1, by rw [h.2.2]; omega, by rw [h.2.2]; omega⟩
  | «until» x =>
    intro k l vs k' l' p hl hp e
    obtain ⟨u, h1, h2, h3, ini, y, h4, h5, h6⟩ := upTo_gives hq _ _ _ k l vs k' l' p hl hp e
    refine ⟨u, h1, h3, h2, ini, ?_, fun y hy => ?_⟩
    · rw [h4, of_decide_eq_true h5]
    · obtain ⟨j, hj⟩ := h6 y hy
      exact of_decide_eq_false hj
  | all => exact absurd rfl hl

theorem limsFaithful_one {eager : Bool} {lims : List Lim} (h : limsFaithful eager lims = true) : ∃ l, lims = [l] ∧ l ≠ .all := by
  match lims, h with
  | [.count e], _ => exact ⟨_, rfl, nofun⟩
  | [.bytes e], _ => exact ⟨_, rfl, nofun⟩
  | [.bits e], _ => exact ⟨_, rfl, nofun⟩
  | [.until e], _ => exact ⟨_, rfl, nofun⟩

/-! ### lists of bytes -/

theorem octet_value (e : Endian) {l : List Bool} (h : l.length = 8) :
    (byteOf (present o l)).toNat = fieldValue e o l := by
  have := fieldValue_orderBits e o [byteOf (present o l)]
  rw [orderBits_byteOf h] at this
  rw [this]
  cases e <;> simp [endianNat, beNat, leNat]

theorem byteVec_gives (m : Machine) (args : List Arg) (env : Env) (n : Expr) (ho : intOrdered o m.native args 1 = true)
    (hs : intSized args 1 = true) (hN : N ≤ 8 * m.mem ∧ N < 2 ^ 64) : (bytesParse o args env n).Gives N fun p v u =>
      STy.consistent o m (.vec false (.base (.uint 1))) [.count n] args env v = true ∧
      Spells o true p ([⟨false, true, []⟩] ++ STy.wire o m.native (.vec false (.base (.uint 1))) args env v) u ∧
      bitSized args = false ∧ v.elems.length < 2 ^ 61 := by
  unfold bytesParse
  refine Gives.provided fun k l hb => ?_
  simp only [Bool.and_eq_true, Bool.not_eq_true'] at hb
  have hz : (sizeOf? args).getD (8 * 1) = 8 := by
    have := of_decide_eq_true hs
    have := size_whole 1 args hb.2
    omega
  refine fun a k' l' p => ?_
  have key := (Gives.inOrder (o := o) (o' := .lsb0) (whole := true) (N := N) (Gives.leftThen fun k => Gives.guarded
    (w := .panic) (b := decide (8 * (n.eval env).toNat ≤ k ∨ 8 * (n.eval env).toNat < 2 ^ 64)) fun _ => ((Gives.take 8).map
    (g := fun l => byteOf (present o l)) (S := fun _ b u => u.length = 8 ∧ u = orderBits o [b]) fun _ l u h => by
      rw [h.1]; exact ⟨h.2, (orderBits_byteOf h.2).symm⟩).times (n.eval env).toNat))
  have := (Gives.sized (w := .parse) (n := n.eval env) (N := N) (q := fun n => Parser.inOrder o .lsb0 true >>= fun _ =>
    Parser.left >>= fun k => Parser.guard .panic (decide (8 * n ≤ k ∨ 8 * n < 2 ^ 64)) >>= fun _ => (octet o).times n >>= fun bs =>
    Pure.pure (Val.ofList (bs.map .ofByte))) (R := fun p v u =>
      STy.consistent o m (.vec false (.base (.uint 1))) [.count n] args env v = true ∧
      Spells o true p ([⟨false, true, []⟩] ++ STy.wire o m.native (.vec false (.base (.uint 1))) args env v) u ∧
      bitSized args = false ∧ v.elems.length < 2 ^ 61) fun h1 h2 => ?_) k l a k' l' p
  · exact this
  · have ea : ∀ (q : Nat → Parser (List Byte)) (g : Nat → Parser Unit), (Parser.inOrder o .lsb0 true >>= fun _ => Parser.left >>= fun k =>
        g k >>= fun _ => q k >>= fun bs => Pure.pure (Val.ofList (bs.map .ofByte))) =
        ((Parser.inOrder o .lsb0 true >>= fun _ => Parser.left >>= fun k => g k >>= fun _ => q k) >>= fun bs =>
          Pure.pure (Val.ofList (bs.map .ofByte))) := fun q g => by simp only [Parser.bind_assoc]
    rw [ea (fun _ => (octet o).times (n.eval env).toNat)]
    refine (key.mono (S := fun p vs u => u.length ≤ N ∧ _) fun p vs u h h' => ⟨h, h'⟩).map fun p bs u ⟨hu, ha, hn, hel⟩ => ?_
    have hal : o = .msb0 → p % 8 = 0 := fun e => by
      subst e
      rcases ha with ha | ha
      · cases ha
      · exact ha.2
    have hlen : u.length = 8 * bs.length := by
      have := bytes_elems (Elems.mono (fun _ _ _ h => h.2) hel)
      rw [this, Reader.length_orderBits]
    have hone : ∀ b : Byte, (Base.uint 1).fits m.mem args (.ofByte b) = true := fun b => by
      have := b.isLt
      simp only [Base.fits, Base.has, Val.ofByte, unsignedFits, hz, Bool.and_eq_true, decide_eq_true_eq]
      omega
    have hpiece : ∀ (p : Nat) (b : Byte), (o = .msb0 → p % 8 = 0) →
        Spells o true p (STy.wire o m.native (.base (.uint 1)) args env (.ofByte b)) (orderBits o [b]) := fun p b hp => by
      have h8 : (orderBits o [b]).length = 8 := by rw [Reader.length_orderBits]; rfl
      have hv : (b.toNat : Int) % 2 ^ (orderBits o [b]).length = fieldValue (endianOf m.native args) o (orderBits o [b]) := by
        have e := octet_value (o := o) (endianOf m.native args) h8
        have e2 : byteOf (present o (orderBits o [b])) = b := by
          have := Prim.bytesOf_orderBits o [b]
          rw [bytesOf_one o h8] at this
          simpa using this
        rw [e2] at e
        rw [← e, h8]
        have := b.isLt
        omega
      show Spells o true p [intPiece o m.native args 1 b.toNat] _
      have hb2 : (intPiece o m.native args 1 b.toNat).bits = orderBits o [b] := by
        unfold intPiece
        simp only [hz]
        rw [h8] at hv
        rw [hv, Int.toNat_natCast, ← h8]
        exact Prim.fieldBits_fieldValue (by rw [h8, ← hz]; exact int_dense ho)
      refine ⟨by rw [flat_one, hb2], fun _ => by rw [flat_one, hb2], fun e => ?_⟩
      simp only [settled, Bool.and_true, Bool.or_eq_true]
      exact .inr (decide_eq_true (hp e))
    have hsp : ∀ (bs : List Byte) (p : Nat) (u : List Bool), (o = .msb0 → p % 8 = 0) →
        Elems (fun _ b u => u.length = 8 ∧ u = orderBits o [b]) p bs u →
        Spells o true p ((bs.map Val.ofByte).flatMap fun x => STy.wire o m.native (.base (.uint 1)) args env x) u := by
      intro bs
      induction bs with
      | nil => intro p u _ h; cases h; exact Spells.nil
      | cons b bs ih =>
        rintro p u hp ⟨u1, u2, rfl, ⟨h1, h2⟩, h3⟩
        rw [List.map_cons, List.flatMap_cons]
        refine Spells.append (by rw [h2]; exact hpiece p b hp) (ih _ _ (fun e => ?_) h3)
        have := hp e
        omega
    have hel2 : (Val.ofList (bs.map .ofByte)).elems.length = bs.length := by rw [elems_ofList, List.length_map]
    refine ⟨?_, ?_, hb.2, by rw [hel2]; omega⟩
    · simp only [STy.consistent, isList_ofList, elems_ofList, List.length_map, List.all_cons, List.all_nil, Lim.good,
        Bool.and_eq_true, decide_eq_true_eq, Bool.not_false, and_true, true_and, List.all_eq_true]
      refine ⟨⟨by omega, fun x hx => ?_⟩, by omega, h2⟩
      obtain ⟨b, _, rfl⟩ := List.mem_map.1 hx
      exact hone b
    · have h0 : Spells o true p [⟨false, true, []⟩] [] := ⟨rfl, fun _ => rfl, fun e => by
        simp only [settled, Bool.and_true, Bool.or_eq_true]
        exact .inr (decide_eq_true (hal e))⟩
      have := h0.append (hsp bs (p + ([] : List Bool).length) u hal hel)
      rw [List.nil_append] at this
      rw [STy.wire, elems_ofList]
      exact this

end Deku
