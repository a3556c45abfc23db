import Verif.Spec.Arith
import Verif.Lemmas.Portable
import Verif.Lemmas.CoreTyped
import Verif.Lemmas.CoreSafe
import Verif.Lemmas.Chain

/-! # Bounds of the numbers that are read, and of the values of expressions -/

namespace Deku

open Reader

namespace Prim

theorem readSlice_lt {W : Nat} (e : Endian) {l : List Bool} (h1 : 1 ≤ l.length) (h : l.length ≤ 8 * W) :
    Yields (· < 2 ^ l.length) (readSlice W e l) :=
  Yields.of fun r a r' he => by
    rw [readSlice_run r h1 h] at he
    cases he
    exact fieldValue_dense_lt (fun h => by cases h)

theorem readSliceOrd_lt {W : Nat} (e : Endian) (o : Order) {l : List Bool} (h1 : 1 ≤ l.length) (h : l.length ≤ 8 * W)
    (hd : Dense e l.length o) : Yields (· < 2 ^ l.length) (readSliceOrd W e o l) :=
  Yields.of fun r a r' he => by
    rw [readSliceOrd_run r h1 h] at he
    cases he
    have := fieldValue_dense_lt (e := e) (o := o) (l := present o l) (by rw [length_present]; exact hd)
    rwa [length_present] at this

theorem readBitsUintMsb0_lt (n : Nat) : Yields (· < 2 ^ n) (readBitsUintMsb0 n) := by
  unfold readBitsUintMsb0
  refine Yields.after fun _ => Yields.after fun r => Yields.after fun _ => Yields.after fun p => ?_
  dsimp only
  have hp : ∀ x : Nat, Yields (· < 2 ^ n) (pure (x % 2 ^ n) : M Reader Nat) := fun x =>
    Keeps.pure (Nat.mod_lt _ (Nat.two_pow_pos _))
  split
  · exact Yields.after fun _ => Yields.after fun _ => hp _
  · exact Yields.after fun _ => hp _

theorem readBits_lt {W n : Nat} (e : Endian) (h1 : 1 ≤ n) (h : n ≤ 8 * W) : Yields (· < 2 ^ n) (readBits W e n) :=
  Yields.ite (fun _ => Keeps.throw) fun _ => Yields.ite
    (fun _ => (readBitsUintMsb0_lt n).bind fun _ hv => Keeps.pure (Nat.lt_of_le_of_lt (Nat.mod_le _ _) hv)) fun _ =>
    (readBitsInto_yields n .msb0).bind fun l hl => by
      have := readSlice_lt (W := W) e (l := l) (by omega) (by omega)
      rwa [hl] at this

theorem readBitsOrd_lt {W n : Nat} (e : Endian) (o : Order) (h1 : 1 ≤ n) (h : n ≤ 8 * W) (hd : Dense e n o) :
    Yields (· < 2 ^ n) (readBitsOrd W e n o) :=
  Yields.ite (fun _ => Keeps.throw) fun _ => Yields.ite
    (fun _ => (readBitsUintMsb0_lt n).bind fun _ hv => Keeps.pure (Nat.lt_of_le_of_lt (Nat.mod_le _ _) hv)) fun _ =>
    (readBitsInto_yields n o).bind fun l hl => by
      have := readSliceOrd_lt (W := W) e o (l := l) (by omega) (by omega) (by rw [hl]; exact hd)
      rwa [hl] at this

theorem pow_256 (W : Nat) : (256 : Nat) ^ W = 2 ^ (8 * W) := by rw [Nat.pow_mul]

theorem readUBytesOrd_lt {W k n : Nat} (e : Endian) (o : Order) (hn : n = if W = 1 then 8 else 8 * k) :
    Yields (· < 2 ^ n) (readUBytesOrd W e k o) := by
  refine Yields.ite (fun h => ?_) fun h0 => Yields.ite (fun _ => Keeps.throw) fun h =>
    (readBytes_yields k o).bind fun bs hbs => Keeps.pure ?_
  · refine (readBytesConstInto_yields 1 o).bind fun bs hbs => Keeps.pure ?_
    have := beNat_lt bs
    rw [hbs] at this
    rw [hn, if_pos h]
    simpa using this
  · rw [hn, if_neg h0, bufNat_eq, ← pow_256, ← hbs]
    exact endianNat_lt e bs

theorem readUnsigned_lt {native : Endian} {W : Nat} {ctx : IntCtx} (h1 : 1 ≤ (ctx.shape native W).2.1) (h : (ctx.shape native W).2.1 ≤ 8 * W)
    (hd : Dense (ctx.shape native W).1 (ctx.shape native W).2.1 (ctx.shape native W).2.2) :
    Yields (· < 2 ^ (ctx.shape native W).2.1) (readUnsigned native W ctx) := by
  cases ctx with
  | unit => simp only [IntCtx.shape, ← pow_256]; exact readWhole_yields W _
  | endian e => simp only [IntCtx.shape, ← pow_256]; exact readWhole_yields W _
  | bits n =>
    simp only [IntCtx.shape] at *
    exact Yields.ite (fun h0 => readUBytesOrd_lt _ _ (by split <;> omega)) fun _ => readBits_lt _ h1 h
  | bytes k => exact readUBytesOrd_lt _ _ rfl
  | order o => exact readUBytesOrd_lt _ _ (by simp only [IntCtx.shape]; split <;> omega)
  | endianOrder e o => exact readUBytesOrd_lt _ _ (by simp only [IntCtx.shape]; split <;> omega)
  | endianBits e n => exact readBits_lt _ h1 h
  | endianBytes e k => exact readUBytesOrd_lt _ _ rfl
  | bitsOrder n o =>
    simp only [IntCtx.shape] at *
    exact Yields.ite (fun h0 => readUBytesOrd_lt _ _ (by split <;> omega)) fun _ => readBitsOrd_lt _ _ h1 h hd
  | endianBitsOrder e n o => exact readBitsOrd_lt _ _ h1 h hd
  | endianBytesOrder e k o => exact readUBytesOrd_lt _ _ rfl

/-- What is read is at most what the leaf says. -/
theorem readUnsigned_most {native : Endian} {W : Nat} {ctx : IntCtx} (hv : uintValid native W ctx = true) :
    Yields (fun n : Nat => (n : Int) ≤ (Leaf.uint W ctx).most native) (readUnsigned native W ctx) := by
  obtain ⟨_, h1, h⟩ := uintValid.le hv
  simp only [Leaf.most]
  split
  · refine (readUnsigned_yields native W ctx).mono fun n hn => ?_
    have := pow_cast hn
    omega
  · rename_i hd
    refine (readUnsigned_lt h1 h fun ho he => ?_).mono fun n hn => ?_
    · by_cases h8 : (ctx.shape native W).2.1 ≤ 8
      · exact .inl h8
      · by_cases h0 : (ctx.shape native W).2.1 % 8 = 0
        · exact .inr h0
        · exact absurd ⟨ho, he, by omega, h0⟩ hd
    · have hc : (n : Int) < 2 ^ (ctx.shape native W).2.1 := by exact_mod_cast hn
      omega

end Prim

/-- The number is within the bounds. -/
def Span.has (s : Span) (x : Int) : Prop := ∀ a b : Nat, s = some (a, b) → (a : Int) ≤ x ∧ x ≤ b

theorem Span.has_some {a b : Nat} {x : Int} : Span.has (some (a, b)) x ↔ (a : Int) ≤ x ∧ x ≤ b := by
  constructor
  · exact fun h => h a b rfl
  · intro h c d hc
    cases hc
    exact h

theorem Span.has_none (x : Int) : Span.has none x := fun _ _ h => by cases h

theorem Span.has_getD {l : List Span} {i : Nat} {x : Int}
    (h : ∀ a b : Nat, l[i]? = some (some (a, b)) → (a : Int) ≤ x ∧ x ≤ b) : Span.has (l[i]?.getD none) x := by
  intro a b e
  cases hi : l[i]? with
  | none => rw [hi] at e; cases e
  | some s => rw [hi] at e; cases e; exact h a b hi

/-! ### expressions -/

theorem Op.span_sound {ar : Arith} {n : Nat} {o : Op} {x y : Nat × Nat} {a b : Nat} {s : Nat × Nat}
    (h : o.span n ar.minus x y = some s) (ha : x.1 ≤ a ∧ a ≤ x.2) (hb : y.1 ≤ b ∧ b ≤ y.2) :
    ∃ c : Nat, ar.op n o a b = some c ∧ o.eval a b = c ∧ s.1 ≤ c ∧ c ≤ s.2 := by
  cases o with
  | add =>
    simp only [Op.span] at h
    split at h
    · cases h
      refine ⟨a + b, ?_, ?_, by dsimp only; omega, by dsimp only; omega⟩
      · simp only [Arith.op, Arith.fit]; rw [if_pos (by omega)]
      · simp [Op.eval]
    · cases h
  | mul =>
    simp only [Op.span] at h
    split at h
    · rename_i hlt
      cases h
      have h1 : a * b ≤ x.2 * y.2 := Nat.mul_le_mul ha.2 hb.2
      have h2 : x.1 * y.1 ≤ a * b := Nat.mul_le_mul ha.1 hb.1
      refine ⟨a * b, ?_, ?_, h2, h1⟩
      · simp only [Arith.op, Arith.fit]; rw [if_pos (by omega)]
      · simp [Op.eval]
    · cases h
  | sub =>
    simp only [Op.span] at h
    split at h
    · cases h
    · rename_i hm
      cases h
      refine ⟨a - b, ?_, ?_, by dsimp only; omega, by dsimp only; omega⟩
      · simp only [Arith.op, Arith.diff]
        by_cases hab : b ≤ a
        · rw [if_pos hab]
        · rw [if_neg hab, if_neg fun hm' => hm ⟨hm', by omega⟩]
          exact congrArg _ (by omega)
      · simp [Op.eval]
  | min =>
    simp only [Op.span] at h
    cases h
    refine ⟨if a ≤ b then a else b, rfl, ?_, ?_, ?_⟩
    · simp only [Op.eval]; split <;> split <;> omega
    · dsimp only; split <;> omega
    · dsimp only; split <;> omega
  | max =>
    simp only [Op.span] at h
    cases h
    refine ⟨if a ≤ b then b else a, rfl, ?_, ?_, ?_⟩
    · simp only [Op.eval]; split <;> split <;> omega
    · dsimp only; split <;> omega
    · dsimp only; split <;> omega

theorem shiftRight_mono {a b : Nat} (h : a ≤ b) (k : Nat) : a >>> k ≤ b >>> k := by
  rw [Nat.shiftRight_eq_div_pow, Nat.shiftRight_eq_div_pow]
  exact Nat.div_le_div_right h

theorem LitOp.span_sound {n : Nat} {o : LitOp} {x : Nat × Nat} {a : Nat} {s : Nat × Nat}
    (h : o.span n x = some s) (ha : x.1 ≤ a ∧ a ≤ x.2) :
    ∃ c : Nat, Arith.lop n o a = some c ∧ o.eval a = c ∧ s.1 ≤ c ∧ c ≤ s.2 := by
  cases o with
  | div k =>
    simp only [LitOp.span] at h
    split at h
    · cases h
    · rename_i hk
      cases h
      refine ⟨a / k, ?_, ?_, Nat.div_le_div_right ha.1, Nat.div_le_div_right ha.2⟩
      · simp only [Arith.lop]; rw [if_neg hk]
      · simp [LitOp.eval]
  | mod k =>
    simp only [LitOp.span] at h
    split at h
    · cases h
    · rename_i hk
      cases h
      have hlt : a % k < k := Nat.mod_lt _ (by omega)
      refine ⟨a % k, ?_, ?_, ?_, ?_⟩
      · simp only [Arith.lop]; rw [if_neg hk]
      · simp [LitOp.eval]
      · dsimp only
        split
        · rw [Nat.mod_eq_of_lt (by omega)]; exact ha.1
        · exact Nat.zero_le _
      · have := Nat.mod_le a k
        dsimp only
        omega
  | and k =>
    simp only [LitOp.span] at h
    split at h
    · cases h
    · rename_i hk
      cases h
      refine ⟨a &&& k, ?_, ?_, Nat.zero_le _, ?_⟩
      · simp only [Arith.lop]; rw [if_neg hk]
      · simp [LitOp.eval]
      · have h1 : a &&& k ≤ a := Nat.and_le_left
        have h2 : a &&& k ≤ k := Nat.and_le_right
        dsimp only
        omega
  | shr k =>
    simp only [LitOp.span] at h
    split at h
    · cases h
    · rename_i hk
      cases h
      refine ⟨a >>> k, ?_, ?_, shiftRight_mono ha.1 k, shiftRight_mono ha.2 k⟩
      · simp only [Arith.lop]; rw [if_neg hk]
      · simp [LitOp.eval]

theorem cast_sound {n : Nat} {l : Span} {x : Int} {s : Nat × Nat} (hl : l.has x) (h : Span.cast n l = some s) :
    ∃ c : Nat, Arith.cast n x = c ∧ x = c ∧ s.1 ≤ c ∧ c ≤ s.2 := by
  match l, hl, h with
  | some (a, b), hl, h =>
    simp only [Span.cast] at h
    split at h
    · rename_i hb
      cases h
      obtain ⟨h1, h2⟩ := hl a b rfl
      obtain ⟨c, rfl⟩ := Int.eq_ofNat_of_zero_le (Int.le_trans (Int.natCast_nonneg a) h1)
      refine ⟨c, ?_, rfl, by exact_mod_cast h1, by exact_mod_cast h2⟩
      have hc : c < 2 ^ n := by have : c ≤ b := by exact_mod_cast h2
                                omega
      simp only [Arith.cast]
      rw [← Int.natCast_emod, Int.toNat_natCast, Nat.mod_eq_of_lt hc]
    · cases h
  | none, _, h => cases h

theorem Expr.span_sound {ar : Arith} {n : Nat} {sp : Spans} {env : Env} (hh : sp.holds env) : ∀ {e : Expr} {s : Nat × Nat},
    e.span n ar.minus sp = some s → ∃ c : Nat, ar.run n env e = some c ∧ e.eval env = c ∧ s.1 ≤ c ∧ c ≤ s.2
  | .lit k, s, h => by
    simp only [Expr.span] at h
    split at h
    · rename_i hk
      cases h
      refine ⟨k.toNat, ?_, ?_, Nat.le_refl _, Nat.le_refl _⟩
      · simp only [Arith.run]; rw [if_pos hk]
      · simp only [Expr.eval]; omega
    · cases h
  | .field i, s, h => by
    obtain ⟨c, h1, h2, h3⟩ := cast_sound (Span.has_getD (hh.1 i)) h
    exact ⟨c, by simp only [Arith.run, h1], h2, h3⟩
  | .arg i, s, h => by
    obtain ⟨c, h1, h2, h3⟩ := cast_sound (Span.has_getD (hh.2 i)) h
    exact ⟨c, by simp only [Arith.run, h1], h2, h3⟩
  | .op o a b, s, h => by
    simp only [Expr.span] at h
    split at h
    · rename_i x y ha hb
      obtain ⟨p, h1, h2, h3⟩ := Expr.span_sound hh ha
      obtain ⟨q, k1, k2, k3⟩ := Expr.span_sound hh hb
      obtain ⟨c, l1, l2, l3⟩ := Op.span_sound h h3 k3
      exact ⟨c, by simp only [Arith.run, h1, k1, l1], by simp only [Expr.eval, h2, k2, l2], l3⟩
    · cases h
  | .lop o a, s, h => by
    simp only [Expr.span] at h
    split at h
    · rename_i x ha
      obtain ⟨p, h1, h2, h3⟩ := Expr.span_sound hh ha
      obtain ⟨c, l1, l2, l3⟩ := LitOp.span_sound h h3
      exact ⟨c, by simp only [Arith.run, h1, l1], by simp only [Expr.eval, h2, l2], l3⟩
    · cases h

namespace Arith

variable {σ : Type} {ar : Arith} {sp : Spans} {env : Env}

theorem span_has (hh : sp.holds env) (e : Expr) : (ar.span sp e).has (e.eval env) := by
  cases e with
  | lit k =>
    simp only [span]
    split
    · rw [Span.has_some]; simp only [Expr.eval]; omega
    · exact Span.has_none _
  | field i => exact Span.has_getD (hh.1 i)
  | arg i => exact Span.has_getD (hh.2 i)
  | op o a b =>
    intro x y h
    obtain ⟨c, _, h2, h3, h4⟩ := Expr.span_sound hh h
    rw [h2]
    exact ⟨by exact_mod_cast h3, by exact_mod_cast h4⟩
  | lop o a =>
    intro x y h
    obtain ⟨c, _, h2, h3, h4⟩ := Expr.span_sound hh h
    rw [h2]
    exact ⟨by exact_mod_cast h3, by exact_mod_cast h4⟩

theorem eval_eq (hh : sp.holds env) {e : Expr} (h : ar.ok sp e = true) : ar.eval env e = some (e.eval env) := by
  cases e with
  | lit k => rfl
  | field i => rfl
  | arg i => rfl
  | op o a b =>
    simp only [ok, Option.isSome_iff_exists] at h
    obtain ⟨s, hs⟩ := h
    obtain ⟨c, h1, h2, _⟩ := Expr.span_sound hh hs
    simp only [eval, h1, h2, Option.map_some]
    rfl
  | lop o a =>
    simp only [ok, Option.isSome_iff_exists] at h
    obtain ⟨s, hs⟩ := h
    obtain ⟨c, h1, h2, _⟩ := Expr.span_sound hh hs
    simp only [eval, h1, h2, Option.map_some]
    rfl

theorem test_eq (hh : sp.holds env) : ∀ {c : Cond}, ar.okCond sp c = true → ar.test env c = some (c.eval env)
  | .eq a b, h => by
    simp only [okCond, Bool.and_eq_true] at h
    simp only [test, eval_eq hh h.1, eval_eq hh h.2, Cond.eval]
  | .lt a b, h => by
    simp only [okCond, Bool.and_eq_true] at h
    simp only [test, eval_eq hh h.1, eval_eq hh h.2, Cond.eval]
  | .not c, h => by simp only [test, test_eq (c := c) hh h, Cond.eval]
  | .and c d, h => by
    simp only [okCond, Bool.and_eq_true] at h
    simp only [test, test_eq hh h.1, test_eq hh h.2, Cond.eval]
    cases c.eval env <;> simp
  | .or c d, h => by
    simp only [okCond, Bool.and_eq_true] at h
    simp only [test, test_eq hh h.1, test_eq hh h.2, Cond.eval]
    cases c.eval env <;> simp

theorem get_eq (hh : sp.holds env) {e : Expr} (h : ar.ok sp e = true) : (ar.get env e : M σ Int) = pure (e.eval env) := by
  simp only [get, eval_eq hh h, must]

theorem args_eq (hh : sp.holds env) : ∀ {es : List Expr}, (∀ e ∈ es, ar.ok sp e = true) →
    (ar.args env es : M σ (List Val)) = pure (es.map fun e => e.val env)
  | [], _ => rfl
  | e :: es, h => by
    simp only [args, get_eq hh (h e (by simp)), args_eq (es := es) hh fun e he => h e (List.mem_cons_of_mem _ he)]
    rfl

theorem limit_eq (hh : sp.holds env) {l : Lim} (h : ar.okLim sp l = true) : ar.limit env l = l.toLimit.eval env := by
  cases l with
  | count e => simp only [limit, get_eq hh h]; rfl
  | bytes e => simp only [limit, get_eq hh h]; rfl
  | bits e => simp only [limit, get_eq hh h]; rfl
  | «until» n => rfl
  | all => rfl

end Arith

end Deku
