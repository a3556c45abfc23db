import Verif.Lemmas.CoreSize
import Verif.Lemmas.Select

/-!
# Checked definitions and good values fit
-/

namespace Deku

open Reader Coll

namespace Align

theorem add_holds {a : Align} {p n : Nat} (h : a.holds p) : (a.add n).holds (p + n) := by
  intro k hk
  cases a with
  | none => simp [add] at hk
  | some j =>
    have := h j rfl
    simp [add] at hk
    omega

theorem add_bytes {a : Align} {p n : Nat} (h : a.holds p) : a.holds (p + 8 * n) := by
  intro k hk
  have := h k hk
  omega

theorem join_left {a b : Align} {p : Nat} (h : a.holds p) : (a.join b).holds p := by
  unfold join
  split
  · exact h
  · intro k hk; simp at hk

theorem join_right {a b : Align} {p : Nat} (h : b.holds p) : (a.join b).holds p := by
  unfold join
  split
  · rename_i e; subst e; exact h
  · intro k hk; simp at hk

theorem joins_holds {l : List Align} {a : Align} {p : Nat} (hm : a ∈ l) (h : a.holds p) : (joins l).holds p := by
  induction l with
  | nil => simp at hm
  | cons b l ih =>
    cases l with
    | nil =>
      simp at hm
      subst hm
      exact h
    | cons c l =>
      simp only [joins]
      rcases List.mem_cons.1 hm with rfl | hm
      · exact join_left h
      · exact join_right (ih hm)

theorem none_holds (p : Nat) : Align.holds none p := nofun

/-- The invariant of a loop. -/
theorem loop_some {f : Align → Option Align} {a b : Align} (h : loop f a = some b) :
    ∃ c c', f c = some c' ∧ (∀ p, a.holds p → c.holds p) ∧ (∀ p, c'.holds p → c.holds p) ∧
      ∀ p, c.holds p → b.holds p := by
  unfold loop at h
  split at h
  · injection h with h
    subst h
    exact ⟨a, a, ‹_›, fun _ h => h, fun _ h => h, fun _ h => h⟩
  · split at h
    · rename_i hs
      injection h with h
      subst h
      obtain ⟨c', hc⟩ := Option.isSome_iff_exists.1 hs
      exact ⟨none, c', hc, fun _ _ => none_holds _, fun _ _ => none_holds _, fun _ h => h⟩
    · simp at h

end Align

variable {o : Order} {P Q : Nat → Prop}

/-! ### leaves -/

theorem intFits_iff {W : Nat} {bits : Bool} {e : Endian} {n : Nat} {o' : Order} {a : Align} :
    intFits o W bits (e, n, o') a = true ↔ o' = o ∧
      if bits then (o = .lsb0 → e = .big → n ≤ 8 ∨ n = 8 * W) else (o = .lsb0 → a = some 0) := by
  simp only [intFits, Bool.and_eq_true, decide_eq_true_iff]
  cases bits <;> simp only [Bool.false_eq_true, if_false, if_true, decide_eq_true_iff]

theorem intFits.compatible {native : Endian} {W : Nat} {ctx : IntCtx} {a : Align}
    (h : intFits o W ctx.isBits (ctx.shape native W) a = true) {p : Nat} (hp : a.holds p) :
    Prim.Compatible native W ctx p := by
  rcases hs : ctx.shape native W with ⟨e, n, o'⟩
  rw [hs, intFits_iff] at h
  obtain ⟨rfl, h⟩ := h
  unfold Prim.Compatible
  rw [hs]
  cases hb : ctx.isBits
  · rw [hb] at h
    simp only [Bool.false_eq_true, if_false] at h ⊢
    intro ho
    exact hp 0 (h ho)
  · rw [hb] at h
    simp only [if_true] at h ⊢
    exact h

theorem sshape_order_eq (native : Endian) (W : Nat) (ctx : IntCtx) :
    (ctx.sshape native W).2.2 = (ctx.shape native W).2.2 := (Prim.sshape_order (by rfl)).symm

theorem intFits.compatible_signed {native : Endian} {W : Nat} {ctx : IntCtx} {a : Align}
    (h : intFits o W ctx.isBits (ctx.sshape native W) a = true) {p : Nat} (hp : a.holds p) :
    Prim.Compatible native W ctx p := by
  refine intFits.compatible (o := o) (a := a) ?_ hp
  cases hb : ctx.isBits
  · rw [hb] at h
    simp only [intFits, Bool.false_eq_true, if_false, sshape_order_eq] at h ⊢
    exact h
  · rcases hs : ctx.sshape native W with ⟨e, n, o'⟩
    rw [Prim.sshape_bits hb hs, ← hs]
    rw [hb] at h
    exact h

theorem mem_zero_toByte {v : Val} (h : v.isCString = true) : (0 : Byte) ∉ v.elems.map Val.toByte := by
  simp only [Val.isCString, Val.isBytes, Bool.and_eq_true, List.all_eq_true, decide_eq_true_iff] at h
  intro hm
  obtain ⟨x, hx, h0⟩ := List.mem_map.1 hm
  have := h.1.2 x hx
  rw [h0] at this
  exact h.2 x hx this

theorem textOf_textBytes {v w : Val} (h : textBytes v = some w) :
    v.isCString = true ∧ w = .ofList (v.elems ++ [.num 0]) ∧ textOf w = some v := by
  unfold textBytes at h
  split at h
  · rename_i hc
    injection h with h
    subst h
    refine ⟨hc, rfl, ?_⟩
    have hb : v.isBytes = true := by
      simp only [Val.isCString, Bool.and_eq_true] at hc; exact hc.1
    have : fromVecWithNul ((v.elems ++ [Val.num 0]).map Val.toByte) = some (v.elems.map Val.toByte) := by
      rw [fromVecWithNul_iff]
      refine ⟨?_, mem_zero_toByte hc⟩
      rw [List.map_append]
      rfl
    unfold textOf
    rw [elems_ofList, this, Option.map_some, (isBytes_elems hb).2, ofList_elems (isBytes_elems hb).1]
  · simp at h

theorem firstMatch_until {n : Int} : ∀ (l seen : List Val) (v : Val), v = .num n → (∀ x ∈ l, x ≠ .num n) →
    FirstMatch (fun (v : Val) (seen : List Val) => (decide ((v :: seen).head? = some (.num n)), v :: seen)) seen (l ++ [v])
  | [], seen, v, hv, _ => by simp [FirstMatch, hv]
  | x :: l, seen, v, hv, hl => by
    have ih := firstMatch_until l (x :: seen) v hv fun y hy => hl y (List.mem_cons_of_mem _ hy)
    have hx := hl x List.mem_cons_self
    cases l with
    | nil => exact ⟨by simpa using hx, ih⟩
    | cons y l => exact ⟨by simpa using hx, ih⟩

theorem byteTy_fits {m : Machine} {env : Env} {v : Val} :
    (byteTy m.native).Fits m .msb0 (fun p => P p) (shift P 8) env v := by
  simp only [byteTy, Ty.Fits]
  exact uint_sound_msb (e := m.native) (n := 8) (by omega) rfl (by omega) (by omega) (.inr (.inl rfl))

theorem elems_sound {m : Machine} {a : Align} {env : Env} {l : List Val} :
    ∀ x ∈ l, (byteTy m.native).Fits m .msb0 a.holds a.holds env x := by
  intro x _
  have h := byteTy_fits (P := a.holds) (m := m) (env := env) (v := x)
  simp only [byteTy, Ty.Fits] at h ⊢
  exact h.mono (fun _ h => h) fun q ⟨p, hp, e⟩ => by subst e; exact Align.add_bytes (n := 1) hp

theorem Leaf.sound {m : Machine} {l : Leaf} {a b : Align} {v : Val} (hv : l.valid m.native = true)
    (hg : l.good m v = true) (hc : l.check m.native o a = some b) (hP : ∀ p, P p → a.holds p)
    (hQ : ∀ p, b.holds p → Q p) : SoundOn o P (l.codec m).read ((l.codec m).write v) v Q := by
  have huint : ∀ {W : Nat} {ctx : IntCtx} {v : Val}, uintValid m.native W ctx = true →
      (ctx.isBits = true ∨ (ctx.shape m.native W).2.1 = 8 * W ∨
        ∀ k : Nat, v = .num k → k < 2 ^ (ctx.shape m.native W).2.1) →
      (if intFits o W ctx.isBits (ctx.shape m.native W) a then some (a.add (ctx.shape m.native W).2.1) else none) = some b →
      SoundOn o P (uintCodec m.native W ctx).read ((uintCodec m.native W ctx).write v) v Q := by
    intro W ctx v hv hg hcc
    obtain ⟨e, n, o', hs, hW, h1, hn⟩ := uintValid_iff.1 hv
    split at hcc
    · rename_i hf
      injection hcc with hcc
      have ho : o' = o := by rw [hs, intFits_iff] at hf; exact hf.1
      subst ho
      rw [hs] at hcc hg
      refine (uint_sound hW hs h1 hn hg fun p hp => intFits.compatible hf (hP p hp)).mono (fun _ h => h) ?_
      rintro q ⟨p, hp, rfl⟩
      rw [← hcc] at hQ
      exact hQ _ (Align.add_holds (hP p hp))
    · simp at hcc
  have hsint : ∀ {W : Nat} {ctx : IntCtx} {v : Val}, sintValid m.native W ctx = true →
      (match v with
        | .num n =>
          if ctx.extends then
            decide (-(2 ^ ((ctx.sshape m.native W).2.1 - 1)) ≤ n ∧ n < 2 ^ ((ctx.sshape m.native W).2.1 - 1))
          else decide (pattern W n < 2 ^ (ctx.sshape m.native W).2.1)
        | _ => true) = true →
      (if intFits o W ctx.isBits (ctx.sshape m.native W) a then some (a.add (ctx.sshape m.native W).2.1) else none) = some b →
      SoundOn o P (sintCodec m.native W ctx).read ((sintCodec m.native W ctx).write v) v Q := by
    intro W ctx v hv hg hcc
    obtain ⟨e, n, o', hs, hW, h1, hn⟩ := sintValid_iff.1 hv
    split at hcc
    · rename_i hf
      injection hcc with hcc
      have ho : o' = o := by rw [hs, intFits_iff] at hf; exact hf.1
      subst ho
      rw [hs] at hcc hg
      refine (sint_sound hW hs h1 hn ?_ fun p hp => intFits.compatible_signed hf (hP p hp)).mono (fun _ h => h) ?_
      · rintro k rfl _ _
        unfold IntCtx.Returns
        simp only at hg
        split at hg
        · rw [if_pos ‹_›]
          rw [decide_eq_true_iff] at hg
          unfold InRange
          rw [Int.natCast_pow]
          exact hg
        · rw [if_neg ‹_›]
          exact of_decide_eq_true hg
      · rintro q ⟨p, hp, rfl⟩
        rw [← hcc] at hQ
        exact hQ _ (Align.add_holds (hP p hp))
    · simp at hcc
  have hnum : ∀ {W : Nat} {ctx : IntCtx} {v : Val},
      (ctx.isBits || match v with | .num n => decide (n < 2 ^ (ctx.shape m.native W).2.1) | _ => true) = true →
      (ctx.isBits = true ∨ (ctx.shape m.native W).2.1 = 8 * W ∨
        ∀ k : Nat, v = .num k → k < 2 ^ (ctx.shape m.native W).2.1) := by
    intro W ctx v h
    rw [Bool.or_eq_true] at h
    rcases h with h | h
    · exact .inl h
    · refine .inr (.inr ?_)
      rintro k rfl
      have h := of_decide_eq_true h
      have e : ((2 ^ (ctx.shape m.native W).2.1 : Nat) : Int) = 2 ^ (ctx.shape m.native W).2.1 := by
        rw [Int.natCast_pow]; rfl
      rw [← e] at h
      exact Int.ofNat_lt.1 h
  have htext : ∀ {t : Ty} {v : Val}, t.Fits m .msb0 a.holds a.holds {} (.ofList (v.elems ++ [.num 0])) →
      b = a → SoundOn .msb0 P (convCodec (t.codec m {}) textOf textBytes).read
        ((convCodec (t.codec m {}) textOf textBytes).write v) v Q := by
    rintro t v ht rfl
    refine convCodec.sound fun w hw => ?_
    obtain ⟨_, rfl, h⟩ := textOf_textBytes hw
    exact ⟨h, (Ty.sound m .msb0 _ _ _ _ _ ht).mono hP hQ⟩
  cases l with
  | uint W ctx => exact huint hv (hnum hg) hc
  | sint W ctx => exact hsint hv hg hc
  | nonzero W ctx =>
    simp only [Leaf.codec, nonzeroCodec_eq]
    refine convCodec.sound fun x hx => ?_
    obtain ⟨rfl, h0⟩ := nonzeroOf_some hx
    exact ⟨nonzeroOf_of h0, huint hv (hnum hg) hc⟩
  | nonzeroSigned W ctx =>
    simp only [Leaf.codec, nonzeroSignedCodec_eq]
    refine convCodec.sound fun x hx => ?_
    obtain ⟨rfl, h0⟩ := nonzeroOf_some hx
    exact ⟨nonzeroOf_of h0, hsint hv hg hc⟩
  | bool ctx =>
    simp only [Leaf.codec, boolCodec_eq]
    refine convCodec.sound fun x hx => ?_
    obtain ⟨rfl, h01⟩ := boolOf_some hx
    refine ⟨hx, huint hv (.inr (.inr ?_)) hc⟩
    obtain ⟨e, n, o', hs, hW, h1, hn⟩ := uintValid_iff.1 hv
    rw [hs]
    rintro k rfl
    have : 2 ≤ 2 ^ n := Nat.pow_le_pow_right (n := 2) (by omega) h1
    rcases h01 with h | h <;> injection h with h <;> simp only <;> omega
  | cstring =>
    simp only [Leaf.check] at hc
    split at hc
    · rename_i ho
      subst ho
      simp only [Leaf.codec, cstringCodec_eq]
      simp only [Leaf.good, decide_eq_true_iff] at hg
      by_cases hcs : v.isCString = true
      · refine htext ?_ (by simpa using hc.symm)
        simp only [textTy, Ty.Fits, elems_ofList, LimitE.Fits]
        refine ⟨a.holds, fun _ h => h, elems_sound, fun _ h => h, by omega, by simpa using hg, ?_, nofun⟩
        refine firstMatch_until _ _ _ rfl fun x hx => ?_
        simp only [Val.isCString, Bool.and_eq_true, List.all_eq_true, decide_eq_true_iff] at hcs
        exact hcs.2 x hx
      · refine convCodec.sound fun w hw => absurd (textOf_textBytes hw).1 hcs
    · simp at hc
  | cstringSized n =>
    simp only [Leaf.check] at hc
    split at hc
    · rename_i ho
      subst ho
      simp only [Leaf.valid, decide_eq_true_iff] at hv
      simp only [Leaf.codec, cstringSizedCodec_eq m.native m.mem hv]
      simp only [Leaf.good, decide_eq_true_iff] at hg
      refine htext ?_ (by simpa using hc.symm)
      simp only [sizedTextTy, Ty.Fits, elems_ofList, LimitE.Fits]
      refine ⟨a.holds, fun _ h => h, elems_sound, fun _ h => h, by omega, ?_, ?_, nofun⟩
      · rw [List.length_append]; simp; omega
      · rw [List.length_append]
        simp
        omega
    · simp at hc
  | unit =>
    simp only [Leaf.check] at hc
    injection hc with hc
    subst hc
    simp only [Leaf.codec, unitCodec]
    split
    · rename_i h
      subst h
      exact (SoundOn.pure _).mono hP hQ
    · exact SoundOn.of_refuses fun w w' => by simp [M.panic]

/-! ### lists -/

theorem Writes.length {p k : Nat} {g : M Writer Unit} {bits : List Bool} (h : Writes o p g bits)
    (hk : Puts (· = k) g) : bits.length = k := by
  obtain ⟨w, hw, ha⟩ : ∃ w : Writer, w.At o p ∧ w.Appending := by
    have wf : ({ Writer.new {} with leftover := List.replicate (p % 8) false, tag := o } : Writer).WF :=
      ⟨⟨Nat.le_refl _, by simp [Writer.new]⟩, by simp; omega⟩
    refine ⟨{ Writer.new {} with leftover := List.replicate (p % 8) false, tag := o }, ⟨wf, ?_, ?_, ?_⟩, ⟨wf, ?_, ?_⟩⟩
    · exact ⟨rfl, rfl⟩
    · cases o <;> simp [Writer.Ready]
    · simp
    · exact ⟨rfl, rfl⟩
    · rfl
  obtain ⟨w', e, s, _⟩ := h w hw
  obtain ⟨_, n, rfl, ht⟩ := hk w () w' ha e
  have := s.len
  simp only [Writer.total] at ht
  omega

/-- A value of a known size moves the position by it. -/
theorem SoundOn.sized {α : Type} {P Q : Nat → Prop} {f : M Reader α} {g : M Writer Unit} {v : α} {k : Nat}
    (h : SoundOn o P f g v Q) (hk : Puts (· = k) g) : SoundOn o P f g v (shift P k) := by
  intro p w w' hp hw he
  obtain ⟨bits, hW, hR, _⟩ := h p w w' hp hw he
  exact ⟨bits, hW, hR, p, hp, by rw [hW.length hk]⟩

theorem Lim.fits {l : Lim} {env : Env} {vs : List Val} {n : Nat} {sm : Bool} (h : l.good env vs n sm = true)
    {R : Nat → Prop} {len : Nat → Nat → Prop} (hlen : ∀ p k, R p → len p k → k = n) :
    l.toLimit.Fits R len env vs ∧ (l.toLimit.isSize = true → sm = true) := by
  cases l with
  | count e =>
    simp only [Lim.good, decide_eq_true_iff] at h
    exact ⟨h, nofun⟩
  | bytes e =>
    simp only [Lim.good, Bool.and_eq_true, decide_eq_true_iff] at h
    refine ⟨⟨(e.eval env).toNat, by omega, by omega, fun p k hp hk => ?_⟩, fun _ => h.2⟩
    have := hlen p k hp hk
    omega
  | bits e =>
    simp only [Lim.good, Bool.and_eq_true, decide_eq_true_iff] at h
    refine ⟨⟨(e.eval env).toNat, by omega, by omega, fun p k hp hk => ?_⟩, fun _ => h.2⟩
    have := hlen p k hp hk
    omega
  | «until» n =>
    simp only [Lim.good] at h
    cases hr : vs.reverse with
    | nil => rw [hr] at h; simp at h
    | cons x us =>
      rw [hr] at h
      simp only [Bool.and_eq_true, List.all_eq_true, decide_eq_true_iff] at h
      have hvs : vs = us.reverse ++ [x] := by
        rw [← List.reverse_reverse vs, hr, List.reverse_cons]
      refine ⟨?_, nofun⟩
      rw [hvs]
      exact firstMatch_until _ _ _ h.1 fun y hy => h.2 y (List.mem_reverse.1 hy)
  | all => simp [Lim.good] at h

/-! ### ids -/

theorem DVariants.firstMatch_eq (m : Machine) (env : Env) (x : Val) : ∀ (vs : DVariants) (k : Nat),
    (vs.toVariants m).firstMatch env x k = (vs.kinds.findIdx? fun a => a.kind.hits x).map (k + ·)
  | .nil, k => rfl
  | .cons a fs tl, k => by
    simp only [DVariants.toVariants, Variants.firstMatch, DVariants.kinds, List.findIdx?_cons, DVAttrs.toVAttrs]
    rw [DVariants.firstMatch_eq m env x tl]
    by_cases h : a.kind.hits x = true
    · rw [if_pos h, if_pos h]; simp
    · rw [if_neg h, if_neg h, Option.map_map]
      congr 1
      funext i
      simp
      omega

theorem DVariants.defaultAt_eq (m : Machine) : ∀ (vs : DVariants) (k : Nat),
    (vs.toVariants m).defaultAt k = (vs.kinds.findIdx? fun a => a.default).map (k + ·)
  | .nil, k => rfl
  | .cons a fs tl, k => by
    simp only [DVariants.toVariants, Variants.defaultAt, DVariants.kinds, List.findIdx?_cons, DVAttrs.toVAttrs]
    rw [DVariants.defaultAt_eq m tl]
    cases a.default
    · simp only [Bool.false_eq_true, if_false, Option.map_map]
      congr 1
      funext i
      simp
      omega
    · simp

theorem DVariants.select_eq (m : Machine) (env : Env) (x : Val) (vs : DVariants) :
    (vs.toVariants m).select env x = vs.select x := by
  unfold Variants.select DVariants.select
  rw [DVariants.firstMatch_eq, DVariants.defaultAt_eq]
  cases vs.kinds.findIdx? fun a => a.kind.hits x with
  | some i => simp
  | none =>
    cases vs.kinds.findIdx? fun a => a.default <;> simp

/-! ### fields -/

theorem bytesFit_safe {a : Align} (h : bytesFit o a = true) (hP : ∀ p, P p → a.holds p) : ByteSafe o P := by
  simp only [bytesFit, decide_eq_true_iff] at h
  rcases h with h | h
  · exact .inl h
  · exact .inr fun p hp => hP p hp 0 h

theorem DAttrs.fits {m : Machine} {a : DAttrs} {t : Def} {ck : Align → Option Align} {al b : Align} {env : Env} {x : Val}
    (hT : ∀ {P Q : Nat → Prop} {a b env x}, t.good m env x = true → ck a = some b → (∀ p, P p → a.holds p) →
      (∀ p, b.holds p → Q p) → (t.toTy m).Fits m o P Q env x)
    (hg : a.good t.isOption (fun env x => t.good m env x) env x = true)
    (hc : a.check o ck al = some b) (hP : ∀ p, P p → al.holds p) (hQ : ∀ p, b.holds p → Q p) :
    a.toAttrs.Fits o ((t.toTy m).Fits m o) ((t.toTy m).write m) P Q env x := by
  simp only [DAttrs.check] at hc
  split at hc
  · rename_i h
    obtain ⟨hm, hpad⟩ := h
    cases hck : ck (al.add (a.padBefore.getD 0)) with
    | none => rw [hck] at hc; simp at hc
    | some c =>
      rw [hck] at hc
      simp only [Option.some.injEq] at hc
      have hbits : ∀ (pad : Option Nat) (env : Env), padBits (pad.map fun n _ => (n : Int)) env = pad.getD 0 := by
        intro pad env
        cases pad <;> simp [padBits]
      have hsafe : ∀ pad : Option Nat, (pad = a.padBefore ∨ pad = a.padAfter) →
          PadSafe o a.toAttrs.padOrder (pad.map fun n _ => (n : Int)) := by
        intro pad hp
        rcases hpad with ⟨h1, h2⟩ | h
        · rcases hp with rfl | rfl
          · exact .inl (by rw [h1]; rfl)
          · exact .inl (by rw [h2]; rfl)
        · exact .inr h
      refine ⟨rfl, rfl, hm.imp (fun h => h) fun h => bytesFit_safe h hP, hsafe _ (.inl rfl), hsafe _ (.inr rfl), ?_⟩
      generalize hd : (if a.skip = none ∧ a.cond = none then c else c.join (al.add (a.padBefore.getD 0))) = d at hc
      refine ⟨d.holds, ?_, ?_⟩
      · have hP' : ∀ p, shift P (8 * a.toAttrs.magic.length + padBits a.toAttrs.padBefore env) p →
            (al.add (a.padBefore.getD 0)).holds p := by
          rintro _ ⟨p, hp, rfl⟩
          have := Align.add_holds (n := a.padBefore.getD 0) (Align.add_bytes (n := a.magic.length) (hP p hp))
          simp only [DAttrs.toAttrs, hbits]
          rwa [← Nat.add_assoc]
        simp only [DAttrs.good] at hg
        split at hg
        · rename_i hr
          rw [Bool.and_eq_true] at hg
          refine .inl ⟨hr, hg.1, rfl, hT hg.2 hck hP' fun p hp => ?_⟩
          subst hd
          split
          · exact hp
          · exact Align.join_left hp
        · rename_i hr
          rw [Bool.and_eq_true, decide_eq_true_iff, Bool.or_eq_true] at hg
          have hr : a.toAttrs.isRead (env.at 0) = false := by simpa using hr
          refine .inr ⟨hr, hg.1.symm, fun p hp => ?_, fun hw p _ => ?_⟩
          · subst hd
            split
            · rename_i hsc
              have : a.toAttrs.isRead (env.at 0) = true := by
                simp [Attrs.isRead, DAttrs.toAttrs, hsc.1, hsc.2]
              rw [hr] at this; simp at this
            · exact Align.join_right (hP' p hp)
          · rcases hg.2 with h | h
            · rw [hw] at h; simp at h
            · rw [Bool.and_eq_true, decide_eq_true_iff] at h
              rw [h.2]
              cases t with
              | option t =>
                simp only [Def.toTy, Ty.write]
                exact Writes.pure o p
              | _ => simp [Def.isOption] at h
      · rintro _ ⟨p, hp, rfl⟩
        refine hQ _ ?_
        rw [← hc]
        simp only [DAttrs.toAttrs, hbits]
        exact Align.add_holds hp
  · simp at hc

/-! ### definitions -/

theorem shift_bytes {a : Align} (hP : ∀ p, P p → a.holds p) (n : Nat) : ∀ p, shift P (8 * n) p → a.holds p := by
  rintro _ ⟨p, hp, rfl⟩
  exact Align.add_bytes (hP p hp)

mutual

theorem Def.fits (m : Machine) (o : Order) : ∀ (d : Def) (P Q : Nat → Prop) (a b : Align) (env : Env) (v : Val),
    d.valid m.native = true → d.good m env v = true → d.check m.native o a = some b →
    (∀ p, P p → a.holds p) → (∀ p, b.holds p → Q p) → (d.toTy m).Fits m o P Q env v
  | .leaf _ l, P, Q, a, b, env, v, hv, hg, hc, hP, hQ => by
    simp only [Def.valid] at hv
    simp only [Def.good] at hg
    simp only [Def.check] at hc
    simp only [Def.toTy, Ty.Fits]
    exact Leaf.sound hv hg hc hP hQ
  | .option t, P, Q, a, b, env, v, hv, hg, hc, hP, hQ => by
    simp only [Def.valid] at hv
    simp only [Def.good] at hg
    simp only [Def.check] at hc
    simp only [Def.toTy, Ty.Fits]
    split at hg
    · exact ⟨_, rfl, Def.fits m o t P Q a b env _ hv hg hc hP hQ⟩
    · simp at hg
  | .array n t, P, Q, a, b, env, v, hv, hg, hc, hP, hQ => by
    simp only [Def.valid] at hv
    simp only [Def.good, List.all_eq_true] at hg
    simp only [Def.check] at hc
    simp only [Def.toTy, Ty.Fits]
    obtain ⟨c, c', hcc, h1, h2, h3⟩ := Align.loop_some hc
    exact ⟨c.holds, fun p hp => h1 p (hP p hp),
      fun x hx => Def.fits m o t _ _ c c' env x hv (hg x hx) hcc (fun _ h => h) h2, fun p hp => hQ p (h3 p hp)⟩
  | .pair s t, P, Q, a, b, env, v, hv, hg, hc, hP, hQ => by
    simp only [Def.valid, Bool.and_eq_true] at hv
    simp only [Def.good] at hg
    simp only [Def.check] at hc
    simp only [Def.toTy, Ty.Fits]
    split at hg
    · split at hc
      · rename_i c hcs
        rw [Bool.and_eq_true] at hg
        exact ⟨_, _, c.holds, rfl, Def.fits m o s _ _ a c env _ hv.1 hg.1 hcs hP fun _ h => h,
          Def.fits m o t _ _ c b env _ hv.2 hg.2 hc (fun _ h => h) hQ⟩
      · simp at hc
    · simp at hg
  | .vec zst l t, P, Q, a, b, env, v, hv, hg, hc, hP, hQ => by
    simp only [Def.valid] at hv
    simp only [Def.good, Bool.and_eq_true, List.all_eq_true, decide_eq_true_iff, Bool.not_eq_true'] at hg
    simp only [Def.check] at hc
    simp only [Def.toTy, Ty.Fits]
    obtain ⟨⟨⟨hel, hz⟩, hmem⟩, hl⟩ := hg
    obtain ⟨c, c', hcc, h1, h2, h3⟩ := Align.loop_some hc
    have hput := fun x => Def.puts m t env x hv
    obtain ⟨hl1, hl2⟩ := Lim.fits hl (R := c.holds)
      (len := fun p n => ∃ bits, Writes o p (Coll.writeAll ((t.toTy m).write m env) v.elems) bits ∧ bits.length = n)
      (fun p k _ ⟨bits, hw, hk⟩ => hk ▸ hw.length (writeAll_puts_sum hput v.elems))
    refine ⟨c.holds, fun p hp => h1 p (hP p hp),
      fun x hx => Def.fits m o t _ _ c c' env x hv (hel x hx) hcc (fun _ h => h) h2, fun p hp => hQ p (h3 p hp),
      by simp [hz], hmem, hl1, fun hs x hx p bits _ hw => ?_⟩
    have := hl2 hs
    rw [List.all_eq_true] at this
    have := of_decide_eq_true (this x hx)
    rw [← hw.length (hput x)] at this
    intro h
    rw [h] at this
    exact this rfl
  | .bytes n ctx, P, Q, a, b, env, v, hv, hg, hc, hP, hQ => by
    simp only [Def.good, decide_eq_true_iff] at hg
    simp only [Def.check] at hc
    simp only [Def.toTy, Ty.Fits]
    split at hc
    · rename_i h
      injection hc with hc
      subst hc
      exact ⟨hg.1, hg.2, fun p hp => hP p hp 0 h.1, fun p hp => hQ _ (Align.add_bytes (hP p hp)), h.2⟩
    · simp at hc
  | .struct args magic fs, P, Q, a, b, env, v, hv, hg, hc, hP, hQ => by
    simp only [Def.valid] at hv
    simp only [Def.good] at hg
    simp only [Def.check] at hc
    simp only [Def.toTy, Ty.Fits]
    split at hc
    · rename_i h
      exact ⟨trivial, h.imp (fun h => h) fun h => bytesFit_safe h hP,
        DFields.fits m o fs _ Q a b _ v v hv hg hc (shift_bytes hP _) hQ⟩
    · simp at hc
  | .enum args magic id vs, P, Q, a, b, env, v, hv, hg, hc, hP, hQ => by
    simp only [Def.valid, Bool.and_eq_true] at hv
    simp only [Def.good] at hg
    simp only [Def.check] at hc
    simp only [Def.toTy, Ty.Fits]
    split at hc
    · rename_i h
      split at hc
      · rename_i l hvs
        injection hc with hc
        subst hc
        split at hg
        · rename_i i fs
          refine ⟨h.imp (fun h => h) fun h => bytesFit_safe h hP, i, fs, rfl, ?_⟩
          refine DVariants.fits m o id hv.1 _ (fun x => decide (vs.select x = some i)) (fun x hx => ?_)
            vs i _ Q a l _ fs hv.2 hg hvs (shift_bytes hP _) (fun c hcm p hp => hQ p (Align.joins_holds hcm hp))
          rw [DVariants.select_eq]
          exact of_decide_eq_true hx
        · simp at hg
      · simp at hc
    · simp at hc

theorem DFields.fits (m : Machine) (o : Order) :
    ∀ (fs : DFields) (P Q : Nat → Prop) (a b : Align) (env : Env) (all v : Val),
    fs.valid m.native = true → fs.good m env all v = true → fs.check m.native o a = some b →
    (∀ p, P p → a.holds p) → (∀ p, b.holds p → Q p) → (fs.toFields m).Fits m o P Q env all v
  | .nil, P, Q, a, b, env, all, v, hv, hg, hc, hP, hQ => by
    simp only [DFields.check, Option.some.injEq] at hc
    subst hc
    simp only [DFields.toFields, Fields.Fits]
    exact fun p hp => hQ p (hP p hp)
  | .cons at' t tl, P, Q, a, b, env, all, v, hv, hg, hc, hP, hQ => by
    simp only [DFields.valid, Bool.and_eq_true] at hv
    simp only [DFields.good] at hg
    simp only [DFields.check] at hc
    simp only [DFields.toFields, Fields.Fits]
    split at hg
    · split at hc
      · rename_i c hcs
        rw [Bool.and_eq_true] at hg
        exact ⟨_, _, c.holds, rfl,
          DAttrs.fits (fun h1 h2 h3 h4 => Def.fits m o t _ _ _ _ _ _ hv.1 h1 h2 h3 h4) hg.1 hcs hP fun _ h => h,
          DFields.fits m o tl _ _ c b _ _ _ hv.2 hg.2 hc (fun _ h => h) hQ⟩
      · simp at hc
    · simp at hg
  | .temp at' t value tl, P, Q, a, b, env, all, v, hv, hg, hc, hP, hQ => by
    simp only [DFields.valid, Bool.and_eq_true] at hv
    simp only [DFields.good, Bool.and_eq_true] at hg
    simp only [DFields.check] at hc
    simp only [DFields.toFields, Fields.Fits]
    split at hc
    · rename_i c hcs
      exact ⟨_, c.holds, rfl,
        DAttrs.fits (fun h1 h2 h3 h4 => Def.fits m o t _ _ _ _ _ _ hv.1 h1 h2 h3 h4) hg.1 hcs hP fun _ h => h,
        DFields.fits m o tl _ _ c b _ _ _ hv.2 hg.2 hc (fun _ h => h) hQ⟩
    · simp at hc

theorem DFields.fitsStored (m : Machine) (o : Order) {Id : Val → (Nat → Prop) → (Nat → Prop) → Prop}
    {sel : Val → Bool} {c : Align} :
    ∀ (fs : DFields) (P Q : Nat → Prop) (b : Align) (env : Env) (v : Val),
    (∀ x, sel x = true → Id x P c.holds) →
    fs.valid m.native = true → fs.goodStored m sel env v = true → fs.checkStored m.native o c = some b →
    (∀ p, b.holds p → Q p) → (fs.toFields m).FitsStored m o Id P Q env v
  | .nil, P, Q, b, env, v, hid, hv, hg, hc, hQ => by simp [DFields.goodStored] at hg
  | .cons at' t tl, P, Q, b, env, v, hid, hv, hg, hc, hQ => by
    simp only [DFields.valid, Bool.and_eq_true] at hv
    simp only [DFields.goodStored] at hg
    simp only [DFields.checkStored] at hc
    simp only [DFields.toFields, Fields.FitsStored]
    split at hg
    · rw [Bool.and_eq_true] at hg
      exact ⟨_, _, c.holds, rfl, hid _ hg.1, DFields.fits m o tl _ _ c b _ _ _ hv.2 hg.2 hc (fun _ h => h) hQ⟩
    · simp at hg
  | .temp at' t value tl, P, Q, b, env, v, hid, hv, hg, hc, hQ => by simp [DFields.goodStored] at hg

theorem DVariants.fits (m : Machine) (o : Order) (id : DId) (hid : id.valid m.native = true)
    (sel : Val → Prop) (sel' : Val → Bool) (hsel : ∀ x, sel' x = true → sel x) :
    ∀ (vs : DVariants) (i : Nat) (P Q : Nat → Prop) (a : Align) (l : List Align) (env : Env) (v : Val),
    vs.valid m.native id = true → vs.goodAt m sel' id i env v = true → vs.check m.native o id a = some l →
    (∀ p, P p → a.holds p) → (∀ c ∈ l, ∀ p, c.holds p → Q p) →
    (vs.toVariants m).FitsAt m o sel (id.toSrc m) (id.store m) i P Q env v
  | .nil, i, P, Q, a, l, env, v, hv, hg, hc, hP, hQ => by simp [DVariants.goodAt] at hg
  | .cons va fs tl, i, P, Q, a, l, env, v, hv, hg, hc, hP, hQ => by
    simp only [DVariants.valid, Bool.and_eq_true] at hv
    obtain ⟨⟨hk, hf⟩, ht⟩ := hv
    simp only [DVariants.check] at hc
    split at hc
    · rename_i b l' hb hl
      injection hc with hc
      subst hc
      cases i with
      | succ i =>
        simp only [DVariants.goodAt] at hg
        simp only [DVariants.toVariants, Variants.FitsAt]
        exact DVariants.fits m o id hid sel sel' hsel tl i P Q a l' env v ht hg hl hP
          fun c hcm => hQ c (List.mem_cons_of_mem _ hcm)
      | zero =>
        have hQ := hQ b List.mem_cons_self
        simp only [DVariants.goodAt] at hg
        simp only [DVariants.toVariants, Variants.FitsAt, DVAttrs.toVAttrs]
        cases id with
        | arg e =>
          simp only [DId.allows, Bool.not_eq_true'] at hk
          simp only [Bool.and_eq_true] at hg
          simp only [DId.toSrc]
          exact ⟨hsel _ hg.1, .inl ⟨.inl hk, DFields.fits m o fs P Q a b env v v hf hg.2 hb hP hQ⟩⟩
        | typed size W ctx store =>
          simp only [DId.valid, Bool.and_eq_true] at hid
          simp only [DId.toSrc]
          simp only at hb
          split at hb
          · rename_i c hcc
            have hstored : fs.goodStored m (fun x => sel' x && (Leaf.uint W ctx).good m x) env v = true →
                (if store = ctx then fs.checkStored m.native o c else none) = some b →
                Fields.FitsStored m o (fun x P R => sel x ∧ SoundOn o P (uintCodec m.native W ctx).read
                  (DId.store m (.typed size W ctx store) env x) x R) (fs.toFields m) P Q env v := by
              intro hg hb'
              split at hb'
              · rename_i hst
                subst hst
                refine DFields.fitsStored m o fs P Q b env v (fun x hx => ?_) hf hg hb' hQ
                rw [Bool.and_eq_true] at hx
                exact ⟨hsel _ hx.1, Leaf.sound (l := .uint W store) hid.1 hx.2 hcc hP fun _ h => h⟩
              · simp at hb'
            cases hkind : va.kind with
            | id n =>
              rw [hkind] at hg hb
              simp only [Bool.and_eq_true] at hg
              simp only [VKind.isPat, Bool.false_eq_true, if_false] at hb
              refine .inl ⟨.inl rfl, _, c.holds, rfl, hsel _ hg.1.1, ?_, ?_⟩
              · exact Leaf.sound (l := .uint W ctx) hid.1 hg.1.2 hcc hP fun _ h => h
              · exact DFields.fits m o fs _ Q c b env v v hf hg.2 hb (fun _ h => h) hQ
            | any =>
              rw [hkind] at hg hb
              simp only [VKind.isPat, if_true] at hb
              exact .inr ⟨rfl, rfl, hstored hg hb⟩
            | range lo hi =>
              rw [hkind] at hg hb
              simp only [VKind.isPat, if_true] at hb
              exact .inr ⟨rfl, rfl, hstored hg hb⟩
          · simp at hb
    · simp at hc

end

end Deku
