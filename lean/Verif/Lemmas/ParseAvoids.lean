import Verif.Lemmas.Parse
import Verif.Spec.Faithful

/-! # What is never the reason -/

namespace Deku

open Parser

variable {α β : Type} {o : Order} {w : Why}

/-- This is never why there is no value. -/
def Parser.Avoids (w : Why) (q : Parser α) : Prop := ∀ k l, q k l ≠ .no w

theorem Parser.Avoids.pure (a : α) : (Pure.pure a : Parser α).Avoids w := fun _ _ => nofun

theorem Parser.Avoids.unclear : (Parser.unclear : Parser α).Avoids w := fun _ _ => nofun

theorem Parser.Avoids.fail {w' : Why} (h : w' ≠ w) : (Parser.fail w' : Parser α).Avoids w :=
  fun _ _ e => h (Verdict.no.inj e)

theorem Parser.Avoids.bind {q : Parser α} {f : α → Parser β} (hq : q.Avoids w) (hf : ∀ a, (f a).Avoids w) :
    (q >>= f).Avoids w := by
  intro k l
  rw [Parser.bind_run]
  have := hq k l
  cases h : q k l with
  | ok a k' l' => exact hf a k' l'
  | no w' => exact fun e => this (h.trans (show Verdict.no w' = _ from Verdict.no.inj e ▸ rfl))
  | unclear => nofun

theorem Parser.Avoids.guard {w' : Why} {b : Bool} (h : w' ≠ w) : (Parser.guard w' b).Avoids w := by
  cases b
  · exact Avoids.fail h
  · exact Avoids.pure ()

theorem Parser.Avoids.provided (b : Bool → List Bool → Bool) : (Parser.provided b).Avoids w := by
  intro k l
  unfold Parser.provided
  split <;> nofun

theorem Parser.Avoids.inOrder (o' : Order) (whole : Bool) : (Parser.inOrder o o' whole).Avoids w := Avoids.provided _

theorem Parser.Avoids.left : Parser.left.Avoids w := fun _ _ => nofun

theorem Parser.Avoids.take (h : w ≠ .short) (n : Nat) : (Parser.take n).Avoids w := by
  intro k l
  unfold Parser.take
  split
  · nofun
  · exact fun e => h (Verdict.no.inj e).symm

theorem Parser.Avoids.size {w' : Why} (h : w' ≠ w) (n : Int) : (Parser.size w' n).Avoids w :=
  (Avoids.guard h).bind fun _ => Avoids.pure _

theorem Parser.Avoids.octet (h : w ≠ .short) : (Parser.octet o).Avoids w := (Avoids.take h 8).bind fun _ => Avoids.pure _

theorem Parser.Avoids.byte (h : w ≠ .short) : (Parser.byte o).Avoids w :=
  (Avoids.inOrder _ _).bind fun _ => Avoids.octet h

theorem Parser.Avoids.times {q : Parser α} (h : q.Avoids w) : ∀ n, (q.times n).Avoids w
  | 0 => Avoids.pure _
  | n + 1 => h.bind fun _ => (Avoids.times h n).bind fun _ => Avoids.pure _

theorem Parser.Avoids.upTo {q : Parser α} (h : q.Avoids w) (hw : w ≠ .panic) (last : α → Nat → Bool) (start : Nat) :
    ∀ n, (q.upTo last start n).Avoids w
  | 0 => h.bind fun _ => Avoids.fail hw.symm
  | n + 1 => h.bind fun v => Avoids.left.bind fun a => by
    split
    · exact Avoids.pure _
    · exact (Avoids.upTo h hw last start n).bind fun _ => Avoids.pure _

theorem Parser.Avoids.toEnd {q : Parser α} (h : q.Avoids w) (hw : w ≠ .panic) : ∀ n, (q.toEnd n).Avoids w
  | 0 => Avoids.bind (fun _ _ => nofun) fun b => by
    cases b
    · exact h.bind fun _ => Avoids.fail hw.symm
    · exact Avoids.pure _
  | n + 1 => Avoids.bind (fun _ _ => nofun) fun b => by
    cases b
    · exact h.bind fun _ => (Avoids.toEnd h hw n).bind fun _ => Avoids.pure _
    · exact Avoids.pure _

/-- These have to do with paddings. -/
def Why.OfPadding (w : Why) : Prop := w = .beyond ∨ w = .invalidParam

local macro "of_padding" h:ident : tactic => `(tactic| (rcases $h:ident with e | e <;> rw [e] <;> decide))

theorem magic_avoids (hw : w.OfPadding) : ∀ magic : List Byte, (magicParse o magic).Avoids w
  | [] => Avoids.pure _
  | _ :: bs => (Avoids.byte (by of_padding hw)).bind fun _ => (Avoids.guard (by of_padding hw)).bind fun _ =>
    magic_avoids hw bs

theorem int_avoids (hw : w.OfPadding) (args : List Arg) (W : Nat) : (intParse o args W).Avoids w :=
  (Avoids.inOrder _ _).bind fun _ => Avoids.take (by of_padding hw) _

theorem string_avoids (hw : w.OfPadding) (bs : List Byte) : (stringParse bs).Avoids w :=
  (Avoids.guard (by of_padding hw)).bind fun _ => Avoids.pure _

theorem base_avoids (hw : w.OfPadding) (m : Machine) (args : List Arg) (b : Base) : (b.parse o m args).Avoids w := by
  cases b with
  | uint W => exact (int_avoids hw args W).bind fun _ => Avoids.pure _
  | sint W => exact (int_avoids hw args W).bind fun _ => Avoids.pure _
  | nonzero W => exact (int_avoids hw args W).bind fun _ => (Avoids.guard (by of_padding hw)).bind fun _ => Avoids.pure _
  | nonzeroSigned W =>
    exact (int_avoids hw args W).bind fun _ => (Avoids.guard (by of_padding hw)).bind fun _ => Avoids.pure _
  | bool => exact (int_avoids hw args 1).bind fun _ => (Avoids.guard (by of_padding hw)).bind fun _ => Avoids.pure _
  | cstring =>
    have hb : (Parser.byte o).Avoids w := Avoids.byte (by of_padding hw)
    unfold Base.parse
    dsimp only
    cases sizeOf? args with
    | none => exact (hb.upTo (by of_padding hw) _ _ _).bind (string_avoids hw)
    | some n => exact (Avoids.guard (by of_padding hw)).bind fun _ => (hb.times _).bind (string_avoids hw)
  | unit => exact Avoids.pure _

theorem lim_avoids (hw : w.OfPadding) (mem : Nat) (zst : Bool) (env : Env) {q : Parser Val} (h : q.Avoids w) (l : Lim) :
    (l.parse mem zst env q).Avoids w := by
  have sized : ∀ (n : Nat) (b : Bool), (if b then Pure.pure [] else
      Parser.left >>= fun start => q.upTo (fun _ j => decide (j = n)) start mem : Parser (List Val)).Avoids w := by
    intro n b
    cases b
    · exact Avoids.left.bind fun _ => h.upTo (by of_padding hw) _ _ _
    · exact Avoids.pure _
  cases l with
  | count e =>
    refine (Avoids.size (by of_padding hw) _).bind fun n => ?_
    cases zst
    · exact (Avoids.guard (by of_padding hw)).bind fun _ => h.times _
    · exact Avoids.pure _
  | bytes e =>
    exact (Avoids.size (by of_padding hw) _).bind fun n => (Avoids.size (by of_padding hw) _).bind fun n => sized n _
  | bits e => exact (Avoids.size (by of_padding hw) _).bind fun n => sized n _
  | «until» n =>
    cases zst
    · exact h.upTo (by of_padding hw) _ _ _
    · exact Avoids.pure _
  | all =>
    cases zst
    · exact h.toEnd (by of_padding hw) _
    · exact Avoids.pure _

theorem byteVec_avoids (hw : w.OfPadding) (args : List Arg) (env : Env) (n : Expr) : (bytesParse o args env n).Avoids w :=
  (Avoids.provided _).bind fun _ => (Avoids.size (by of_padding hw) _).bind fun _ => (Avoids.inOrder _ _).bind fun _ =>
    Avoids.left.bind fun _ => (Avoids.guard (by of_padding hw)).bind fun _ =>
      ((Avoids.octet (by of_padding hw)).times _).bind fun _ => Avoids.pure _

theorem attrs_avoids (hw : w.OfPadding) {a : SAttrs} (ha : a.padless = true) (order : Option Order) (dflt : Option Val)
    {q : Parser Val} (hq : q.Avoids w) (env : Env) : (a.parse o order dflt q env).Avoids w := by
  simp only [SAttrs.padless, Bool.and_eq_true] at ha
  obtain ⟨⟨⟨h1, h2⟩, h3⟩, h4⟩ := ha
  unfold SAttrs.parse
  rw [show padParse o order a.padBitsBefore a.padBytesBefore = Pure.pure () by unfold padParse; rw [h1, h2]; rfl,
    show padParse o order a.padBitsAfter a.padBytesAfter = Pure.pure () by unfold padParse; rw [h3, h4]; rfl]
  refine (magic_avoids hw _).bind fun _ => (Avoids.pure _).bind fun _ => Avoids.bind ?_ fun v =>
    (Avoids.guard (by of_padding hw)).bind fun _ => (Avoids.pure _).bind fun _ => Avoids.pure _
  split
  · exact hq
  · split
    · exact Avoids.pure _
    · exact Avoids.unclear

mutual

theorem STy.parse_avoids (hw : w.OfPadding) (m : Machine) : ∀ (t : STy) (lims : List Lim) (args : List Arg) (env : Env),
    t.padless = true → (t.parse o m lims args env).Avoids w
  | .base b, lims, args, env, _ => by rw [STy.parse]; exact base_avoids hw m args b
  | .option t, lims, args, env, h => by
    rw [STy.padless] at h
    rw [STy.parse]
    exact (STy.parse_avoids hw m t lims args env h).bind fun _ => Avoids.pure _
  | .array n t, lims, args, env, h => by
    rw [STy.padless] at h
    rw [STy.parse]
    exact ((STy.parse_avoids hw m t lims args env h).times n).bind fun _ => Avoids.pure _
  | .pair a b, lims, args, env, h => by
    rw [STy.padless, Bool.and_eq_true] at h
    rw [STy.parse]
    exact (STy.parse_avoids hw m a lims args env h.1).bind fun _ =>
      (STy.parse_avoids hw m b lims args env h.2).bind fun _ => Avoids.pure _
  | .vec z t, lims, args, env, h => by
    rw [STy.padless] at h
    rw [STy.parse.eq_def]
    dsimp only
    split
    · exact (lim_avoids hw _ _ _ (STy.parse_avoids hw m t [] args env h) _).bind fun _ => Avoids.pure _
    · exact Avoids.unclear
  | .struct c fs, lims, args, env, h => by
    rw [STy.padless] at h
    rw [STy.parse]
    exact (magic_avoids hw _).bind fun _ => SFields.parse_avoids hw m c fs _ _ h
  | .enum c id vs, lims, args, env, h => by
    rw [STy.padless] at h
    rw [STy.parse]
    refine (magic_avoids hw _).bind fun _ => Avoids.bind ?_ fun n => ?_
    · cases id with
      | ctx e => exact Avoids.pure _
      | typed W e bits bytes => exact (int_avoids hw _ _).bind fun _ => Avoids.pure _
    · cases vs.choose n with
      | none => exact Avoids.fail (by of_padding hw)
      | some i => exact (SVariants.parseAt_avoids hw m c vs _ _ _ n i h).bind fun _ => Avoids.pure _

theorem SFields.parse_avoids (hw : w.OfPadding) (m : Machine) (c : Container) : ∀ (fs : SFields) (sc : List Arg) (env : Env),
    fs.padless = true → (fs.parse o m c sc env).Avoids w
  | .nil, sc, env, _ => by rw [SFields.parse]; exact Avoids.pure _
  | .cons a t tl, sc, env, h => by
    rw [SFields.padless, Bool.and_eq_true, Bool.and_eq_true] at h
    rw [SFields.parse]
    refine (attrs_avoids hw h.1.1 _ _ ?_ _).bind fun v => (SFields.parse_avoids hw m c tl sc _ h.2).bind fun _ => Avoids.pure _
    split
    · exact byteVec_avoids hw _ _ _
    · exact STy.parse_avoids hw m t _ _ env h.1.2

theorem SVariants.parseAt_avoids (hw : w.OfPadding) (m : Machine) (c : Container) : ∀ (vs : SVariants) (sc : List Arg)
    (typed : Bool) (env : Env) (n : Int) (i : Nat), vs.padless = true → (vs.parseAt o m c sc typed env n i).Avoids w
  | .nil, sc, typed, env, n, i, _ => by rw [SVariants.parseAt]; exact Avoids.fail (by of_padding hw)
  | .cons a fs tl, sc, typed, env, n, i + 1, h => by
    rw [SVariants.padless, Bool.and_eq_true] at h
    rw [SVariants.parseAt]
    exact SVariants.parseAt_avoids hw m c tl sc typed env n i h.2
  | .cons a fs tl, sc, typed, env, n, 0, h => by
    rw [SVariants.padless, Bool.and_eq_true] at h
    rw [SVariants.parseAt]
    split
    · exact SFields.parseStored_avoids hw m c fs sc env n h.1
    · exact SFields.parse_avoids hw m c fs sc env h.1

theorem SFields.parseStored_avoids (hw : w.OfPadding) (m : Machine) (c : Container) : ∀ (fs : SFields) (sc : List Arg)
    (env : Env) (n : Int), fs.padless = true → (fs.parseStored o m c sc env n).Avoids w
  | .nil, sc, env, n, _ => by rw [SFields.parseStored]; exact Avoids.fail (by of_padding hw)
  | .cons a t tl, sc, env, n, h => by
    rw [SFields.padless, Bool.and_eq_true, Bool.and_eq_true] at h
    rw [SFields.parseStored]
    exact (SFields.parse_avoids hw m c tl sc _ h.2).bind fun _ => Avoids.pure _

end

end Deku
