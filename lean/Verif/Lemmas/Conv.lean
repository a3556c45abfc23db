import Verif.Model.Leaves
import Verif.Lemmas.Leaves
import Verif.Lemmas.Locality
import Verif.Lemmas.Canon
import Verif.Lemmas.Safe
import Verif.Lemmas.Size
import Verif.Lemmas.Quiet
import Verif.Lemmas.Offset
import Verif.Lemmas.NoSeek
import Verif.Lemmas.Truncate

/-!
# Types that are read and written as values of another type

`bool` as `u8`, `NonZero` as the integer, `CString` as `Vec<u8>`: after reading, the value is converted or
refused; before writing, it is converted back.
-/

namespace Deku

/-- The value converted, or a `Parse` error. -/
def convert (f : Val → Option Val) (v : Val) : M Reader Val :=
  match f v with
  | some x => pure x
  | none => M.throw .parse

/-- Conversion by `f` after reading, by `g` before writing. -/
def convCodec (c : Codec) (f g : Val → Option Val) : Codec where
  read := c.read >>= convert f
  write x := match g x with
    | some v => c.write v
    | none => M.panic

namespace convCodec

variable {o : Order} {P Q : Nat → Prop} {c : Codec} {f g : Val → Option Val}

theorem write_some {x v : Val} (h : g x = some v) : (convCodec c f g).write x = c.write v := by
  simp only [convCodec, h]

theorem write_none {x : Val} (h : g x = none) : (convCodec c f g).write x = M.panic := by
  simp only [convCodec, h]

theorem convert_some {v x : Val} (h : f v = some x) : convert f v = pure x := by simp only [convert, h]

theorem sound {x : Val} (hg : ∀ v, g x = some v → f v = some x ∧ SoundOn o P c.read (c.write v) v Q) :
    SoundOn o P (convCodec c f g).read ((convCodec c f g).write x) x Q := by
  cases h : g x with
  | none =>
    rw [write_none h]
    exact SoundOn.of_refuses fun w w' => by simp [M.panic]
  | some v =>
    obtain ⟨hf, hs⟩ := hg v h
    rw [write_some h]
    intro p w w' hp hw he
    obtain ⟨bits, hW, hR, hq⟩ := hs p w w' hp hw he
    refine ⟨bits, hW, fun r tl hr hu => ?_, hq⟩
    obtain ⟨r', e, s⟩ := hR r tl hr hu
    refine ⟨r', ?_, s⟩
    show (c.read >>= convert f) r = _
    rw [M.bind_ok e, convert_some hf]
    rfl

theorem follows {fixed : Bool} (h : Follows fixed c.read) : Follows fixed (convCodec c f g).read :=
  h.bind fun v => by
    unfold convert
    split
    · exact .pure _
    · exact .throw _

theorem local' {R Q : Val → Nat → Prop} (h : LocalOn o P c.read R)
    (hQ : ∀ v x q, f v = some x → R v q → Q x q) : LocalOn o P (convCodec c f g).read Q :=
  h.bind fun v => by
    unfold convert
    split
    · exact .pure _ fun p hp => hQ _ _ _ ‹_› hp
    · exact .throw _

theorem canon {pk : Bool} {R Q : Val → Nat → Prop} (h : CanonOn o pk P c.read c.write R)
    (hg : ∀ v x q, f v = some x → R v q → g x = some v ∧ Q x q) :
    CanonOn o pk P (convCodec c f g).read (convCodec c f g).write Q := by
  intro p r x r2 hp hr hpk he
  obtain ⟨v, r1, e1, e2⟩ := M.bind_eq_ok he
  obtain ⟨n, hn, hs, hw, hq⟩ := h p r v r1 hp hr hpk e1
  cases hx : f v with
  | some y =>
    rw [convert_some hx] at e2
    simp at e2
    obtain ⟨rfl, rfl⟩ := e2
    obtain ⟨h1, h2⟩ := hg _ _ _ hx hq
    exact ⟨n, hn, hs, by rw [write_some h1]; exact hw, h2⟩
  | none =>
    simp only [convert, hx, M.throw] at e2
    simp at e2

theorem panicless {len : Nat} {s t : Stage} {R R' : Val → Prop} (h : Panicless len s c.read t R)
    (hR : ∀ v x, f v = some x → R v → R' x) : Panicless len s (convCodec c f g).read t R' :=
  h.bind fun v hv => by
    unfold convert
    split
    · exact .pure (hR _ _ ‹_› hv)
    · exact .throw

theorem convert_moves (v : Val) : Moves (convert f v) := by
  unfold convert
  split
  · exact .pure _
  · exact .throw _

theorem moves (h : Moves c.read) : Moves (convCodec c f g).read := h.bind convert_moves

theorem eats (h : Eats c.read) (hm : Moves c.read) : Eats (convCodec c f g).read :=
  h.bind_left hm convert_moves

theorem uses {S : Nat → Prop} (h : Uses (fun _ => S) c.read) : Uses (fun _ => S) (convCodec c f g).read := by
  refine Uses.mono (Uses.bind (T := fun _ _ => (· = 0)) h fun v => ?_) ?_
  · unfold convert
    split
    · exact .pure rfl
    · exact .throw _
  · rintro _ n ⟨_, i, j, h1, h2, rfl⟩
    subst h2
    exact h1

theorem puts {S : Nat → Prop} (h : ∀ v, Puts S (c.write v)) (x : Val) : Puts S ((convCodec c f g).write x) := by
  cases hg : g x with
  | none => rw [write_none hg]; exact .panic
  | some v => rw [write_some hg]; exact h v

theorem measures {k : Nat} (h : c.Measures k) : (convCodec c f g).Measures k := ⟨uses h.1, puts h.2⟩

theorem quiet {x v : Val} (hg : g x = some v) (h : Quiet (c.write v)) : Quiet ((convCodec c f g).write x) := by
  rw [write_some hg]; exact h

theorem tracks (h : ∀ v, Tracks (c.write v)) (x : Val) : Tracks ((convCodec c f g).write x) := by
  cases hg : g x with
  | none => rw [write_none hg]; exact .panic
  | some v => rw [write_some hg]; exact h v

theorem notices {inside : Bool} (h : Notices inside c.read) : Notices inside (convCodec c f g).read :=
  h.bind fun v => by
    unfold convert
    split
    · exact .pure _
    · exact .throw _

theorem onSrc {ψ : Src → Src} (h : Commutes (Reader.onSrc ψ) c.read) :
    Commutes (Reader.onSrc ψ) (convCodec c f g).read :=
  h.bind fun v => by
    unfold convert
    split
    · exact .pure _
    · exact .throw _

theorem onSink {ψ : Sink → Sink} (h : ∀ v, Commutes (Writer.onSink ψ) (c.write v)) (x : Val) :
    Commutes (Writer.onSink ψ) ((convCodec c f g).write x) := by
  cases hg : g x with
  | none => rw [write_none hg]; exact .panic
  | some v => rw [write_some hg]; exact h v

end convCodec

/-! ### `bool` and `NonZero` -/

/-- `v == 0x01`, `v == 0x00`. -/
def boolOf (v : Val) : Option Val := if v = .num 1 ∨ v = .num 0 then some v else none

theorem boolOf_some {v x : Val} (h : boolOf v = some x) : x = v ∧ (v = .num 0 ∨ v = .num 1) := by
  unfold boolOf at h
  split at h
  · exact ⟨(Option.some.inj h).symm, ‹_ ∨ _›.symm⟩
  · simp at h

theorem boolCodec_eq (native : Endian) (ctx : IntCtx) :
    boolCodec native ctx = convCodec (uintCodec native 1 ctx) boolOf boolOf := by
  simp only [boolCodec, convCodec]
  congr 1
  · funext r
    simp only [uintCodec, Coll.boolRead, M.bind_assoc_run]
    rcases h : Prim.readUnsigned native 1 ctx r with ⟨k | _ | _, r1⟩
    · rw [M.bind_ok h, M.bind_ok h, M.pure_bind_run]
      by_cases h1 : k = 1
      · subst h1; rfl
      · by_cases h0 : k = 0
        · subst h0; rfl
        · rw [if_neg h1, if_neg h0]
          have : boolOf (.num (k : Int)) = none := by
            unfold boolOf
            rw [if_neg]
            rintro (h | h) <;> injection h with h <;> omega
          simp only [convert, this]
          rfl
    · rw [M.bind_err h, M.bind_err h]
    · rw [M.bind_panic h, M.bind_panic h]
  · funext v
    by_cases h1 : v = .num 1
    · subst h1
      rfl
    · by_cases h0 : v = .num 0
      · subst h0
        rfl
      · rw [if_neg h1, if_neg h0]
        have : boolOf v = none := by
          unfold boolOf
          rw [if_neg (by rintro (h | h) <;> contradiction)]
        rw [this]

/-- `NonZero::new`. -/
def nonzeroOf (v : Val) : Option Val := if v = .num 0 then none else some v

theorem nonzeroOf_some {v x : Val} (h : nonzeroOf v = some x) : x = v ∧ v ≠ .num 0 := by
  unfold nonzeroOf at h
  split at h
  · simp at h
  · exact ⟨(Option.some.inj h).symm, ‹_›⟩

theorem nonzeroOf_of {v : Val} (h : v ≠ .num 0) : nonzeroOf v = some v := if_neg h

theorem nonzeroCodec_eq (native : Endian) (W : Nat) (ctx : IntCtx) :
    nonzeroCodec native W ctx = convCodec (uintCodec native W ctx) nonzeroOf nonzeroOf := by
  simp only [nonzeroCodec, convCodec]
  congr 1
  · funext r
    simp only [uintCodec, Coll.nonzeroRead, M.bind_assoc_run]
    rcases h : Prim.readUnsigned native W ctx r with ⟨k | _ | _, r1⟩
    · rw [M.bind_ok h, M.bind_ok h, M.pure_bind_run]
      by_cases h0 : k = 0
      · subst h0; rfl
      · rw [if_neg h0]
        have : nonzeroOf (.num (k : Int)) = some (.num k) :=
          nonzeroOf_of (by intro h; injection h with h; omega)
        simp only [convert, this]
        rfl
    · rw [M.bind_err h, M.bind_err h]
    · rw [M.bind_panic h, M.bind_panic h]
  · funext v
    by_cases h0 : v = .num 0
    · subst h0; rfl
    · rw [if_neg h0, nonzeroOf_of h0]

theorem nonzeroSignedCodec_eq (native : Endian) (W : Nat) (ctx : IntCtx) :
    nonzeroSignedCodec native W ctx = convCodec (sintCodec native W ctx) nonzeroOf nonzeroOf := by
  simp only [nonzeroSignedCodec, convCodec]
  congr 1
  · funext r
    simp only [sintCodec, Coll.nonzeroRead, M.bind_assoc_run]
    rcases h : Prim.readSigned native W ctx r with ⟨k | _ | _, r1⟩
    · rw [M.bind_ok h, M.bind_ok h, M.pure_bind_run]
      by_cases h0 : k = 0
      · subst h0; rfl
      · rw [if_neg h0]
        have : nonzeroOf (.num k) = some (.num k) :=
          nonzeroOf_of (by intro h; injection h with h; contradiction)
        simp only [convert, this]
        rfl
    · rw [M.bind_err h, M.bind_err h]
    · rw [M.bind_panic h, M.bind_panic h]
  · funext v
    by_cases h0 : v = .num 0
    · subst h0; rfl
    · rw [if_neg h0, nonzeroOf_of h0]

end Deku
