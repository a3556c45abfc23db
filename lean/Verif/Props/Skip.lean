import Verif.Lemmas.Monad
import Verif.Lemmas.Examples
import Verif.Spec.Skip

/-!
# C54: `skip` leaves out exactly the directions it names
-/

namespace Deku

variable {a : Attrs} {native : Endian} {env : Env}

theorem isRead_of_skipped (h : a.Skipped .reading env) : a.isRead env = false := by
  obtain ⟨s, hs, hn, hc⟩ := h
  unfold Attrs.isRead
  rw [hs]
  cases hcond : a.cond with
  | none => cases s <;> simp [SkipMode.Names] at hn ⊢
  | some c => cases s <;> simp [SkipMode.Names, hc c hcond] at hn ⊢

theorem isWritten_of_skipped (h : a.Skipped .writing env) : a.isWritten env = false := by
  obtain ⟨s, hs, hn, hc⟩ := h
  unfold Attrs.isWritten
  rw [hs]
  cases hcond : a.cond with
  | none => cases s <;> simp [SkipMode.Names] at hn ⊢
  | some c => cases s <;> simp [SkipMode.Names, hc c hcond] at hn ⊢

theorem isRead_of_not_skipped (hs : a.skip ≠ none) (h : ¬ a.Skipped .reading env) : a.isRead env = true := by
  unfold Attrs.isRead
  unfold Attrs.Skipped at h
  cases hskip : a.skip with
  | none => exact absurd hskip hs
  | some s =>
    cases hcond : a.cond with
    | none => cases s <;> simp [SkipMode.Names, hskip, hcond] at h ⊢
    | some c => cases s <;> simp [SkipMode.Names, hskip, hcond] at h ⊢ <;> exact h

theorem isWritten_of_not_skipped (h : ¬ a.Skipped .writing env) : a.isWritten env = true := by
  unfold Attrs.isWritten
  unfold Attrs.Skipped at h
  cases hskip : a.skip with
  | none => rfl
  | some s =>
    cases hcond : a.cond with
    | none => cases s <;> simp [SkipMode.Names, hskip, hcond] at h ⊢
    | some c => cases s <;> simp [SkipMode.Names, hskip, hcond] at h ⊢ <;> exact h

/-- **C54.** A field that is skipped when reading takes its default value; its type reads nothing. -/
theorem C54_skipped_is_not_read (rd : Env → M Reader Val) (r : Reader) (ha : a.Plain)
    (h : ∀ off, a.Skipped .reading (env.at off)) (hm : ∀ off, a.Meets (env.at off) (a.default (env.at off))) :
    a.read native rd env r = (.ok (a.default (env.at (if a.usesOffset then r.bitsRead else 0))), r) := by
  obtain ⟨h1, h2, h3, h4⟩ := ha
  simp only [Attrs.read, h1, h2, h3, h4, seekRead, magicRead, padRead, M.pure_bind, M.get_bind_run]
  generalize (if a.usesOffset then r.bitsRead else 0) = off
  have hr := isRead_of_skipped (h off)
  obtain ⟨hm1, hm2⟩ := hm off
  cases he : a.assertEq (env.at off) with
  | none => simp [Attrs.value, hr, Attrs.check, hm1, he, M.bind_def, M.pure_run]
  | some x =>
    rw [hm2 x he] at hm1
    simp [Attrs.value, hr, Attrs.check, hm1, he, hm2 x he, M.bind_def, M.pure_run]

/-- **C54.** Whatever other attributes the field has, its type is not asked to read. -/
theorem C54_skipped_type_is_not_used_reading (rd rd' : Env → M Reader Val)
    (h : ∀ off, a.Skipped .reading (env.at off)) : a.read native rd env = a.read native rd' env := by
  have hv : ∀ off, a.value rd (env.at off) = a.value rd' (env.at off) := fun off => by
    simp [Attrs.value, isRead_of_skipped (h off)]
  simp only [Attrs.read, hv]

/-- **C54.** A field that is skipped when writing leaves the writer as it is. -/
theorem C54_skipped_is_not_written (wr : Env → Val → M Writer Unit) (v : Val) (w : Writer) (ha : a.Plain)
    (h : ∀ off, a.Skipped .writing (env.at off)) (hm : ∀ off, a.Meets (env.at off) v) :
    a.write native wr env v w = (.ok (), w) := by
  obtain ⟨h1, h2, h3, h4⟩ := ha
  simp only [Attrs.write, h1, h2, h3, h4, seekWrite, magicWrite, Coll.writeAll, padWrite, M.pure_bind,
    M.get_bind_run]
  generalize (if a.usesOffset then w.bitsWritten else 0) = off
  have hr := isWritten_of_skipped (h off)
  obtain ⟨hm1, hm2⟩ := hm off
  cases he : a.assertEq (env.at off) with
  | none => simp [Attrs.put, hr, Attrs.check, hm1, he, M.bind_def, M.pure_run]
  | some x =>
    rw [hm2 x he] at hm1
    simp [Attrs.put, hr, Attrs.check, hm1, he, hm2 x he, M.bind_def, M.pure_run]

/-- **C54.** Whatever other attributes the field has, its type is not asked to write. -/
theorem C54_skipped_type_is_not_used_writing (wr wr' : Env → Val → M Writer Unit) (v : Val)
    (h : ∀ off, a.Skipped .writing (env.at off)) : a.write native wr env v = a.write native wr' env v := by
  have hv : ∀ off, a.put wr (env.at off) v = a.put wr' (env.at off) v := fun off => by
    simp [Attrs.put, isWritten_of_skipped (h off)]
  simp only [Attrs.write, hv]

/-- **C54.** A field with `skip` that is not skipped when reading is read as if it had neither `skip`
nor `cond`. -/
theorem C54_otherwise_read_as_usual (rd : Env → M Reader Val) (hs : a.skip ≠ none)
    (h : ∀ off, ¬ a.Skipped .reading (env.at off)) : a.read native rd env = a.always.read native rd env := by
  have hv : ∀ off, a.value rd (env.at off) = a.always.value rd (env.at off) := fun off => by
    have h1 := isRead_of_not_skipped hs (h off)
    have h2 : a.always.isRead (env.at off) = true := rfl
    simp only [Attrs.value, h1, h2]
    rfl
  simp only [Attrs.read, hv]
  rfl

/-- **C54.** A field that is not skipped when writing is written as if it had neither `skip` nor
`cond`. -/
theorem C54_otherwise_written_as_usual (wr : Env → Val → M Writer Unit) (v : Val)
    (h : ∀ off, ¬ a.Skipped .writing (env.at off)) :
    a.write native wr env v = a.always.write native wr env v := by
  have hv : ∀ off, a.put wr (env.at off) v = a.always.put wr (env.at off) v := fun off => by
    have h1 := isWritten_of_not_skipped (h off)
    have h2 : a.always.isWritten (env.at off) = true := rfl
    simp only [Attrs.put, h1, h2]
    rfl
  simp only [Attrs.write, hv]
  rfl

namespace Example

/-- `#[deku(skip(read), cond = "*a == 1", default = "42")]`. -/
def skipReadIf : Attrs :=
  { skip := some .read, cond := some fun env => decide (env.vars[0]? = some (.num 1)), default := fun _ => .num 42 }

/-- The field before had the value `n`. -/
def after (n : Int) : Env := { vars := [.num n] }

/-- With the condition: skipped when reading … -/
example (off : Nat) : skipReadIf.Skipped .reading ((after 1).at off) :=
  ⟨.read, rfl, trivial, fun c hc => by simp [skipReadIf] at hc; subst hc; rfl⟩

/-- … but not when writing; … -/
example (off : Nat) : ¬ skipReadIf.Skipped .writing ((after 1).at off) := by
  rintro ⟨s, hs, hn, _⟩
  simp [skipReadIf] at hs
  subst hs
  exact hn

/-- … without the condition not skipped. -/
example (off : Nat) : ¬ skipReadIf.Skipped .reading ((after 2).at off) := by
  rintro ⟨s, hs, hn, hc⟩
  exact absurd (hc _ rfl) (by simp [after, Env.at])

example : skipReadIf.Plain := ⟨rfl, rfl, rfl, rfl⟩

example (off : Nat) : skipReadIf.Meets ((after 1).at off) (skipReadIf.default ((after 1).at off)) :=
  ⟨rfl, fun _ h => by simp [skipReadIf] at h⟩

/-- What the theorems say of this field, seen on bytes. -/
example : (skipReadIf.read .little (u8T.read mach) (after 1) (Reader.new { data := [7] })).1 = .ok (.num 42) ∧
    (skipReadIf.read .little (u8T.read mach) (after 2) (Reader.new { data := [7] })).1 = .ok (.num 7) ∧
    toBytes (skipReadIf.write .little (u8T.write mach) (after 1) (.num 9)) = .ok [9] := by decide +kernel

end Example

end Deku
