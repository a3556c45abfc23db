import Verif.Model.Error

/-! # Running computations -/

namespace Deku.M

variable {σ α β γ : Type}

theorem bind_def (x : M σ α) (f : α → M σ β) (s : σ) :
    (x >>= f) s = match x s with
      | (.ok a, s') => f a s'
      | (.err e, s') => (.err e, s')
      | (.panic, s') => (.panic, s') := rfl

@[simp] theorem pure_run (a : α) (s : σ) : (Pure.pure a : M σ α) s = (.ok a, s) := rfl
@[simp] theorem throw_run (e : DekuError) (s : σ) : (throw e : M σ α) s = (.err e, s) := rfl
@[simp] theorem panic_run (s : σ) : (panic : M σ α) s = (.panic, s) := rfl
@[simp] theorem get_run (s : σ) : (get : M σ σ) s = (.ok s, s) := rfl
@[simp] theorem modify_run (f : σ → σ) (s : σ) : (modify f : M σ Unit) s = (.ok (), f s) := rfl
@[simp] theorem assert_true (s : σ) : (assert true : M σ Unit) s = (.ok (), s) := rfl
@[simp] theorem assert_false (s : σ) : (assert false : M σ Unit) s = (.panic, s) := rfl

theorem bind_ok {x : M σ α} {s s' : σ} {a : α} (h : x s = (.ok a, s')) (f : α → M σ β) :
    (x >>= f) s = f a s' := by rw [bind_def, h]

theorem bind_err {x : M σ α} {s s' : σ} {e : DekuError} (h : x s = (.err e, s')) (f : α → M σ β) :
    (x >>= f) s = (.err e, s') := by rw [bind_def, h]

theorem bind_panic {x : M σ α} {s s' : σ} (h : x s = (.panic, s')) (f : α → M σ β) :
    (x >>= f) s = (.panic, s') := by rw [bind_def, h]

@[simp] theorem pure_bind_run (a : α) (f : α → M σ β) (s : σ) :
    ((Pure.pure a : M σ α) >>= f) s = f a s := rfl
@[simp] theorem throw_bind_run (e : DekuError) (f : α → M σ β) (s : σ) :
    ((throw e : M σ α) >>= f) s = (.err e, s) := rfl
@[simp] theorem panic_bind_run (f : α → M σ β) (s : σ) :
    ((panic : M σ α) >>= f) s = (.panic, s) := rfl
@[simp] theorem get_bind_run (f : σ → M σ β) (s : σ) : ((get : M σ σ) >>= f) s = f s s := rfl
@[simp] theorem modify_bind_run (g : σ → σ) (f : Unit → M σ β) (s : σ) :
    ((modify g : M σ Unit) >>= f) s = f () (g s) := rfl
@[simp] theorem assert_true_bind_run (f : Unit → M σ β) (s : σ) :
    ((assert true : M σ Unit) >>= f) s = f () s := rfl
@[simp] theorem assert_false_bind_run (f : Unit → M σ β) (s : σ) :
    ((assert false : M σ Unit) >>= f) s = (.panic, s) := rfl

theorem bind_assoc_run (x : M σ α) (f : α → M σ β) (g : β → M σ γ) (s : σ) :
    ((x >>= f) >>= g) s = (x >>= fun a => f a >>= g) s := by
  simp only [bind_def]
  cases h : x s with
  | mk r s' => cases r <;> rfl

theorem bind_eq_ok {x : M σ α} {f : α → M σ β} {s s'' : σ} {b : β}
    (h : (x >>= f) s = (.ok b, s'')) : ∃ a s', x s = (.ok a, s') ∧ f a s' = (.ok b, s'') := by
  rw [bind_def] at h
  cases hx : x s with
  | mk r s' =>
    rw [hx] at h
    cases r with
    | ok a => exact ⟨a, s', rfl, h⟩
    | err e => simp at h
    | panic => simp at h

end Deku.M
