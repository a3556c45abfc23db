import Verif.Lemmas.Weight
import Verif.Props.Source

/-! # What is parsed is not larger than a multiple of what is read: C88 -/

namespace Deku

open Reader

theorem readFrom_light {w : Val → Nat} {B K : Nat} {f : M Reader Val} (hm : Moves f) (hf : Light w B K f) (off : Nat) :
    Light w B K (readFrom f off) := by
  unfold readFrom
  exact Light.ite (Light.after (skipBits_moves _ _) (fun _ => hm) fun _ => hf) hf

/-- **C88.** If the elements of all lists read something, then what `from_bytes` parses weighs at most a constant of
the definition more than a constant of the definition times the number of bits it has read. -/
theorem C88_values_are_no_larger_than_what_was_read (m : Machine) (d : Def) (hv : d.valid m.native = true)
    (hd : d.dense = true) (env : Env) (data rest : List Byte) (off b : Nat) (v : Val)
    (h : fromBytes ((d.toTy m).read m env) data off = .ok ((rest, b), v)) :
    v.weight ≤ d.least + d.rate * (8 * (data.length - rest.length) + b) := by
  obtain ⟨r, h1, h2, rfl, rfl⟩ := fromBytes_ok_iff.1 h
  have := readFrom_light (Ty.moves m _ env (d.runs m hv)) (d.light m env hv hd) off _ _ _ (in_new data .any) h1
  refine Nat.le_trans this (Nat.add_le_add_left (Nat.mul_le_mul_left _ ?_) _)
  rw [List.length_drop]
  show r.bitsRead - 0 ≤ _
  omega

/-- **C88.** The same of a stream, whatever its length. -/
theorem C88_values_from_a_stream (m : Machine) (d : Def) (hv : d.valid m.native = true) (hd : d.dense = true) (env : Env)
    (data : List Byte) (off n : Nat) (v : Val) (h : fromReader ((d.toTy m).read m env) { data := data } off = .ok (n, v)) :
    v.weight ≤ d.least + d.rate * n := by
  unfold fromReader at h
  split at h
  · rename_i x r hx
    cases h
    exact readFrom_light (Ty.moves m _ env (d.runs m hv)) (d.light m env hv hd) off _ _ _ (in_new data .any) hx
  · cases h
  · cases h

/-- **C88.** So no value is larger than a multiple of the input. -/
theorem C88_values_are_no_larger_than_the_input (m : Machine) (d : Def) (hv : d.valid m.native = true)
    (hd : d.dense = true) (env : Env) (data : List Byte) (v : Val)
    (h : tryFrom ((d.toTy m).read m env) data = .ok v) : v.weight ≤ d.least + d.rate * (8 * data.length) := by
  unfold tryFrom fromReader at h
  rw [readFrom_zero] at h
  rcases hr : (d.toTy m).read m env (Reader.new { data := data }) with ⟨(x | e | _), r⟩
  · rw [hr] at h
    dsimp only at h
    split at h
    · cases h
    · split at h
      · cases h
      · cases h
        have hm := Ty.moves m _ env (d.runs m hv)
        obtain ⟨k1, k2, _, _⟩ := hm _ _ _ (in_new data .any) hr
        refine Nat.le_trans (d.light m env hv hd _ _ _ (in_new data .any) hr)
          (Nat.add_le_add_left (Nat.mul_le_mul_left _ ?_) _)
        have h1 := k1.sync
        have h2 := k1.inside
        rw [k2] at h2
        simp only [Synced, Reader.new] at h1 h2 ⊢
        cases hl : r.rest with
        | nil => rw [hl] at h1; simp at h1; omega
        | cons c l =>
          have := h2 (by rw [hl]; simp)
          omega
  · rw [hr] at h; cases h
  · rw [hr] at h; cases h

/-! ### Examples -/

namespace WeightExample

open Example SourceExample

/-- The message of C67: a list of bytes, an option, an enum. -/
theorem message_dense :
    (message.compile.map fun d => (d.valid mach.native, d.dense, d.least, d.rate)) = some (true, true, 21, 1) := by
  decide +kernel

example : ∃ d, message.compile = some d ∧ ∀ data v, tryFrom ((d.toTy mach).read mach {}) data = .ok v →
    v.weight ≤ 21 + 8 * data.length := by
  have h := message_dense
  cases hd : message.compile with
  | none => rw [hd] at h; cases h
  | some d =>
    rw [hd] at h
    simp only [Option.map_some, Option.some.injEq, Prod.mk.injEq] at h
    refine ⟨d, rfl, fun data v hr => ?_⟩
    have := C88_values_are_no_larger_than_the_input mach d h.1 h.2.1 {} data v hr
    rw [h.2.2.1, h.2.2.2] at this
    omega

/-- ```
struct Nothing { #[deku(skip)] x: u32 }
struct Many { n: u8, #[deku(count = "n")] items: Vec<Nothing> }
``` -/
def many : STy :=
  .struct {} (.cons {} u8 (.cons { count := some (.field 0) }
    (.vec false (.struct {} (.cons { skip := some .all } (.base (.uint 4)) .nil))) .nil))

end WeightExample

open Example SourceExample WeightExample

/-- **C88** is false of the code for lists whose elements read nothing: one byte makes 255 elements. -/
theorem C88_elements_that_read_nothing_multiply :
    (many.compile.map fun d => (d.valid mach.native, d.dense, d.least, d.rate)) = some (true, false, 5, 4) ∧
    (many.compile.map fun d => match tryFrom ((d.toTy mach).read mach {}) [255] with
      | .ok v => v.weight | _ => 0) = some 1025 := by
  refine ⟨?_, ?_⟩ <;> decide +kernel

end Deku
