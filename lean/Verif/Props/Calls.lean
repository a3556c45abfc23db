import Verif.Lemmas.Busy
import Verif.Props.Weight

/-! # A parser calls its source at most linearly often: C89 -/

namespace Deku

open Reader

/-- **C89.** If the elements of all lists read something, then parsing `data` calls the source at most a constant of the
definition plus a constant of the definition times the bits of the input. It does not matter whether it succeeds, returns
an error or panics. -/
theorem C89_parsing_takes_a_linear_number_of_calls (m : Machine) (d : Def) (hv : d.valid m.native = true)
    (hd : d.dense = true) (env : Env) (data : List Byte) (off : Nat) :
    (readFrom ((d.toTy m).read m env) off (Reader.new { data := data })).2.inner.calls ≤
      d.calls + 2 + d.callRate * (8 * data.length + 1) := by
  have hf := d.busy m env hv hd
  have h : Busy (2 + d.calls) d.callRate (readFrom ((d.toTy m).read m env) off) := by
    unfold readFrom
    have hm := Ty.moves m _ env (d.runs m hv)
    exact Busy.ite (Busy.bind (skipBits_moves _ _) (Busy.ofCalls (Calls.skipBits _ _) (skipBits_moves _ _)) fun _ => hf)
      (Busy.mono hm hf (by omega) (Nat.le_refl _))
  have h1 := h _ (in_new data .any)
  have h2 : (Reader.new { data := data }).todo = 8 * data.length + 1 := rfl
  have h3 : (Reader.new { data := data }).inner.calls = 0 := rfl
  rw [h2, h3] at h1
  omega

/-- **C89.** The calls made by a parser that succeeds are paid for by the bits it has read. -/
theorem C89_calls_are_paid_by_what_was_read (m : Machine) (d : Def) (hv : d.valid m.native = true)
    (hd : d.dense = true) (env : Env) (data : List Byte) (v : Val) (r : Reader)
    (h : (d.toTy m).read m env (Reader.new { data := data }) = (.ok v, r)) (hin : r.bitsRead ≤ 8 * data.length) :
    r.inner.calls ≤ d.calls + d.callRate * r.bitsRead := by
  have h1 := d.busy m env hv hd _ (in_new data .any)
  have h0 := (Ty.moves m _ env (d.runs m hv)) _ _ _ (in_new data .any) h
  rw [h] at h1
  have h4 : r.inner.data = data := h0.2.1
  have h2 : (Reader.new { data := data }).todo = r.todo + r.bitsRead := by
    simp only [Reader.todo, Reader.new, h4]
    omega
  have h3 : (Reader.new { data := data }).inner.calls = 0 := rfl
  rw [h2, h3, Nat.mul_add] at h1
  simp only [after] at h1
  omega

/-! ### Examples -/

namespace CallsExample

open Example SourceExample

/-- The message of C67: a list of bytes, an option, an enum. -/
theorem message_calls :
    (message.compile.map fun d => (d.valid mach.native, d.dense, d.calls, d.callRate)) = some (true, true, 29, 1) := by
  decide +kernel

example : ∃ d, message.compile = some d ∧ ∀ data off,
    (readFrom ((d.toTy mach).read mach {}) off (Reader.new { data := data })).2.inner.calls ≤ 32 + 8 * data.length := by
  have h := message_calls
  cases hd : message.compile with
  | none => rw [hd] at h; cases h
  | some d =>
    rw [hd] at h
    simp only [Option.map_some, Option.some.injEq, Prod.mk.injEq] at h
    refine ⟨d, rfl, fun data off => ?_⟩
    have := C89_parsing_takes_a_linear_number_of_calls mach d h.1 h.2.1 {} data off
    rw [h.2.2.1, h.2.2.2] at this
    omega

/-- ```
struct Gap { #[deku(skip, pad_bytes_before = "1")] x: u8 }
struct Gaps { n: u8, #[deku(count = "n")] items: Vec<Gap> }
``` -/
def gaps : STy :=
  .struct {} (.cons {} u8 (.cons { count := some (.field 0) }
    (.vec false (.struct {} (.cons { skip := some .all, padBytesBefore := some 1 } u8 .nil))) .nil))

end CallsExample

open Example SourceExample CallsExample

/-- **C89** is false of the code for lists whose elements read nothing: one byte makes more than 255 calls. -/
theorem C89_elements_that_read_nothing_call :
    (gaps.compile.map fun d => (d.valid mach.native, d.dense, d.calls, d.callRate)) = some (true, false, 7, 5) ∧
    (gaps.compile.map fun d => ((d.toTy mach).read mach {} (Reader.new { data := [255] })).2.inner.calls) = some 256 := by
  refine ⟨?_, ?_⟩ <;> decide +kernel

end Deku
