import Verif.Model.Derive

/-!
# Types that contain themselves

A derived type may contain itself, behind a `Box`, `Arc` or `Rc` (src/impls/boxed.rs:11-22, 59-72, src/impls/arc.rs:10-21,
60-71, which delegate with one call) or in a `Vec`. Reading and writing are then functions that call themselves, as deep as
the value is nested, and each call takes some of the stack. `Ty` is a finite tree, so such a type is unrolled: `F` gives the
bodies of the types `ι` in terms of what stands for the types inside of them, and on a stack that has room for `n` calls the
type is `F` applied `n` times. The call for which there is no room ends the program ("thread has overflowed its stack"),
which is a panic here.
-/

namespace Deku

/-- The call for which there is no room on the stack. -/
def overflow : Ty := .prim none fun _ => { read := M.panic, write := fun _ => M.panic }

/-- The types with bodies `F`, `n` calls deep, with `base` below them. -/
def unrollOn {ι : Type} (F : (ι → Ty) → ι → Ty) (base : ι → Ty) : Nat → ι → Ty
  | 0 => base
  | n + 1 => F (unrollOn F base n)

/-- The types with bodies `F` on a stack with room for `n` calls. -/
def unroll {ι : Type} (F : (ι → Ty) → ι → Ty) (n : Nat) : ι → Ty := unrollOn F (fun _ => overflow) n

end Deku
