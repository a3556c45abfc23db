import Verif.Model.Layer
import Verif.Spec.Candid

/-! # Specification vocabulary: frames in an input -/

namespace Deku

/-- The input starts with frames whose payloads are not empty and are `data` together; what follows is not
a frame, but refused with `e`. -/
inductive Framed (frame : M Reader Val) (payload : Val → List Byte) : List Byte → List Byte → DekuError → Prop
  | stop {input e} (h : fromBytes frame input 0 = .err e) : Framed frame payload input [] e
  | next {input rest k v data e} (h : fromBytes frame input 0 = .ok ((rest, k), v)) (hp : payload v ≠ [])
      (hr : Framed frame payload rest data e) : Framed frame payload input (payload v ++ data) e

end Deku
