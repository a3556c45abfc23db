import Verif.Spec.SharedStruct

/-!
# Specification vocabulary: a header whose fields share bytes and a body
-/

namespace Deku

/-- The bit order of the last field with `bits` of a header; Msb0 if there is none. -/
def headTag (native : Endian) : Order → List HeadSlot → Order
  | t, [] => t
  | t, .whole _ _ _ :: ss => headTag native t ss
  | _, .pair _ g :: ss => headTag native (g.ctx.shape native g.W).2.2 ss

/-- `#[derive(DekuRead, DekuWrite)] struct { first: A, second: B }`. -/
def twoFields (a b : Ty) : Ty := .struct (fun _ => []) none [] (.cons {} a (.cons {} b .nil))

/-- `#[derive(DekuRead, DekuWrite)] struct { header: Header, body: Body }`, where the fields of `Header` are integers. -/
def headBody (native : Endian) (ts : List (Nat × IntCtx)) (body : Ty) : Ty := twoFields (intStruct native ts) body

/-- `#[derive(DekuRead, DekuWrite)] struct { body: Body, trailer: Trailer }`, where the fields of `Trailer` are integers. -/
def bodyTail (native : Endian) (body : Ty) (ts : List (Nat × IntCtx)) : Ty := twoFields body (intStruct native ts)

/-- What the attributes of the body can refer to: the header. -/
def headEnv (vs : List Nat) : Env := ({ ctx := [] } : Env).push (intValue vs)

end Deku
