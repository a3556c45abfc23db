import Verif.Spec.SharedInt
import Verif.Model.Derive

/-!
# Specification vocabulary: structs whose fields share bytes
-/

namespace Deku

/-- The fields of a struct of unsigned integers, given by the type (`W` bytes) and the context that the attributes make. The size
is not asked for here. -/
def intFields (native : Endian) : List (Nat × IntCtx) → Fields
  | [] => .nil
  | t :: ts => .cons {} (.prim none fun _ => uintCodec native t.1 t.2) (intFields native ts)

/-- `#[derive(DekuRead, DekuWrite)] struct { a: u8, #[deku(bits = 3, bit_order = "lsb")] b: u8, .. }`. -/
def intStruct (native : Endian) (ts : List (Nat × IntCtx)) : Ty := .struct (fun _ => []) none [] (intFields native ts)

/-- The value of such a struct. -/
def intValue (vs : List Nat) : Val := .ofList (vs.map fun (v : Nat) => .num v)

/-- The types and contexts of the fields. -/
def IntField.kind (f : IntField) : Nat × IntCtx := (f.W, f.ctx)

/-- The fields of the header without their values. -/
def headKinds (ss : List HeadSlot) : List (Nat × IntCtx) := (ss.flatMap HeadSlot.fields).map IntField.kind

/-- The values of the fields of the header. -/
def headValues (ss : List HeadSlot) : List Nat := (ss.flatMap HeadSlot.fields).map IntField.v

end Deku
