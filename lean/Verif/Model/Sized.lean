import Verif.Model.Source
import Verif.Model.Leaves

/-!
# Integers whose size is given by a field before

`#[deku(bits = "expr")]` and `#[deku(bytes = "expr")]`: the argument of these attributes is an integer or tokens
(`Num`, deku-derive/src/lib.rs:103-160), which end up in `BitSize(..)` or `ByteSize(..)` of the context
(deku-derive/src/macros/mod.rs:250-330), and are evaluated with the fields before in scope. `src/attributes.rs:836-870` and
`:905-940` document it: "This attribute can also be set from a previous read".
-/

namespace Deku

/-- The attributes of a field of the type `uW` (`W` bytes) that has a size: `bytes` or `bits`, `endian` and
`bit_order`, set on the field or taken from its struct. -/
structure Sizing where
  W : Nat
  inBytes : Bool := false
  endian : Option Endian := none
  order : Option Order := none

namespace Sizing

/-- The context of the field when the expression has the value `n` (deku-derive/src/macros/mod.rs:287-330). -/
def args (s : Sizing) (n : Nat) : List Arg :=
  fieldArgs s.endian (if s.inBytes then none else some n) (if s.inBytes then some n else none) s.order []

/-- There is an implementation for this context. Its type does not depend on the value. -/
def compiles (s : Sizing) : Bool := (intArgs (s.args 0)).isSome

/-- The context, for attributes that compile. -/
def ctx (s : Sizing) (n : Nat) : IntCtx := (intArgs (s.args n)).getD .unit

/-- `struct { len: u8, #[deku(bits = "size(*len)", ..)] value: uW }`. `size` is what the expression makes of the field
before; in the documentation it is `*len as usize`. -/
def record (s : Sizing) (m : Machine) (size : Nat → Nat) : Ty :=
  .struct (fun _ => []) none [] (.cons {} (.prim (some 8) fun _ => uintCodec m.native 1 .unit)
    (.cons {} (.prim none fun env => uintCodec m.native s.W (s.ctx (size ((Expr.field 0).eval env).toNat))) .nil))

/-- `struct { len: u8, #[deku(bits = "size(*len)", ..)] value: iW }`. -/
def signedRecord (s : Sizing) (m : Machine) (size : Nat → Nat) : Ty :=
  .struct (fun _ => []) none [] (.cons {} (.prim (some 8) fun _ => uintCodec m.native 1 .unit)
    (.cons {} (.prim none fun env => sintCodec m.native s.W (s.ctx (size ((Expr.field 0).eval env).toNat))) .nil))

end Sizing

end Deku
