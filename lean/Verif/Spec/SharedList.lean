import Verif.Spec.SharedBody

/-!
# Specification vocabulary: lists of structs whose fields share bytes
-/

namespace Deku

/-- `#[deku(count = "n")] Vec<Header>`, where the fields of `Header` are integers; `size` is `mem::size_of::<Header>()`. -/
def headList (native : Endian) (size : Nat) (n : Env → Int) (ts : List (Nat × IntCtx)) : Ty := .vec size (.count n) (intStruct native ts)

/-- The value of such a list. -/
def headListValue (hs : List (List HeadSlot)) : Val := .ofList (hs.map fun ss => intValue (headValues ss))

/-- `#[deku(read_all)] Vec<Header>`. -/
def headRest (native : Endian) (size : Nat) (ts : List (Nat × IntCtx)) : Ty := .vec size .end (intStruct native ts)

end Deku
