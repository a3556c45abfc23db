import Verif.Spec.Update
import Verif.Model.Source

/-!
# `DekuUpdate` of structs and enums

`update` of a type, and types some of whose fields have `update = "self.list.len()"`.
-/

namespace Deku

/-- The arm of variant number `i` (deku_write.rs:343-356). -/
def Variants.updateAt : Variants → Nat → M Val Unit
  | .nil, _ => M.panic
  | .cons _ fs _, 0 => fs.update 0
  | .cons _ _ rest, i + 1 => rest.updateAt i

/-- `DekuUpdate::update`: of a struct the updates of its fields (deku_write.rs:85, 158-168), of an enum those of the fields
of the variant (deku_write.rs:408-425). The state is the value updated. The fields are assigned, they are not updated
themselves. Types that are not derived have no `update`; here nothing changes. -/
def Ty.update : Ty → M Val Unit
  | .struct _ _ _ fs => fs.update 0
  | .enum _ _ _ _ vs => fun v =>
    match v with
    | .variant i fs => ((vs.updateAt i fs).1, .variant i (vs.updateAt i fs).2)
    | _ => (.panic, v)
  | _ => pure ()

/-- The fields, with `update` attributes (deku-derive/src/lib.rs:650): `plan` has for a field the list whose length it
holds, and the width of the field; `i` is the number of the next field. -/
def Fields.updating (plan : List (Option Temp)) : Fields → Nat → Fields
  | .nil, _ => .nil
  | .cons a t rest, i =>
    .cons { a with update := (plan[i]?.getD none).map fun f => lenOf f.field f.W } t (rest.updating plan (i + 1))
  | .temp a t value rest, i => .temp a t value (rest.updating plan i)

/-- The variants, with `update` attributes on their fields. -/
def Variants.updating : List (List (Option Temp)) → Variants → Variants
  | _, .nil => .nil
  | plans, .cons a fs rest => .cons a (fs.updating (plans.headD []) 0) (rest.updating plans.tail)

/-- A struct (with the first of the plans) or an enum (with one for every variant) with `update` attributes on its
fields. -/
def Ty.updating (plans : List (List (Option Temp))) : Ty → Ty
  | .struct args seek magic fs => .struct args seek magic (fs.updating (plans.headD []) 0)
  | .enum args magic id store vs => .enum args magic id store (vs.updating plans)
  | t => t

end Deku
