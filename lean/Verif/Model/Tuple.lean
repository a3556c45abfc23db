import Verif.Model.Update

/-!
# `update` in structs without names

`update` of a struct assigns to `self.name`, or to `self.N` if the fields have no names. `N` is the number of the field in
the source (deku_write.rs:481-512 with deku-derive/src/lib.rs:906-909, 1105-1116, `prefix` being `false` for structs), but
the temporary fields are not there any more: `deku_derive` removes them from the struct (deku-derive/src/lib.rs:1328-1334,
1404-1412). `Fields.update` in `Model/Derive.lean` is right for named fields and for variants, whose fields are bound to
names by `match` (deku_write.rs:231-237, `field_N` with the number in the source, at the place in the value).
-/

namespace Deku

/-- `emit_field_updates` (deku_write.rs:481-512) of a struct. `i` is the number of the next field in the source, `j` that
in the struct which is left. -/
def Fields.updateStruct (named : Bool) : Fields → Nat → Nat → M Val Unit
  | .nil, _, _ => pure ()
  | .cons a _ rest, i, j =>
    match a.update with
    | none => rest.updateStruct named (i + 1) (j + 1)
    | some f => do
      let all ← M.get
      match f all with
      | .error e => M.throw e
      | .ok x => do
        M.modify fun _ => all.set (if named then j else i) x
        rest.updateStruct named (i + 1) (j + 1)
  | .temp _ _ _ rest, i, j => rest.updateStruct named (i + 1) j

/-- The number of fields that are left (deku-derive/src/lib.rs:1328-1334). -/
def Fields.left : Fields → Nat
  | .nil => 0
  | .cons _ _ rest => rest.left + 1
  | .temp _ _ _ rest => rest.left

/-- The compiler finds the fields that are assigned to; `n` is the number of those there are. That their types are the
right ones is not modelled: `try_into` converts from whatever integer type the expression has. -/
def Fields.assignable (named : Bool) (n : Nat) : Fields → Nat → Nat → Bool
  | .nil, _, _ => true
  | .cons a _ rest, i, j => (a.update.isNone || decide ((if named then j else i) < n)) && rest.assignable named n (i + 1) (j + 1)
  | .temp _ _ _ rest, i, j => rest.assignable named n (i + 1) j

/-- `DekuUpdate::update` of a struct (deku_write.rs:158-168) with or without names. -/
def Ty.updateStruct (named : Bool) : Ty → M Val Unit
  | .struct _ _ _ fs => fs.updateStruct named 0 0
  | t => t.update

end Deku
