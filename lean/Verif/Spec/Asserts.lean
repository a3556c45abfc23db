import Verif.Model.Derive

/-!
# Specification vocabulary: values that satisfy their assertions

`Ty.Asserted` and `Ty.AssertedW` say that all fields of a value, at any depth, satisfy the assertions
of the definition. Assertions can refer to `deku::bit_offset`, so each one holds for some offset.
-/

namespace Deku

/-- The assertions of a field hold. -/
def Attrs.Holds (a : Attrs) (env : Env) (v : Val) : Prop :=
  a.assert env v = true ∧ ∀ x, a.assertEq env = some x → v = x

mutual

/-- The value, as it was read, satisfies all assertions. -/
def Ty.Asserted : Ty → Env → Val → Prop
  | .prim _ _, _, _ => True
  | .option t, env, v => ∃ x, v = .some x ∧ t.Asserted env x
  | .array _ t, env, v => ∀ x ∈ v.elems, t.Asserted env x
  | .pair a b, env, v => ∃ x y, v = .cons x (.cons y .nil) ∧ a.Asserted env x ∧ b.Asserted env y
  | .vec _ _ t, env, v => ∀ x ∈ v.elems, t.Asserted env x
  | .bytes _ _, _, _ => True
  | .struct args _ _ fs, env, v => fs.Asserted { ctx := args env } v
  | .enum args _ _ _ vs, env, v =>
    ∃ i fs, v = .variant i fs ∧ vs.AssertedAt { ctx := args env } i fs

/-- A field that is not read has its default value, which satisfies the assertions as well. The value
of a temporary field is not part of the result. -/
def Fields.Asserted : Fields → Env → Val → Prop
  | .nil, _, _ => True
  | .cons a t rest, env, v =>
    ∃ x xs off, v = .cons x xs ∧ a.Holds (env.at off) x ∧
      (a.isRead (env.at off) = true →
        ∃ raw, a.map (env.at off) raw = .ok x ∧ t.Asserted (env.at off) raw) ∧
      rest.Asserted (env.push x) xs
  | .temp a t _ rest, env, v =>
    ∃ x off, a.Holds (env.at off) x ∧
      (a.isRead (env.at off) = true →
        ∃ raw, a.map (env.at off) raw = .ok x ∧ t.Asserted (env.at off) raw) ∧
      rest.Asserted (env.push x) v

/-- The first field stores the id and has no attributes. -/
def Fields.AssertedStored : Fields → Env → Val → Prop
  | .nil, _, _ => True
  | .cons _ _ rest, env, v => ∃ x xs, v = .cons x xs ∧ rest.Asserted (env.push x) xs
  | .temp _ _ _ rest, env, v => ∃ x, rest.Asserted (env.push x) v

def Variants.AssertedAt : Variants → Env → Nat → Val → Prop
  | .nil, _, _, _ => False
  | .cons a fs _, env, 0, v => fs.Asserted env v ∨ (a.idPat = true ∧ fs.AssertedStored env v)
  | .cons _ _ rest, env, i + 1, v => rest.AssertedAt env i v

end

mutual

/-- The value, as it is written, satisfies all assertions. -/
def Ty.AssertedW : Ty → Env → Val → Prop
  | .prim _ _, _, _ => True
  | .option t, env, v => v = .none ∨ ∃ x, v = .some x ∧ t.AssertedW env x
  | .array _ t, env, v => ∀ x ∈ v.elems, t.AssertedW env x
  | .pair a b, env, v => ∃ x y, v = .cons x (.cons y .nil) ∧ a.AssertedW env x ∧ b.AssertedW env y
  | .vec _ _ t, env, v => ∀ x ∈ v.elems, t.AssertedW env x
  | .bytes _ _, _, _ => True
  | .struct args _ _ fs, env, v => fs.AssertedW { ctx := args env } v v
  | .enum args _ _ _ vs, env, v =>
    ∃ i fs, v = .variant i fs ∧ vs.AssertedAtW { ctx := args env } i fs

/-- The assertions are checked for all fields, also for those that are not written. -/
def Fields.AssertedW : Fields → Env → Val → Val → Prop
  | .nil, _, _, _ => True
  | .cons a t rest, env, all, v =>
    ∃ x xs off, v = .cons x xs ∧ a.Holds (env.at off) x ∧
      (a.isWritten (env.at off) = true → t.AssertedW (env.at off) (a.unmap (env.at off) x)) ∧
      rest.AssertedW (env.push x) all xs
  | .temp a t value rest, env, all, v =>
    match value with
    | some f => ∃ off, a.Holds (env.at off) (f all) ∧
      (a.isWritten (env.at off) = true → t.AssertedW (env.at off) (a.unmap (env.at off) (f all))) ∧
      rest.AssertedW (env.push (f all)) all v
    | none => rest.AssertedW (env.push .none) all v

def Fields.AssertedStoredW : Fields → Env → Val → Prop
  | .nil, _, _ => True
  | .cons _ _ rest, env, v => ∃ x xs, v = .cons x xs ∧ rest.AssertedW (env.push x) v xs
  | .temp _ _ _ _, _, _ => False

def Variants.AssertedAtW : Variants → Env → Nat → Val → Prop
  | .nil, _, _, _ => False
  | .cons a fs _, env, 0, v =>
    if a.idPat then fs.AssertedStoredW env v else fs.AssertedW env v v
  | .cons _ _ rest, env, i + 1, v => rest.AssertedAtW env i v

end

end Deku
