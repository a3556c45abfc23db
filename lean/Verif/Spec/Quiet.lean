import Verif.Model.Derive

/-!
# Specification vocabulary: writing that does not panic
-/

namespace Deku

variable {α : Type}

/-- On any sink, from any state with less than a byte pending, the writer does not panic; if it
succeeds, less than a byte is pending again. -/
def Quiet (f : M Writer α) : Prop :=
  ∀ w, w.leftover.length < 8 → (f w).1 ≠ .panic ∧ ∀ a w', f w = (.ok a, w') → w'.leftover.length < 8

/-- The context does not ask for a size of 0 bits. -/
def IntCtx.SomeBits : IntCtx → Prop
  | .bits n | .endianBits _ n | .bitsOrder n _ | .endianBitsOrder _ n _ => n ≠ 0
  | _ => True

instance : DecidablePred IntCtx.SomeBits := fun ctx => by
  cases ctx <;> (unfold IntCtx.SomeBits; infer_instance)

/-- The conditions on a field with the value `v`: its `seek_*` expression is in range, and where it is
written, its type can write the value. -/
def Attrs.Writes (a : Attrs) (ty : Env → Val → Prop) (env : Env) (v : Val) : Prop :=
  (∀ f, a.seek = some f → f env ≠ none) ∧
  ∀ off, a.isWritten (env.at off) = true → ty (env.at off) (a.unmap (env.at off) v)

mutual

/-- The value is one of the type, and no leaf in it makes the writer panic. -/
def Ty.Writes (m : Machine) : Ty → Env → Val → Prop
  | .prim _ c, env, v => Quiet ((c env).write v)
  | .option t, env, v => v = .none ∨ ∃ x, v = .some x ∧ t.Writes m env x
  | .array n t, env, v => v.isList ∧ v.elems.length = n ∧ ∀ x ∈ v.elems, t.Writes m env x
  | .pair a b, env, v => ∃ x y, v = .cons x (.cons y .nil) ∧ a.Writes m env x ∧ b.Writes m env y
  | .vec _ _ t, env, v => v.isList ∧ ∀ x ∈ v.elems, t.Writes m env x
  | .bytes _ ctx, env, v => v.isBytes ∧ ∀ b, Quiet (Coll.u8Write m.native (ctx env) b)
  | .struct args sk _ fs, env, v =>
    (∀ f, sk = some f → f { ctx := args env } ≠ none) ∧ fs.Writes m { ctx := args env } v v
  | .enum args _ id store vs, env, v => ∃ i fs, v = .variant i fs ∧
    vs.WritesAt m { ctx := args env } id (store i) i fs

def Fields.Writes (m : Machine) : Fields → Env → Val → Val → Prop
  | .nil, _, _, v => v = .nil
  | .cons a t rest, env, all, v => ∃ x xs, v = .cons x xs ∧
    a.Writes (fun env v => t.Writes m env v) env x ∧ rest.Writes m (env.push x) all xs
  | .temp a t value rest, env, all, v =>
    match value with
    | some f => a.Writes (fun env v => t.Writes m env v) env (f all) ∧ rest.Writes m (env.push (f all)) all v
    | none => a.Writes (fun _ _ => True) env .none ∧ rest.Writes m (env.push .none) all v

/-- The fields of a variant whose first field stores the id. -/
def Fields.WritesStored (m : Machine) (store : Env → Val → M Writer Unit) : Fields → Env → Val → Prop
  | .nil, _, v => v = .nil
  | .cons _ _ rest, env, v => ∃ x xs, v = .cons x xs ∧ Quiet (store env x) ∧ rest.Writes m (env.push x) v xs
  | .temp _ _ _ _, _, _ => False

def Variants.WritesAt (m : Machine) :
    Variants → Env → IdSrc → (Env → Val → M Writer Unit) → Nat → Val → Prop
  | .nil, _, _, _, _, _ => False
  | .cons a fs _, env, id, store, 0, v =>
    (match id, a.id with | .typed _ c, some x => Quiet ((c env).write x) | _, _ => True) ∧
    if a.idPat then fs.WritesStored m store env v else fs.Writes m env v v
  | .cons _ _ rest, env, id, store, i + 1, v => rest.WritesAt m env id store i v

end

end Deku
