import Verif.Model.Names

/-!
# When a name means the same for reading and writing

An attribute must not mention its own field or one that comes later, nor a temporary field that is not
bound while writing. Such a name either does not compile while reading or is that of an argument, which
the field hides while writing. And `deku::bit_offset` must not be mentioned where the emitted code does
not renew it.
-/

namespace Deku

/-- A numeric expression in names. -/
inductive NExpr
  | lit (n : Int)
  | name (n : Name)
  | offset
  | add (a b : NExpr)
  | mod (a b : NExpr)

namespace NExpr

def eval : NExpr → Names → Int
  | .lit n, _ => n
  | .name n, sc => match sc.get n with | some (.num x) => x | _ => 0
  | .offset, sc => sc.off
  | .add a b, sc => a.eval sc + b.eval sc
  | .mod a b, sc => a.eval sc % b.eval sc

/-- The names it mentions. -/
def free : NExpr → List Name
  | .name n => [n]
  | .add a b => a.free ++ b.free
  | .mod a b => a.free ++ b.free
  | _ => []

/-- It mentions `deku::bit_offset`. -/
def here : NExpr → Bool
  | .offset => true
  | .add a b => a.here || b.here
  | .mod a b => a.here || b.here
  | _ => false

end NExpr

/-- The expression does not mention the names in `N`, and `deku::bit_offset` only if `o`. -/
def Ignores {X : Type} (f : Names → X) (N : List Name) (o : Bool) : Prop :=
  ∀ sc sc' : Names, (∀ n, n ∉ N → sc.get n = sc'.get n) → (o = true → sc.off = sc'.off) → f sc = f sc'

/-- The names of all fields. -/
def NFields.allNames : NFields → List Name
  | .nil => []
  | .cons n _ _ rest => n :: rest.allNames
  | .temp n _ _ _ rest => n :: rest.allNames

/-- The attributes of a field: `before` are the names that must not be mentioned before the field is
bound, `checks` those that must not be mentioned in `assert`, `after` those that must not be mentioned in
the padding after it. What is evaluated only while reading can mention all names. -/
structure NAttrs.Settled (a : NAttrs) (before checks after : List Name) : Prop where
  seek : ∀ f, a.seek = some f → Ignores f before false
  padBefore : ∀ f, a.padBefore = some f → Ignores f before false
  padAfter : ∀ f, a.padAfter = some f → Ignores f after (a.usesRead && a.usesWrite)
  cond : ∀ f, a.cond = some f → Ignores f before (a.usesRead && a.usesWrite)
  default : Ignores a.default [] a.usesRead
  map : Ignores a.map [] a.usesRead
  unmap : Ignores a.unmap before a.usesWrite
  assert : Ignores a.assert checks (a.usesRead && a.usesWrite)
  assertEq : Ignores a.assertEq before (a.usesRead && a.usesWrite)

def NLimit.Settled (o : Bool) : NLimit → Prop
  | .count n => Ignores n [] o
  | .until p => Ignores p [] o
  | .bytes n => Ignores n [] o
  | .bits n => Ignores n [] o
  | .end => True

/-- The context argument of the id and of a stored id do not mention the fields. -/
def NId.Settled (N : List Name) : NId → Prop
  | .ctx _ => True
  | .typed _ c => Ignores c N true

mutual

/-- `N` are the names that the attributes of a field of this type must not mention, `o` and `o'` say
that they may mention `deku::bit_offset` while reading and while writing. -/
def NTy.Settled : NTy → List Name → Bool → Bool → Prop
  | .prim _ c, N, o, o' => Ignores c N (o && o')
  | .option t, N, o, o' => t.Settled N o o'
  | .array _ t, N, o, o' => t.Settled N o o'
  | .pair a b, N, o, o' => a.Settled N o o' ∧ b.Settled N o o'
  | .vec _ l t, N, o, o' => l.Settled o ∧ t.Settled N o o'
  | .bytes n ctx, N, o, o' => Ignores n [] o ∧ Ignores ctx N o'
  | .struct args seek _ fs, N, o, o' => (∀ p ∈ args, Ignores p.2 N (o && o')) ∧ (∀ f, seek = some f → Ignores f fs.names true) ∧
    fs.allNames.Nodup ∧ fs.Settled []
  | .enum args _ id store vs, N, o, o' => (∀ p ∈ args, Ignores p.2 N (o && o')) ∧ vs.Settled id store

/-- `gone` are the temporary fields before that are not bound while writing. -/
def NFields.Settled : NFields → List Name → Prop
  | .nil, _ => True
  | .cons n a t rest, gone =>
    a.Settled (n :: rest.names ++ gone) (rest.names ++ gone) (rest.names ++ gone) ∧
    t.Settled (n :: rest.names ++ gone) a.usesRead a.usesWrite ∧ rest.Settled gone
  | .temp n a t value rest, gone =>
    a.Settled (n :: rest.names ++ gone) (n :: rest.names ++ gone)
      (if value.isSome && a.declared then rest.names ++ gone else n :: rest.names ++ gone) ∧
    t.Settled (n :: rest.names ++ gone) a.usesRead a.usesWrite ∧
    rest.Settled (if value.isSome && a.declared then gone else n :: gone)

def NVariants.Settled : NVariants → NId → (Nat → Names → Val → M Writer Unit) → Prop
  | .nil, _, _ => True
  | .cons _ fs rest, id, store => id.Settled fs.names ∧ (∀ i, Ignores (store i) fs.names true) ∧
    fs.allNames.Nodup ∧ fs.Settled [] ∧ rest.Settled id store

end

end Deku
