import Verif.Spec.Consistent

/-!
# Specification vocabulary: fields that hold lengths

Which lists of a source are counted by a field that holds their length, because it is a temporary field with
`temp_value = "self.list.len() as .."` or is updated with `update = "self.list.len()"`, and the source in which these lists
may have any length.
-/

namespace Deku

/-- The length of the list that is meant; `all` are the fields of the struct or the variant. -/
def Temp.length (f : Temp) (all : Val) : Nat := (all.elems[f.field]?.getD .nil).elems.length

def STy.isVec : STy → Bool
  | .vec _ _ => true
  | _ => false

/-- The expression is the name of a field that holds the length of field `i`. `held` are the lengths that the fields
before hold, the last one first. -/
def holdsLength (held : List (Option Temp)) (i : Nat) : Option Expr → Bool
  | some (.field k) => match held[k]? with | some (some f) => decide (f.field = i) | _ => false
  | _ => false

/-- `count` is the length of the list. (A `Vec<u8>` with `count` and `bits` is not read as it is written.) -/
def SAttrs.counted (held : List (Option Temp)) (i : Nat) (t : STy) (a : SAttrs) : Bool :=
  t.isVec && a.temp.isNone && holdsLength held i a.count && !(t.isVecU8 && a.bits.isSome)

/-- `bytes_read` is the length of a list of bytes. -/
def SAttrs.measured (held : List (Option Temp)) (i : Nat) (t : STy) (a : SAttrs) : Bool :=
  t.isVecU8 && a.temp.isNone && a.bits.isNone && a.bytes.isNone && a.ctx.isEmpty && holdsLength held i a.bytesRead

/-- Without the limits that are the length of the list. -/
def SAttrs.loose (held : List (Option Temp)) (i : Nat) (t : STy) (a : SAttrs) : SAttrs :=
  { a with count := if a.counted held i t then none else a.count
           bytesRead := if a.measured held i t then none else a.bytesRead }

/-- The length that a field holds: a temporary one that of its `temp_value`, another one that of its `update`. -/
def SAttrs.holds (a : SAttrs) (plan : List (Option Temp)) (i : Nat) : Option Temp :=
  match a.temp with
  | some f => some f
  | none => plan[i]?.getD none

mutual

/-- The source without limits that are lengths. `plans` are the `update` attributes, for every variant (a struct is one)
and every field. `update` concerns the fields of the struct or of the variant only, not what is inside. -/
def STy.loose : STy → List (List (Option Temp)) → STy
  | .base b, _ => .base b
  | .option t, _ => .option (t.loose [])
  | .array k t, _ => .array k (t.loose [])
  | .pair a b, _ => .pair (a.loose []) (b.loose [])
  | .vec zst t, _ => .vec zst (t.loose [])
  | .struct c fs, plans => .struct c (fs.loose (plans.headD []) [] 0)
  | .enum c id vs, plans => .enum c id (vs.loose plans)

def SFields.loose : SFields → List (Option Temp) → List (Option Temp) → Nat → SFields
  | .nil, _, _, _ => .nil
  | .cons a t rest, plan, held, i =>
    .cons (a.loose held i t) (t.loose [])
      (rest.loose plan (a.holds plan i :: held) (if a.temp.isSome then i else i + 1))

/-- The first field may store the id. -/
def SFields.looseStored : SFields → List (Option Temp) → SFields
  | .nil, _ => .nil
  | .cons a t rest, plan => .cons a t (if a.temp.isSome then rest else rest.loose plan [plan[0]?.getD none] 1)

def SVariants.loose : SVariants → List (List (Option Temp)) → SVariants
  | .nil, _ => .nil
  | .cons a fs rest, plans =>
    .cons a (if a.kind.isPat then fs.looseStored (plans.headD []) else fs.loose (plans.headD []) [] 0) (rest.loose plans.tail)

end

/-- The length fits in the type that holds it. -/
def Temp.fits (f : Temp) (all : Val) : Bool := decide (f.length all < 256 ^ f.W ∧ f.length all < 2 ^ 61)

mutual

/-- All lengths that temporary fields hold fit in their types. -/
def STy.short : STy → Val → Bool
  | .base _, _ => true
  | .option t, v => match v with | .some x => t.short x | _ => true
  | .array _ t, v => v.elems.all fun x => t.short x
  | .pair a b, v => match v with | .cons x (.cons y .nil) => a.short x && b.short y | _ => true
  | .vec _ t, v => v.elems.all fun x => t.short x
  | .struct _ fs, v => fs.short v v
  | .enum _ _ vs, v => match v with | .variant i fs => vs.shortAt i fs | _ => true

def SFields.short : SFields → Val → Val → Bool
  | .nil, _, _ => true
  | .cons a t rest, all, v =>
    match a.temp with
    | some f => f.fits all && rest.short all v
    | none => match v with | .cons x xs => t.short x && rest.short all xs | _ => true

def SVariants.shortAt : SVariants → Nat → Val → Bool
  | .nil, _, _ => true
  | .cons _ fs _, 0, v => fs.short v v
  | .cons _ _ rest, i + 1, v => rest.shortAt i v

end

/-- The number of fields that are not temporary. -/
def SFields.visible : SFields → Nat
  | .nil => 0
  | .cons a _ rest => if a.temp.isSome then rest.visible else rest.visible + 1

/-- The fields updated are some of `n` fields, and are not among those whose length is taken. -/
def planFits (n : Nat) (plan : List (Option Temp)) : Bool :=
  decide (plan.length ≤ n) && plan.all fun p => match p with | some f => (plan[f.field]?.getD none).isNone | none => true

def SVariants.plansFit : SVariants → List (List (Option Temp)) → Bool
  | .nil, _ => true
  | .cons _ fs rest, plans => planFits fs.visible (plans.headD []) && rest.plansFit plans.tail

/-- The `update` attributes are on fields that the source has, and name other fields than those updated. -/
def STy.plansFit : STy → List (List (Option Temp)) → Bool
  | .struct _ fs, plans => planFits fs.visible (plans.headD [])
  | .enum _ _ vs, plans => vs.plansFit plans
  | _, _ => true

/-- The fields of a struct or of a variant. -/
def Val.members : Val → List Val
  | .variant _ fs => fs.elems
  | v => v.elems

/-- The fields of variant number `i`. -/
def SVariants.fieldsAt : SVariants → Nat → Option SFields
  | .nil, _ => none
  | .cons _ fs _, 0 => some fs
  | .cons _ _ rest, i + 1 => rest.fieldsAt i

/-- `v'` is `v` with the lengths stored. -/
def Stored (plan : List (Option Temp)) (v v' : Val) : Prop :=
  v'.elems.length = v.elems.length ∧ ∀ j, j < v.elems.length → v'.elems[j]? =
    match plan[j]?.getD none with
    | some f => some (.num (f.length v))
    | none => v.elems[j]?

end Deku
