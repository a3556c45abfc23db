import Verif.Spec.Wire

/-!
# Specification vocabulary: consistent values

Which values a source describes: integers fit in their fields, lists are as long as their limits say, optional fields are
there if the condition says so, assertions hold, and ids select their variants. Everything is said of the attributes as
they are written; there is no reader, no writer and no context type here.
-/

namespace Deku

/-! ### leaves -/

def orderGiven (args : List Arg) : Bool := args.any fun | .order _ => true | _ => false

def endianGiven (args : List Arg) : Bool := args.any fun | .endian _ => true | _ => false

/-- A negative number comes back: all bits of the type are there, or it is sign extended. The latter happens if the size
is given in bits without a bit order, and there is an endianness or the size is not a number of bytes. -/
def signKept (args : List Arg) (W : Nat) : Bool :=
  decide ((sizeOf? args).getD (8 * W) = 8 * W) ||
    (bitSized args && !orderGiven args && (endianGiven args || decide ((sizeOf? args).getD (8 * W) % 8 ≠ 0)))

def unsignedFits (args : List Arg) (W : Nat) (n : Int) : Bool := decide (0 ≤ n ∧ n < 2 ^ (sizeOf? args).getD (8 * W))

def signedFits (args : List Arg) (W : Nat) (n : Int) : Bool :=
  decide (-(2 ^ ((sizeOf? args).getD (8 * W) - 1)) ≤ n ∧ n < 2 ^ ((sizeOf? args).getD (8 * W) - 1)) &&
    (decide (0 ≤ n) || signKept args W)

/-- The value is one of the type and fits in the size given. -/
def Base.fits (mem : Nat) (args : List Arg) (b : Base) (v : Val) : Bool :=
  b.has v &&
  match b, v with
  | .uint W, .num n | .nonzero W, .num n => unsignedFits args W n
  | .sint W, .num n | .nonzeroSigned W, .num n => signedFits args W n
  | .cstring, v => decide (v.elems.length + 1 ≤ mem) &&
      (match sizeOf? args with | none => true | some n => decide (8 * (v.elems.length + 1) = n))
  | _, _ => true

/-! ### defaults -/

def Base.isDefault (b : Base) (v : Val) : Bool :=
  match b with
  | .uint _ | .sint _ | .bool => decide (v = .num 0)
  | .cstring | .unit => decide (v = .nil)
  | _ => false

mutual

/-- The value is `Default::default()`. -/
def STy.isDefault : STy → Val → Bool
  | .base b, v => b.isDefault v
  | .option _, v => decide (v = .none)
  | .array n t, v => v.isList && decide (v.elems.length = n) && v.elems.all fun x => t.isDefault x
  | .pair a b, v => match v with | .cons x (.cons y .nil) => a.isDefault x && b.isDefault y | _ => false
  | .vec _ _, v => decide (v = .nil)
  | .struct _ fs, v => fs.isDefault v
  | .enum _ _ _, _ => false

def SFields.isDefault : SFields → Val → Bool
  | .nil, v => decide (v = .nil)
  | .cons a t rest, v =>
    if a.temp.isSome then rest.isDefault v
    else match v with | .cons x xs => t.isDefault x && rest.isDefault xs | _ => false

end

/-! ### ids -/

def VKind.takes (k : VKind) (n : Int) : Bool :=
  match k with
  | .id i => decide (n = i)
  | .any => true
  | .range lo hi => decide (lo ≤ n ∧ n ≤ hi)

def SVariants.heads : SVariants → List DVAttrs
  | .nil => []
  | .cons a _ rest => a :: rest.heads

/-- The first variant that takes the id, otherwise the first default one, has this number. -/
def SVariants.picks (vs : SVariants) (n : Int) (i : Nat) : Bool :=
  decide (((vs.heads.findIdx? fun a => a.kind.takes n).or (vs.heads.findIdx? fun a => a.default)) = some i)

/-! ### fields -/

/-- The field is parsed: not if `skip` applies to reading, which it does where the condition is true if there is one; a
condition without `skip` has to be true. -/
def SAttrs.parsed (a : SAttrs) (env : Env) : Bool :=
  match a.skip, a.cond with
  | some .write, _ | none, none => true
  | none, some c => c.eval env
  | some _, some c => !c.eval env
  | some _, none => false

def STy.isOption : STy → Bool
  | .option _ => true
  | _ => false

/-- A field that is parsed is written; `value` is what its type asks for. A field that is not parsed has its default
value, and is not written or is `None`. What is asserted is true, and paddings are shorter than 2^64 bits. A `Vec<u8>`
with a `count` is not given in bits and is shorter than 2^61 bytes. -/
def SAttrs.consistent (a : SAttrs) (t : STy) (args : List Arg) (value : Val → Bool) (env : Env) (x : Val) : Bool :=
  (if a.parsed env then
    a.written env && value x &&
      (!(a.count.isSome && t.isVecU8) || (!bitSized args && decide (x.elems.length < 2 ^ 61)))
  else
    (match a.default with | some d => decide (x = d) | none => t.isDefault x) &&
      (!a.written env || (t.isOption && decide (x = .none)))) &&
  (match a.assertEq with | none => true | some e => decide (x = .num (e.eval env))) &&
  padSmall a.padBitsBefore a.padBytesBefore && padSmall a.padBitsAfter a.padBytesAfter

mutual

/-- The source describes the value. `lims` are the limits written on the field. -/
def STy.consistent (o : Order) (m : Machine) : STy → List Lim → List Arg → Env → Val → Bool
  | .base b, _, args, _, v => b.fits m.mem args v
  | .option t, lims, args, env, v => match v with | .some x => t.consistent o m lims args env x | _ => false
  | .array n t, lims, args, env, v =>
    v.isList && decide (v.elems.length = n) && v.elems.all fun x => t.consistent o m lims args env x
  | .pair a b, lims, args, env, v =>
    match v with
    | .cons x (.cons y .nil) => a.consistent o m lims args env x && b.consistent o m lims args env y
    | _ => false
  | .vec zst t, lims, args, env, v =>
    v.isList && !zst && decide (v.elems.length ≤ m.mem) && (v.elems.all fun x => t.consistent o m [] args env x) &&
    lims.all fun l => l.good env v.elems (flat (v.elems.flatMap fun x => t.wire o m.native args env x)).length
      (v.elems.all fun x => !(flat (t.wire o m.native args env x)).isEmpty)
  | .struct c fs, _, args, env, v =>
    fs.consistent o m c (c.scope args) (inside ((c.scope args).map Arg.expr) env) v v
  | .enum c id vs, _, args, env, v =>
    match v with
    | .variant i fs => vs.consistentAt o m c id (fun n => vs.picks n i) i (c.scope args)
        (inside ((c.scope args).map Arg.expr) env) fs
    | _ => false

def SFields.consistent (o : Order) (m : Machine) (c : Container) : SFields → List Arg → Env → Val → Val → Bool
  | .nil, _, _, _, v => decide (v = .nil)
  | .cons a t rest, sc, env, all, v =>
    match a.temp with
    | some f =>
      a.consistent t (a.passes c sc) (fun x => t.consistent o m a.limits (a.passes c sc) env x) env (f.eval all) &&
        rest.consistent o m c sc (env.push (f.eval all)) all v
    | none =>
      match v with
      | .cons x xs =>
        a.consistent t (a.passes c sc) (fun x => t.consistent o m a.limits (a.passes c sc) env x) env x &&
          rest.consistent o m c sc (env.push x) all xs
      | _ => false

/-- The first field stores the id. -/
def SFields.consistentStored (o : Order) (m : Machine) (c : Container) (id : Int → Bool) :
    SFields → List Arg → Env → Val → Bool
  | .nil, _, _, _ => false
  | .cons _ _ rest, sc, env, v =>
    match v with
    | .cons x xs => (match x with | .num n => id n | _ => false) && rest.consistent o m c sc (env.push x) v xs
    | _ => false

/-- The id fits in its field and selects the variant. -/
def SVariants.consistentAt (o : Order) (m : Machine) (c : Container) (id : SId) (sel : Int → Bool) :
    SVariants → Nat → List Arg → Env → Val → Bool
  | .nil, _, _, _, _ => false
  | .cons a fs _, 0, sc, env, v =>
    match id, a.kind with
    | .typed W e bits bytes, .id n =>
      sel n && unsignedFits ((SId.typed W e bits bytes).passes c sc) W n && fs.consistent o m c sc env v v
    | .typed W e bits bytes, _ =>
      fs.consistentStored o m c (fun n => sel n && unsignedFits ((SId.typed W e bits bytes).passes c sc) W n) sc env v
    | .ctx e, _ => sel (e.eval env) && fs.consistent o m c sc env v v
  | .cons _ _ rest, i + 1, sc, env, v => rest.consistentAt o m c id sel i sc env v

end

end Deku
