import Verif.Spec.Int
import Verif.Model.Core

/-!
# Specification vocabulary: definitions that can be checked by computation

`Def.valid` and `Def.check` look at a definition only, `Def.has`, `Def.bits` and `Def.good` at a value. All
of them can be evaluated.
-/

namespace Deku

/-! ### leaves -/

/-- The number of bits of a field of an unsigned type is possible. -/
def uintValid (native : Endian) (W : Nat) (ctx : IntCtx) : Bool :=
  decide (1 ≤ W ∧ 1 ≤ (ctx.shape native W).2.1 ∧ (ctx.shape native W).2.1 ≤ 8 * W)

/-- The same for signed types. -/
def sintValid (native : Endian) (W : Nat) (ctx : IntCtx) : Bool :=
  decide (1 ≤ W ∧ 1 ≤ (ctx.sshape native W).2.1 ∧ (ctx.sshape native W).2.1 ≤ 8 * W)

namespace Leaf

/-- The sizes given are possible. -/
def valid (native : Endian) : Leaf → Bool
  | .uint W ctx | .nonzero W ctx => uintValid native W ctx
  | .sint W ctx | .nonzeroSigned W ctx => sintValid native W ctx
  | .bool ctx => uintValid native 1 ctx
  | .cstringSized n => decide (n < 2 ^ 64)
  | .cstring | .unit => true

/-- The value is one of the (Rust) type. -/
def has (l : Leaf) (v : Val) : Bool :=
  match l with
  | .uint W _ => match v with | .num n => decide (0 ≤ n ∧ n < 256 ^ W) | _ => false
  | .nonzero W _ => match v with | .num n => decide (0 < n ∧ n < 256 ^ W) | _ => false
  | .sint W _ => match v with | .num n => decide (-(256 ^ W) ≤ 2 * n ∧ 2 * n < 256 ^ W) | _ => false
  | .nonzeroSigned W _ =>
    match v with | .num n => decide (n ≠ 0 ∧ -(256 ^ W) ≤ 2 * n ∧ 2 * n < 256 ^ W) | _ => false
  | .bool _ => decide (v = .num 0 ∨ v = .num 1)
  | .cstring | .cstringSized _ => v.isCString
  | .unit => decide (v = .nil)

/-- The number of bits of a value. -/
def bits (native : Endian) (l : Leaf) (v : Val) : Nat :=
  match l with
  | .uint W ctx | .nonzero W ctx => (ctx.shape native W).2.1
  | .sint W ctx | .nonzeroSigned W ctx => (ctx.sshape native W).2.1
  | .bool ctx => (ctx.shape native 1).2.1
  | .cstring | .cstringSized _ => 8 * (v.elems.length + 1)
  | .unit => 0

/-- The value comes back if it is accepted: a value that does not fit in a field of whole bytes is
truncated, and signed values lose their sign in some cases. -/
def good (m : Machine) (l : Leaf) (v : Val) : Bool :=
  match l with
  | .uint W ctx | .nonzero W ctx =>
    ctx.isBits || match v with | .num n => decide (n < 2 ^ (ctx.shape m.native W).2.1) | _ => true
  | .sint W ctx | .nonzeroSigned W ctx =>
    match v with
    | .num n =>
      if ctx.extends then
        decide (-(2 ^ ((ctx.sshape m.native W).2.1 - 1)) ≤ n ∧ n < 2 ^ ((ctx.sshape m.native W).2.1 - 1))
      else decide (pattern W n < 2 ^ (ctx.sshape m.native W).2.1)
    | _ => true
  | .bool _ => true
  | .cstring => decide (v.elems.length + 1 ≤ m.mem)
  | .cstringSized n => decide (v.elems.length + 1 = n ∧ n ≤ m.mem)
  | .unit => true

end Leaf

/-! ### alignment -/

/-- What is known of a position: how many bits into a byte it is, or nothing. -/
abbrev Align := Option Nat

namespace Align

def holds (a : Align) (p : Nat) : Prop := ∀ k, a = some k → p % 8 = k

def add (a : Align) (n : Nat) : Align := a.map fun k => (k + n) % 8

def join (a b : Align) : Align := if a = b then a else none

def joins : List Align → Align
  | [] => none
  | [a] => a
  | a :: l => a.join (joins l)

/-- After any number of rounds. -/
def loop (f : Align → Option Align) (a : Align) : Option Align :=
  if f a = some a then some a else if (f none).isSome then some none else none

end Align

/-- An integer field of order `o'` between fields of order `o`: bit fields must not be big endian Lsb0 of
more than one byte and less than the type, fields of whole bytes must not be Lsb0 in the middle of a byte. -/
def intFits (o : Order) (W : Nat) (bits : Bool) (shape : Endian × Nat × Order) (a : Align) : Bool :=
  decide (shape.2.2 = o) &&
  if bits then decide (o = .lsb0 → shape.1 = .big → shape.2.1 ≤ 8 ∨ shape.2.1 = 8 * W)
  else decide (o = .lsb0 → a = some 0)

/-- Bytes read and written in Msb0 order. -/
def bytesFit (o : Order) (a : Align) : Bool := decide (o = .msb0 ∨ a = some 0)

/-- The alignment after a leaf that starts at alignment `a` between fields of order `o`. -/
def Leaf.check (native : Endian) (o : Order) (l : Leaf) (a : Align) : Option Align :=
  match l with
  | .uint W ctx | .nonzero W ctx =>
    if intFits o W ctx.isBits (ctx.shape native W) a then some (a.add (ctx.shape native W).2.1) else none
  | .sint W ctx | .nonzeroSigned W ctx =>
    if intFits o W ctx.isBits (ctx.sshape native W) a then some (a.add (ctx.sshape native W).2.1) else none
  | .bool ctx =>
    if intFits o 1 ctx.isBits (ctx.shape native 1) a then some (a.add (ctx.shape native 1).2.1) else none
  | .cstring | .cstringSized _ => if o = .msb0 then some a else none
  | .unit => some a

/-! ### definitions -/

/-- The ids of the variants. -/
def DVariants.kinds : DVariants → List DVAttrs
  | .nil => []
  | .cons a _ rest => a :: rest.kinds

/-- The number of the variant selected by an id: the first one that matches, otherwise the first default
one. -/
def DVariants.select (vs : DVariants) (x : Val) : Option Nat :=
  match vs.kinds.findIdx? (fun a => a.kind.hits x) with
  | some i => some i
  | none => vs.kinds.findIdx? (·.default)

/-- The fields without the first one. -/
def DFields.tail : DFields → DFields
  | .nil => .nil
  | .cons _ _ rest => rest
  | .temp _ _ _ rest => rest

def DFields.stores : DFields → Bool
  | .cons _ _ _ => true
  | _ => false

/-- An id literal is one of the type of the id; ids stored in the first field are read and not taken from
the context, and there is a first field. -/
def DId.allows (id : DId) (k : VKind) (fs : DFields) : Bool :=
  match id, k with
  | .typed _ W _ _, .id n => decide (0 ≤ n ∧ n < 256 ^ W)
  | .typed _ _ _ _, _ => fs.stores
  | .arg _, k => !k.isPat

def DId.valid (native : Endian) : DId → Bool
  | .typed _ W ctx store => uintValid native W ctx && uintValid native W store
  | .arg _ => true

mutual

/-- The definition is one that can be written down: all sizes are possible, ids are of their types. -/
def Def.valid (native : Endian) : Def → Bool
  | .leaf _ l => l.valid native
  | .option t => t.valid native
  | .array _ t => t.valid native
  | .pair a b => a.valid native && b.valid native
  | .vec _ _ t => t.valid native
  | .bytes _ ctx => uintValid native 1 ctx
  | .struct _ _ fs => fs.valid native
  | .enum _ _ id vs => id.valid native && vs.valid native id

def DFields.valid (native : Endian) : DFields → Bool
  | .nil => true
  | .cons _ t rest => t.valid native && rest.valid native
  | .temp _ t _ rest => t.valid native && rest.valid native

def DVariants.valid (native : Endian) (id : DId) : DVariants → Bool
  | .nil => true
  | .cons a fs rest => id.allows a.kind fs && fs.valid native && rest.valid native id

end

mutual

/-- The value is one of the (Rust) type. -/
def Def.has : Def → Val → Bool
  | .leaf _ l, v => l.has v
  | .option t, v => match v with | .none => true | .some x => t.has x | _ => false
  | .array n t, v => v.isList && decide (v.elems.length = n) && v.elems.all fun x => t.has x
  | .pair a b, v => match v with | .cons x (.cons y .nil) => a.has x && b.has y | _ => false
  | .vec _ _ t, v => v.isList && v.elems.all fun x => t.has x
  | .bytes _ _, v => v.isBytes
  | .struct _ _ fs, v => fs.has v v
  | .enum _ _ id vs, v => match v with | .variant i fs => vs.hasAt id i fs | _ => false

/-- `all` are all fields of the type; temporary fields are not among them, but their values have a type. -/
def DFields.has : DFields → Val → Val → Bool
  | .nil, _, v => decide (v = .nil)
  | .cons _ t rest, all, v => match v with | .cons x xs => t.has x && rest.has all xs | _ => false
  | .temp _ t value rest, all, v => t.has (value.eval all) && rest.has all v

/-- The field that stores the id is of the type of the id. -/
def DFields.hasStored (W : Nat) : DFields → Val → Bool
  | .cons _ _ rest, v =>
    match v with
    | .cons x xs => (Leaf.uint W .unit).has x && rest.has v xs
    | _ => false
  | _, _ => false

def DVariants.hasAt (id : DId) : DVariants → Nat → Val → Bool
  | .nil, _, _ => false
  | .cons a fs _, 0, v =>
    match id with
    | .typed _ W _ _ => if a.kind.isPat then fs.hasStored W v else fs.has v v
    | .arg _ => fs.has v v
  | .cons _ _ rest, i + 1, v => rest.hasAt id i v

end

/-- The field is not read in some cases, and has its default value then. -/
def DAttrs.mayDefault (a : DAttrs) : Bool :=
  match a.skip, a.cond with
  | some .write, _ => false
  | none, none => false
  | _, _ => true

def Def.isUint (W : Nat) : Def → Bool
  | .leaf _ (.uint W' _) => decide (W' = W)
  | _ => false

mutual

/-- Default values and the values of temporary fields are of the types of the fields. -/
def Def.typed : Def → Bool
  | .leaf _ _ => true
  | .option t => t.typed
  | .array _ t => t.typed
  | .pair a b => a.typed && b.typed
  | .vec _ _ t => t.typed
  | .bytes _ _ => true
  | .struct _ _ fs => fs.typed
  | .enum _ _ _ vs => vs.typed

def DFields.typed : DFields → Bool
  | .nil => true
  | .cons a t rest => (!a.mayDefault || t.has a.default) && t.typed && rest.typed
  | .temp _ t value rest => t.isUint value.W && t.typed && rest.typed

def DVariants.typed : DVariants → Bool
  | .nil => true
  | .cons _ fs rest => fs.typed && rest.typed

end

/-- The size of what surrounds the value of a field. -/
def DAttrs.extra (a : DAttrs) : Nat := 8 * a.magic.length + a.padBefore.getD 0 + a.padAfter.getD 0

/-- The environment of a type whose arguments are `args`. -/
def inside (args : List Expr) (env : Env) : Env := { ctx := args.map fun e => e.val env }

mutual

/-- The number of bits of a value. -/
def Def.bits (native : Endian) : Def → Env → Val → Nat
  | .leaf _ l, _, v => l.bits native v
  | .option t, env, v => match v with | .some x => t.bits native env x | _ => 0
  | .array _ t, env, v => (v.elems.map fun x => t.bits native env x).sum
  | .pair a b, env, v =>
    match v with | .cons x (.cons y .nil) => a.bits native env x + b.bits native env y | _ => 0
  | .vec _ _ t, env, v => (v.elems.map fun x => t.bits native env x).sum
  | .bytes _ ctx, _, v => (ctx.shape native 1).2.1 * v.elems.length
  | .struct args magic fs, env, v => 8 * magic.length + fs.bits native (inside args env) v v
  | .enum args magic id vs, env, v =>
    match v with
    | .variant i fs => 8 * magic.length + vs.bitsAt native id i (inside args env) fs
    | _ => 0

def DFields.bits (native : Endian) : DFields → Env → Val → Val → Nat
  | .nil, _, _, _ => 0
  | .cons a t rest, env, all, v =>
    match v with
    | .cons x xs => a.extra + (if a.toAttrs.isWritten (env.at 0) then t.bits native (env.at 0) x else 0) +
        rest.bits native (env.push x) all xs
    | _ => 0
  | .temp a t value rest, env, all, v =>
    a.extra + (if a.toAttrs.isWritten (env.at 0) then t.bits native (env.at 0) (value.eval all) else 0) +
      rest.bits native (env.push (value.eval all)) all v

def DFields.bitsStored (native : Endian) : DFields → Env → Val → Nat
  | .cons _ _ rest, env, v =>
    match v with | .cons x xs => rest.bits native (env.push x) v xs | _ => 0
  | _, _, _ => 0

def DVariants.bitsAt (native : Endian) (id : DId) : DVariants → Nat → Env → Val → Nat
  | .nil, _, _, _ => 0
  | .cons a fs _, 0, env, v =>
    match id with
    | .typed _ W ctx store =>
      if a.kind.isPat then (store.shape native W).2.1 + fs.bitsStored native env v
      else (ctx.shape native W).2.1 + fs.bits native env v v
    | .arg _ => fs.bits native env v v
  | .cons _ _ rest, i + 1, env, v => rest.bitsAt native id i env v

end

/-- The alignment after a field. -/
def DAttrs.check (o : Order) (ty : Align → Option Align) (a : DAttrs) (al : Align) : Option Align :=
  if (a.magic = [] ∨ bytesFit o al) ∧ (a.padBefore = none ∧ a.padAfter = none ∨ a.padOrder.getD .msb0 = o) then
    match ty (al.add (a.padBefore.getD 0)) with
    | none => none
    | some b =>
      some (((if a.skip = none ∧ a.cond = none then b else b.join (al.add (a.padBefore.getD 0)))).add
        (a.padAfter.getD 0))
  else none

mutual

/-- A definition all of whose fields have bit order `o`, read and written in the same layout: the alignment
after a value that starts at alignment `a`. -/
def Def.check (native : Endian) (o : Order) : Def → Align → Option Align
  | .leaf _ l, a => l.check native o a
  | .option t, a => t.check native o a
  | .array _ t, a => Align.loop (fun a => t.check native o a) a
  | .pair x y, a => match x.check native o a with | some b => y.check native o b | none => none
  | .vec _ _ t, a => Align.loop (fun a => t.check native o a) a
  | .bytes _ ctx, a => if a = some 0 ∧ ctx.isBits = false then some a else none
  | .struct _ magic fs, a => if magic = [] ∨ bytesFit o a then fs.check native o a else none
  | .enum _ magic id vs, a =>
    if magic = [] ∨ bytesFit o a then
      match vs.check native o id a with | some l => some (Align.joins l) | none => none
    else none

def DFields.check (native : Endian) (o : Order) : DFields → Align → Option Align
  | .nil, a => some a
  | .cons at' t rest, a =>
    match at'.check o (fun a => t.check native o a) a with | some b => rest.check native o b | none => none
  | .temp at' t _ rest, a =>
    match at'.check o (fun a => t.check native o a) a with | some b => rest.check native o b | none => none

def DFields.checkStored (native : Endian) (o : Order) : DFields → Align → Option Align
  | .cons _ _ rest, a => rest.check native o a
  | _, _ => none

/-- The alignments after the variants. A stored id must be written as it was read. -/
def DVariants.check (native : Endian) (o : Order) (id : DId) : DVariants → Align → Option (List Align)
  | .nil, _ => some []
  | .cons v fs rest, a =>
    match
      (match id with
        | .typed _ W ctx store =>
          match (Leaf.uint W ctx).check native o a with
          | some b =>
            if v.kind.isPat then (if store = ctx then fs.checkStored native o b else none)
            else fs.check native o b
          | none => none
        | .arg _ => fs.check native o a),
      rest.check native o id a with
    | some b, some l => some (b :: l)
    | _, _ => none

end

/-- The list is what the limit asks for. `n` is its size in bits, `some` says that every element has a
bit. -/
def Lim.good (env : Env) (vs : List Val) (n : Nat) (some : Bool) : Lim → Bool
  | .count e => decide (e.eval env = vs.length ∧ e.eval env < 2 ^ 64)
  | .bytes e => decide (8 * e.eval env = n ∧ n < 2 ^ 64) && some
  | .bits e => decide (e.eval env = n ∧ n < 2 ^ 64) && some
  | .until n => match vs.reverse with
    | [] => false
    | v :: vs => decide (v = .num n) && vs.all fun v => decide (v ≠ .num n)
  | .all => false

def Def.isOption : Def → Bool
  | .option _ => true
  | _ => false

/-- A field that is read is written, and a field that is not read has the default value and writes
nothing. -/
def DAttrs.good (a : DAttrs) (isOption : Bool) (ty : Env → Val → Bool) (env : Env) (x : Val) : Bool :=
  if a.toAttrs.isRead (env.at 0) then a.toAttrs.isWritten (env.at 0) && ty (env.at 0) x
  else decide (x = a.default) && (!a.toAttrs.isWritten (env.at 0) || (isOption && decide (x = .none)))

mutual

/-- The value is one the definition describes consistently: lists are as long as their limits say, optional
values are there where the condition holds, the id of a variant selects it, and the leaves come back. -/
def Def.good (m : Machine) : Def → Env → Val → Bool
  | .leaf _ l, _, v => l.good m v
  | .option t, env, v => match v with | .some x => t.good m env x | _ => false
  | .array _ t, env, v => v.elems.all fun x => t.good m env x
  | .pair a b, env, v =>
    match v with | .cons x (.cons y .nil) => a.good m env x && b.good m env y | _ => false
  | .vec zst l t, env, v =>
    (v.elems.all fun x => t.good m env x) && !zst && decide (v.elems.length ≤ m.mem) &&
    l.good env v.elems ((v.elems.map fun x => t.bits m.native env x).sum)
      (v.elems.all fun x => decide (t.bits m.native env x ≠ 0))
  | .bytes e _, env, v => decide (e.eval env = v.elems.length ∧ e.eval env < 2 ^ 61)
  | .struct args _ fs, env, v => fs.good m (inside args env) v v
  | .enum args _ id vs, env, v =>
    match v with
    | .variant i fs =>
      vs.goodAt m (fun x => decide (vs.select x = some i)) id i (inside args env) fs
    | _ => false

def DFields.good (m : Machine) : DFields → Env → Val → Val → Bool
  | .nil, _, _, _ => true
  | .cons a t rest, env, all, v =>
    match v with
    | .cons x xs => a.good t.isOption (fun env x => t.good m env x) env x && rest.good m (env.push x) all xs
    | _ => false
  | .temp a t value rest, env, all, v =>
    a.good t.isOption (fun env x => t.good m env x) env (value.eval all) &&
      rest.good m (env.push (value.eval all)) all v

/-- The first field stores an id that selects the variant. -/
def DFields.goodStored (m : Machine) (id : Val → Bool) : DFields → Env → Val → Bool
  | .cons _ _ rest, env, v =>
    match v with
    | .cons x xs => id x && rest.good m (env.push x) v xs
    | _ => false
  | _, _, _ => false

def DVariants.goodAt (m : Machine) (sel : Val → Bool) (id : DId) : DVariants → Nat → Env → Val → Bool
  | .nil, _, _, _ => false
  | .cons a fs _, 0, env, v =>
    match id with
    | .typed _ W ctx _ =>
      match a.kind with
      | .id n => sel (.num n) && (Leaf.uint W ctx).good m (.num n) && fs.good m env v v
      | _ => fs.goodStored m (fun x => sel x && (Leaf.uint W ctx).good m x) env v
    | .arg e => sel (e.val env) && fs.good m env v v
  | .cons _ _ rest, i + 1, env, v => rest.goodAt m sel id i env v

end

/-! ### errors -/

/-- A bit field refuses a value that does not fit; a field of whole bytes takes any value. -/
def fieldRefusal (bits fits : Bool) : Option DekuError := if bits && !fits then some .invalidParam else none

/-- The error with which a leaf refuses a value of its type. -/
def Leaf.refusal (native : Endian) (l : Leaf) (v : Val) : Option DekuError :=
  match l, v with
  | .uint W ctx, .num n | .nonzero W ctx, .num n =>
    fieldRefusal ctx.isBits (decide (n < 2 ^ (ctx.shape native W).2.1))
  | .sint W ctx, .num n | .nonzeroSigned W ctx, .num n =>
    fieldRefusal ctx.isBits
      (if ctx.noOrder then
        decide (-(2 ^ ((ctx.sshape native W).2.1 - 1)) ≤ n ∧ n < 2 ^ ((ctx.sshape native W).2.1 - 1))
      else decide (pattern W n < 2 ^ (ctx.sshape native W).2.1))
  | _, _ => none

/-- A padding too long for a `usize`. -/
def padRefusal (pad : Option Nat) : Option DekuError := if pad.getD 0 < 2 ^ 64 then none else some .invalidParam

/-- The first error of a field: the padding before, the assertion, the value if it is written, the padding
after. -/
def DAttrs.refusal (a : DAttrs) (ty : Env → Val → Option DekuError) (env : Env) (x : Val) : Option DekuError :=
  (padRefusal a.padBefore).or
  ((match a.assertEq with
    | none => none
    | some e => if x = e.val (env.at 0) then none else some DekuError.assertion).or
  ((if a.toAttrs.isWritten (env.at 0) then ty (env.at 0) x else none).or
  (padRefusal a.padAfter)))

mutual

/-- The error with which a value of the type is refused: the first one in the order of writing. -/
def Def.refusal (native : Endian) : Def → Env → Val → Option DekuError
  | .leaf _ l, _, v => l.refusal native v
  | .option t, env, v => match v with | .some x => t.refusal native env x | _ => none
  | .array _ t, env, v => v.elems.findSome? fun x => t.refusal native env x
  | .pair a b, env, v =>
    match v with | .cons x (.cons y .nil) => (a.refusal native env x).or (b.refusal native env y) | _ => none
  | .vec _ _ t, env, v => v.elems.findSome? fun x => t.refusal native env x
  | .bytes _ ctx, _, v => v.elems.findSome? fun x => (Leaf.uint 1 ctx).refusal native x
  | .struct args _ fs, env, v => fs.refusal native (inside args env) v v
  | .enum args _ id vs, env, v =>
    match v with | .variant i fs => vs.refusalAt native id i (inside args env) fs | _ => none

def DFields.refusal (native : Endian) : DFields → Env → Val → Val → Option DekuError
  | .nil, _, _, _ => none
  | .cons a t rest, env, all, v =>
    match v with
    | .cons x xs => (a.refusal (fun env x => t.refusal native env x) env x).or (rest.refusal native (env.push x) all xs)
    | _ => none
  | .temp a t value rest, env, all, v =>
    (a.refusal (fun env x => t.refusal native env x) env (value.eval all)).or
      (rest.refusal native (env.push (value.eval all)) all v)

def DFields.refusalStored (native : Endian) (l : Leaf) : DFields → Env → Val → Option DekuError
  | .cons _ _ rest, env, v =>
    match v with | .cons x xs => (l.refusal native x).or (rest.refusal native (env.push x) v xs) | _ => none
  | _, _, _ => none

def DVariants.refusalAt (native : Endian) (id : DId) : DVariants → Nat → Env → Val → Option DekuError
  | .nil, _, _, _ => none
  | .cons a fs _, 0, env, v =>
    match id with
    | .typed _ W ctx store =>
      match a.kind with
      | .id n => ((Leaf.uint W ctx).refusal native (.num n)).or (fs.refusal native env v v)
      | _ => fs.refusalStored native (.uint W store) env v
    | .arg _ => fs.refusal native env v v
  | .cons _ _ rest, i + 1, env, v => rest.refusalAt native id i env v

end

end Deku
