import Verif.Spec.Source
import Verif.Spec.Core

/-!
# Specification vocabulary: what a source describes

The values of a type, the sizes that are possible, and the bits a value stands for, from the attributes as they are
written: magic bytes, zeros for paddings, integers in the endianness and size given, one after the other. There is no
reader, no writer and no context type here.

The description is a list of pieces, in one bit order: Msb0 or Lsb0. In Lsb0, what is given in whole bytes has to begin
where a byte begins (`onBytes`).
-/

namespace Deku

/-! ### arguments -/

/-- The endianness among the arguments, otherwise that of the machine. -/
def endianOf (native : Endian) (args : List Arg) : Endian :=
  (args.findSome? fun | .endian e => some e | _ => none).getD native

/-- The size among the arguments, in bits. -/
def sizeOf? (args : List Arg) : Option Nat :=
  args.findSome? fun | .bits n => some n | .bytes k => some (8 * k) | _ => none

/-- The bit order among the arguments. -/
def orderOf (args : List Arg) : Order :=
  (args.findSome? fun | .order o => some o | _ => none).getD .msb0

/-- A size attribute. -/
def sizeArg (bits bytes : Option Nat) : List Arg :=
  match bits, bytes with
  | some n, _ => [.bits n]
  | none, some k => [.bytes k]
  | none, none => []

/-- What an attribute stands for: what is written, or the argument of that number, if it is of the right type. -/
def Given.means {α : Type} (pick : Arg → Option α) (args : List Arg) : Given α → Option α
  | .lit a => some a
  | .arg i => args[i]?.bind pick

def Arg.endian? : Arg → Option Endian
  | .endian e => some e
  | _ => none

def Arg.order? : Arg → Option Order
  | .order o => some o
  | _ => none

/-- What is passed for an argument in `ctx`. -/
def CtxArg.means (args : List Arg) : CtxArg → Option Arg
  | .endian g => (g.means Arg.endian? args).map .endian
  | .order g => (g.means Arg.order? args).map .order
  | .num e => some (.num e)

/-- What an argument in `ctx_default` stands for: a literal for itself. -/
def CtxArg.literal : CtxArg → Option Arg
  | .endian (.lit e) => some (.endian e)
  | .order (.lit o) => some (.order o)
  | .num (.lit n) => some (.num (.lit n))
  | _ => none

/-- What a field gets: its endianness or that of the type, its size, its bit order or that of the type, its `ctx`. -/
def SAttrs.passes (c : Container) (env : List Arg) (a : SAttrs) : List Arg :=
  (((a.endian.or c.endian).bind (·.means Arg.endian? env)).map Arg.endian).toList ++ sizeArg a.bits a.bytes ++
    (((a.order.or c.order).bind (·.means Arg.order? env)).map Arg.order).toList ++ a.ctx.filterMap (·.means env)

/-- What the id of an enum gets: `id_endian`, otherwise `endian`. -/
def SId.passes (c : Container) (env : List Arg) : SId → List Arg
  | .typed _ e bits bytes =>
    (((e.or c.endian).bind (·.means Arg.endian? env)).map Arg.endian).toList ++ sizeArg bits bytes ++
      ((c.order.bind (·.means Arg.order? env)).map Arg.order).toList
  | .ctx _ => []

/-- What the names in `ctx` stand for. -/
def Container.scope (c : Container) (args : List Arg) : List Arg :=
  if args = [] ∧ c.params ≠ [] then (c.ctxDefault.getD []).filterMap CtxArg.literal else args

/-! ### bit orders -/

def Arg.msb : Arg → Bool
  | .order .lsb0 => false
  | _ => true

def CtxArg.msb : CtxArg → Bool
  | .order (.lit .lsb0) => false
  | _ => true

/-- Not `bit_order = "lsb"`. -/
def givenMsb (g : Option (Given Order)) : Bool := decide (g ≠ some (.lit .lsb0))

def Container.msb (c : Container) : Bool := givenMsb c.order && (c.ctxDefault.getD []).all (·.msb)

def SAttrs.msb (a : SAttrs) : Bool := givenMsb a.order && a.ctx.all (·.msb)

mutual

/-- `bit_order = "lsb"` is nowhere in the definition. -/
def STy.msb : STy → Bool
  | .base _ => true
  | .option t => t.msb
  | .array _ t => t.msb
  | .pair a b => a.msb && b.msb
  | .vec _ t => t.msb
  | .struct c fs => c.msb && fs.msb
  | .enum c _ vs => c.msb && vs.msb

def SFields.msb : SFields → Bool
  | .nil => true
  | .cons a t rest => a.msb && t.msb && rest.msb

def SVariants.msb : SVariants → Bool
  | .nil => true
  | .cons _ fs rest => fs.msb && rest.msb

end

/-- The size is given by `bits`. -/
def bitSized (args : List Arg) : Bool := args.any fun | .bits _ => true | _ => false

/-- An integer whose size is given in bits is in bit order `o`. In Lsb0 and big endian it is at most a byte or as large
as its type (`C17_counterexample`). -/
def intOrdered (o : Order) (native : Endian) (args : List Arg) (W : Nat) : Bool :=
  !bitSized args || decide (orderOf args = o ∧ (o = .lsb0 → endianOf native args = .big →
    (sizeOf? args).getD (8 * W) ≤ 8 ∨ (sizeOf? args).getD (8 * W) = 8 * W))

def Base.ordered (o : Order) (native : Endian) (args : List Arg) : Base → Bool
  | .uint W | .sint W | .nonzero W | .nonzeroSigned W => intOrdered o native args W
  | .bool => intOrdered o native args 1
  | _ => true

def SId.ordered (o : Order) (native : Endian) (c : Container) (env : List Arg) : SId → Bool
  | .typed W e bits bytes => intOrdered o native ((SId.typed W e bits bytes).passes c env) W
  | .ctx _ => true

/-- A padding is in bit order `o`. -/
def SAttrs.ordered (o : Order) (c : Container) (env : List Arg) (a : SAttrs) : Bool :=
  (a.padBitsBefore.isNone && a.padBytesBefore.isNone && a.padBitsAfter.isNone && a.padBytesAfter.isNone) ||
    decide (((a.order.or c.order).bind (·.means Arg.order? env)).getD .msb0 = o)

mutual

/-- All that is given in bits is in bit order `o`. -/
def STy.ordered (o : Order) (native : Endian) : STy → List Arg → Bool
  | .base b, args => b.ordered o native args
  | .option t, args => t.ordered o native args
  | .array _ t, args => t.ordered o native args
  | .pair a b, args => a.ordered o native args && b.ordered o native args
  | .vec _ t, args => t.ordered o native args
  | .struct c fs, args => fs.ordered o native c (c.scope args)
  | .enum c id vs, args => id.ordered o native c (c.scope args) && vs.ordered o native c (c.scope args)

def SFields.ordered (o : Order) (native : Endian) (c : Container) : SFields → List Arg → Bool
  | .nil, _ => true
  | .cons a t rest, env => a.ordered o c env && t.ordered o native (a.passes c env) && rest.ordered o native c env

def SVariants.ordered (o : Order) (native : Endian) (c : Container) : SVariants → List Arg → Bool
  | .nil, _ => true
  | .cons _ fs rest, env => fs.ordered o native c env && rest.ordered o native c env

end

/-! ### sizes -/

/-- The size is at least a bit and at most that of the type. -/
def intSized (args : List Arg) (W : Nat) : Bool :=
  decide (1 ≤ W ∧ 1 ≤ (sizeOf? args).getD (8 * W) ∧ (sizeOf? args).getD (8 * W) ≤ 8 * W)

def Base.sized (args : List Arg) : Base → Bool
  | .uint W | .sint W | .nonzero W | .nonzeroSigned W => intSized args W
  | .bool => intSized args 1
  | .cstring => decide ((sizeOf? args).getD 0 / 8 < 2 ^ 64)
  | .unit => true

def SId.sized (c : Container) (env : List Arg) : SId → Bool
  | .typed W e bits bytes => intSized ((SId.typed W e bits bytes).passes c env) W
  | .ctx _ => true

/-- An id that is written down is one of the type of the id. -/
def SId.holds (id : SId) (k : VKind) : Bool :=
  match id, k with
  | .typed W _ _ _, .id n => decide (0 ≤ n ∧ n < 256 ^ W)
  | _, _ => true

mutual

/-- All sizes given are possible, and ids are of their types. -/
def STy.sized : STy → List Arg → Bool
  | .base b, args => b.sized args
  | .option t, args => t.sized args
  | .array _ t, args => t.sized args
  | .pair a b, args => a.sized args && b.sized args
  | .vec _ t, args => t.sized args
  | .struct c fs, args => fs.sized c (c.scope args)
  | .enum c id vs, args => id.sized c (c.scope args) && vs.sized c id (c.scope args)

def SFields.sized (c : Container) : SFields → List Arg → Bool
  | .nil, _ => true
  | .cons a t rest, env => t.sized (a.passes c env) && rest.sized c env

def SVariants.sized (c : Container) (id : SId) : SVariants → List Arg → Bool
  | .nil, _ => true
  | .cons a fs rest, env => id.holds a.kind && fs.sized c env && rest.sized c id env

end

/-! ### values -/

/-- The value is one of the type. -/
def Base.has (b : Base) (v : Val) : Bool :=
  match b, v with
  | .uint W, .num n => decide (0 ≤ n ∧ n < 256 ^ W)
  | .nonzero W, .num n => decide (0 < n ∧ n < 256 ^ W)
  | .sint W, .num n => decide (-(256 ^ W) ≤ 2 * n ∧ 2 * n < 256 ^ W)
  | .nonzeroSigned W, .num n => decide (n ≠ 0 ∧ -(256 ^ W) ≤ 2 * n ∧ 2 * n < 256 ^ W)
  | .bool, .num n => decide (n = 0 ∨ n = 1)
  | .cstring, v => v.isList && v.elems.all fun x => match x with | .num n => decide (0 < n ∧ n < 256) | _ => false
  | .unit, v => decide (v = .nil)
  | _, _ => false

mutual

/-- The value is one of the (Rust) type. -/
def STy.has : STy → Val → Bool
  | .base b, v => b.has v
  | .option t, v => match v with | .none => true | .some x => t.has x | _ => false
  | .array n t, v => v.isList && decide (v.elems.length = n) && v.elems.all fun x => t.has x
  | .pair a b, v => match v with | .cons x (.cons y .nil) => a.has x && b.has y | _ => false
  | .vec _ t, v => v.isList && v.elems.all fun x => t.has x
  | .struct _ fs, v => fs.has v v
  | .enum _ _ vs, v => match v with | .variant i fs => vs.hasAt i fs | _ => false

/-- Temporary fields are not among the fields, but the values they are written with have a type. -/
def SFields.has : SFields → Val → Val → Bool
  | .nil, _, v => decide (v = .nil)
  | .cons a t rest, all, v =>
    match a.temp with
    | some f => t.has (f.eval all) && rest.has all v
    | none => match v with | .cons x xs => t.has x && rest.has all xs | _ => false

def SVariants.hasAt : SVariants → Nat → Val → Bool
  | .nil, _, _ => false
  | .cons _ fs _, 0, v => fs.has v v
  | .cons _ _ rest, i + 1, v => rest.hasAt i v

end

/-! ### bits -/

/-- A piece of a description. `whole`: it is given in bytes. `strict`: it is read correctly only where a byte begins. -/
structure Piece where
  whole : Bool
  strict : Bool
  bits : List Bool

/-- One piece after the other. -/
def flat (l : List Piece) : List Bool := l.flatMap (·.bits)

/-- Beginning at bit `p`, pieces given in bytes begin at a byte. -/
def onBytes : Nat → List Piece → Bool
  | _, [] => true
  | p, x :: l => (!x.whole || decide (p % 8 = 0)) && onBytes (p + x.bits.length) l

/-- Beginning at bit `p`, pieces begin at a byte where they have to: in Lsb0 those given in bytes. -/
def settled (o : Order) : Nat → List Piece → Bool
  | _, [] => true
  | p, x :: l => (!(decide (o = .lsb0) && x.whole || x.strict) || decide (p % 8 = 0)) && settled o (p + x.bits.length) l

def bytesPiece (o : Order) (bs : List Byte) : Piece := ⟨!bs.isEmpty, false, orderBits o bs⟩

def zerosPiece (n : Nat) : Piece := ⟨false, false, List.replicate n false⟩

/-- An integer of a type of `W` bytes: as many of its low order bits (in two's complement) as the size says. Whole bytes
of the other bit order begin at a byte. -/
def intPiece (o : Order) (native : Endian) (args : List Arg) (W : Nat) (v : Int) : Piece :=
  ⟨!bitSized args, !bitSized args && decide (orderOf args ≠ o),
    fieldBits (endianOf native args) o ((sizeOf? args).getD (8 * W)) (v % 2 ^ (sizeOf? args).getD (8 * W)).toNat⟩

def Base.wire (o : Order) (native : Endian) (args : List Arg) (b : Base) (v : Val) : List Piece :=
  match b, v with
  | .uint W, .num n | .sint W, .num n | .nonzero W, .num n | .nonzeroSigned W, .num n => [intPiece o native args W n]
  | .bool, .num n => [intPiece o native args 1 n]
  | .cstring, v => [bytesPiece o (v.elems.map Val.toByte ++ [0])]
  | _, _ => []

/-- The field is written: `skip` for writing leaves it out, where the condition is true if there is one. -/
def SAttrs.written (a : SAttrs) (env : Env) : Bool :=
  match a.skip, a.cond with
  | none, _ | some .read, _ => true
  | some _, none => false
  | some _, some c => !c.eval env

/-- A `Vec<u8>` with a `count` is read as bytes, from the beginning of one. -/
def SAttrs.mark (a : SAttrs) (t : STy) : List Piece := if a.count.isSome && t.isVecU8 then [⟨false, true, []⟩] else []

/-- The field with what surrounds it: magic, padding, the value, padding. -/
def SAttrs.wire (o : Order) (a : SAttrs) (env : Env) (value : List Piece) : List Piece :=
  [bytesPiece o a.magic] ++ [zerosPiece (a.padBitsBefore.getD 0 + 8 * a.padBytesBefore.getD 0)] ++
    (if a.written env then value else []) ++ [zerosPiece (a.padBitsAfter.getD 0 + 8 * a.padBytesAfter.getD 0)]

mutual

/-- The bits of a value; `args` are the arguments passed to the type. -/
def STy.wire (o : Order) (native : Endian) : STy → List Arg → Env → Val → List Piece
  | .base b, args, _, v => b.wire o native args v
  | .option t, args, env, v => match v with | .some x => t.wire o native args env x | _ => []
  | .array _ t, args, env, v => v.elems.flatMap fun x => t.wire o native args env x
  | .pair a b, args, env, v =>
    match v with | .cons x (.cons y .nil) => a.wire o native args env x ++ b.wire o native args env y | _ => []
  | .vec _ t, args, env, v => v.elems.flatMap fun x => t.wire o native args env x
  | .struct c fs, args, env, v =>
    [bytesPiece o c.magic] ++ fs.wire o native c (c.scope args) (inside ((c.scope args).map Arg.expr) env) v v
  | .enum c id vs, args, env, v =>
    match v with
    | .variant i fs =>
      [bytesPiece o c.magic] ++ vs.wireAt o native c id i (c.scope args) (inside ((c.scope args).map Arg.expr) env) fs
    | _ => []

/-- `all` are all fields of the value, which `temp_value` refers to, `v` those from here on. -/
def SFields.wire (o : Order) (native : Endian) (c : Container) : SFields → List Arg → Env → Val → Val → List Piece
  | .nil, _, _, _, _ => []
  | .cons a t rest, sc, env, all, v =>
    match a.temp with
    | some f => a.wire o env (a.mark t ++ t.wire o native (a.passes c sc) env (f.eval all)) ++
        rest.wire o native c sc (env.push (f.eval all)) all v
    | none =>
      match v with
      | .cons x xs =>
        a.wire o env (a.mark t ++ t.wire o native (a.passes c sc) env x) ++ rest.wire o native c sc (env.push x) all xs
      | _ => []

/-- The first field stores the id. -/
def SFields.wireStored (o : Order) (native : Endian) (c : Container) (id : Int → Piece) :
    SFields → List Arg → Env → Val → List Piece
  | .nil, _, _, _ => []
  | .cons _ _ rest, sc, env, v =>
    match v with
    | .cons x xs => (match x with | .num n => [id n] | _ => []) ++ rest.wire o native c sc (env.push x) v xs
    | _ => []

/-- The id, unless it is known from the context, and the fields. -/
def SVariants.wireAt (o : Order) (native : Endian) (c : Container) (id : SId) :
    SVariants → Nat → List Arg → Env → Val → List Piece
  | .nil, _, _, _, _ => []
  | .cons a fs _, 0, sc, env, v =>
    match id, a.kind with
    | .typed W e bits bytes, .id n =>
      [intPiece o native ((SId.typed W e bits bytes).passes c sc) W n] ++ fs.wire o native c sc env v v
    | .typed W e bits bytes, _ =>
      fs.wireStored o native c (intPiece o native ((SId.typed W e bits bytes).passes c sc) W) sc env v
    | .ctx _, _ => fs.wire o native c sc env v v
  | .cons _ _ rest, i + 1, sc, env, v => rest.wireAt o native c id i sc env v

end

/-- The bits that a source without arguments describes for a value. -/
def STy.described (o : Order) (native : Endian) (t : STy) (env : Env) (v : Val) : List Bool :=
  flat (t.wire o native [] env v)

/-- In Lsb0, bytes begin at bytes. -/
def STy.even (o : Order) (native : Endian) (t : STy) (env : Env) (v : Val) : Bool :=
  decide (o = .msb0) || onBytes 0 (t.wire o native [] env v)

/-- All pieces begin where they can be read. -/
def STy.aligned (o : Order) (native : Endian) (t : STy) (env : Env) (v : Val) : Bool :=
  settled o 0 (t.wire o native [] env v)

/-- The bits in bytes, with zeros at the end. -/
def Packed (o : Order) (out : List Byte) (bits : List Bool) : Prop :=
  orderBits o out = bits ++ List.replicate ((8 - bits.length % 8) % 8) false

end Deku
