import Verif.Spec.Consistent
import Verif.Spec.Int

/-!
# Specification vocabulary: what an input stands for

A parser on lists of bits, made from the attributes as they are written: magic bytes, paddings, integers in the
endianness and size given, lists as long as their limits say. It has no buffers, positions or fast paths, and no context
types. Input is in one bit order. Where the attributes do not say what is meant, the parser has no opinion (`unclear`):
fields in the other bit order, bytes that do not begin where a byte begins, lists with more than one limit.
-/

namespace Deku

/-- Why there is no value. -/
inductive Why
  /-- There are too few bits. -/
  | short
  /-- There are too few bits, and the ones that are missing belong to a padding and are whole bytes. -/
  | beyond
  /-- Magic bytes, an id, a `bool`, a `NonZero`, a `CString` or a size are not what they have to be. -/
  | parse
  /-- A padding is too large for a `usize`. -/
  | invalidParam
  | assertion
  /-- A list is too long for the memory, or the number of its bits for a `usize`. -/
  | panic
  deriving DecidableEq

/-- What the code reports then. Skipping whole bytes beyond the end is not reported where it happens. -/
def Why.Reported {α : Type} (x : Res α) : Why → Prop
  | .short => ∃ n, x = .err (.incomplete n)
  | .beyond => False
  | .parse => x = .err .parse
  | .invalidParam => x = .err .invalidParam
  | .assertion => x = .err .assertion
  | .panic => x = .panic

/-- What is said of an input: it begins with this value, and these bits are left; it does not begin with a value; or
nothing is said. `peeked`: it may just have been asked whether there is anything left. -/
inductive Verdict (α : Type)
  | ok (a : α) (peeked : Bool) (left : List Bool)
  | no (w : Why)
  | unclear
  deriving DecidableEq

def Parser (α : Type) : Type := Bool → List Bool → Verdict α

namespace Parser

instance : Monad Parser where
  pure a := fun k l => .ok a k l
  bind q f := fun k l =>
    match q k l with
    | .ok a k' l' => f a k' l'
    | .no w => .no w
    | .unclear => .unclear

def fail {α : Type} (w : Why) : Parser α := fun _ _ => .no w

def unclear {α : Type} : Parser α := fun _ _ => .unclear

def guard (w : Why) (b : Bool) : Parser Unit := if b then pure () else fail w

/-- Nothing is said unless this is true. -/
def provided (b : Bool → List Bool → Bool) : Parser Unit := fun k l => if b k l then .ok () k l else .unclear

/-- The next `n` bits. -/
def take (n : Nat) : Parser (List Bool) := fun k l =>
  if n ≤ l.length then .ok (l.take n) (k && decide (n = 0)) (l.drop n) else .no .short

/-- The number of bits left. -/
def left : Parser Nat := fun k l => .ok l.length k l

/-- What follows is in bit order `o'`, in an input in bit order `o`: these are the same, or it is a number of bytes
(`whole`) and begins where a byte begins. -/
def inOrder (o o' : Order) (whole : Bool) : Parser Unit :=
  provided fun _ l => decide (o' = o) || (whole && decide (l.length % 8 = 0))

/-- The next `n` bits do not matter. -/
def drop (n : Nat) : Parser Unit := fun k l =>
  if n ≤ l.length then .ok () (k && decide (n = 0)) (l.drop n)
  else .no (if n % 8 = l.length % 8 then .beyond else .short)

/-- `n` bits that do not matter. Nothing is said about skipping bytes that have been peeked at. -/
def skip (o o' : Order) (n : Nat) : Parser Unit := do
  inOrder o o' (decide (n % 8 = 0))
  provided fun k _ => !k || decide (n < 8)
  drop n

/-- A number that is a `usize`. -/
def size (w : Why) (n : Int) : Parser Nat := do
  guard w (decide (0 ≤ n ∧ n < 2 ^ 64))
  pure n.toNat

/-- The next eight bits as a byte. -/
def octet (o : Order) : Parser Byte := do
  let l ← take 8
  pure (byteOf (present o l))

/-- A byte. -/
def byte (o : Order) : Parser Byte := do
  inOrder o .msb0 true
  octet o

def times {α : Type} (q : Parser α) : Nat → Parser (List α)
  | 0 => pure []
  | n + 1 => do
    let v ← q
    let vs ← q.times n
    pure (v :: vs)

/-- Values up to the first one that is the last; `last` knows the value and the number of bits since there were `start`
left. There are at most as many as the first number says. -/
def upTo {α : Type} (q : Parser α) (last : α → Nat → Bool) (start : Nat) : Nat → Parser (List α)
  | 0 => do let _ ← q; fail .panic
  | k + 1 => do
    let v ← q
    let n ← left
    if last v (start - n) then pure [v]
    else do
      let vs ← q.upTo last start k
      pure (v :: vs)

/-- Nothing is left. -/
def atEnd : Parser Bool := fun k l => .ok l.isEmpty (k || !l.isEmpty) l

/-- Values until nothing is left, at most as many as the number says. -/
def toEnd {α : Type} (q : Parser α) : Nat → Parser (List α)
  | 0 => do if ← atEnd then pure [] else do let _ ← q; fail .panic
  | k + 1 => do
    if ← atEnd then pure []
    else do
      let v ← q
      let vs ← q.toEnd k
      pure (v :: vs)

end Parser

open Parser

/-! ### leaves -/

def magicParse (o : Order) : List Byte → Parser Unit
  | [] => pure ()
  | b :: bs => do
    let x ← byte o
    guard .parse (decide (x = b))
    magicParse o bs

/-- The bits of an integer. -/
def intParse (o : Order) (args : List Arg) (W : Nat) : Parser (List Bool) := do
  inOrder o (orderOf args) (!bitSized args)
  take ((sizeOf? args).getD (8 * W))

def unsignedOf (o : Order) (native : Endian) (args : List Arg) (l : List Bool) : Int :=
  (fieldValue (endianOf native args) o l : Nat)

/-- A number given in bits is sign extended if there is an endianness, or if it is not a number of bytes. -/
def signedOf (o : Order) (native : Endian) (args : List Arg) (W : Nat) (l : List Bool) : Int :=
  let v := fieldValue (endianOf native args) o l
  if bitSized args && (endianGiven args || decide (l.length % 8 ≠ 0)) then twosComplement l.length (v % 2 ^ l.length)
  else twosComplement (8 * W) v

/-- One NUL, at the end. -/
def stringParse (bs : List Byte) : Parser Val := do
  guard .parse (decide (bs.getLast? = some 0 ∧ 0 ∉ bs.dropLast))
  pure (.ofList (bs.dropLast.map .ofByte))

def Base.parse (o : Order) (m : Machine) (args : List Arg) : Base → Parser Val
  | .uint W => do let l ← intParse o args W; pure (.num (unsignedOf o m.native args l))
  | .sint W => do let l ← intParse o args W; pure (.num (signedOf o m.native args W l))
  | .nonzero W => do
    let l ← intParse o args W
    guard .parse (decide (unsignedOf o m.native args l ≠ 0))
    pure (.num (unsignedOf o m.native args l))
  | .nonzeroSigned W => do
    let l ← intParse o args W
    guard .parse (decide (signedOf o m.native args W l ≠ 0))
    pure (.num (signedOf o m.native args W l))
  | .bool => do
    let l ← intParse o args 1
    guard .parse (decide (unsignedOf o m.native args l = 0 ∨ unsignedOf o m.native args l = 1))
    pure (.num (unsignedOf o m.native args l))
  | .cstring =>
    match sizeOf? args with
    | none => do let bs ← (byte o).upTo (fun b _ => decide (b = 0)) 0 m.mem; stringParse bs
    | some n => do guard .panic (decide (n / 8 ≤ m.mem)); let bs ← (byte o).times (n / 8); stringParse bs
  | .unit => pure .nil

/-! ### lists -/

/-- The elements of a list with this limit. Lists of elements of size zero are empty. -/
def Lim.parse (mem : Nat) (zst : Bool) (env : Env) (q : Parser Val) : Lim → Parser (List Val)
  | .count e => do
    let n ← size .parse (e.eval env)
    if zst then pure [] else do
      guard .panic (decide (n ≤ mem))
      q.times n
  | .bytes e => do
    let n ← size .parse (e.eval env)
    let n ← size .panic (8 * n)
    if zst || decide (n = 0) then pure [] else do
      let start ← left
      q.upTo (fun _ k => decide (k = n)) start mem
  | .bits e => do
    let n ← size .parse (e.eval env)
    if zst || decide (n = 0) then pure [] else do
      let start ← left
      q.upTo (fun _ k => decide (k = n)) start mem
  | .until n => if zst then pure [] else q.upTo (fun v _ => decide (v = .num n)) 0 mem
  | .all => if zst then pure [] else q.toEnd mem

/-- A `Vec<u8>` with a `count`. Nothing is said if it is given in bits. -/
def bytesParse (o : Order) (args : List Arg) (env : Env) (n : Expr) : Parser Val := do
  provided fun k _ => !k && !bitSized args
  let n ← size .parse (n.eval env)
  inOrder o .lsb0 true
  let k ← left
  guard .panic (decide (8 * n ≤ k ∨ 8 * n < 2 ^ 64))
  let bs ← (octet o).times n
  pure (.ofList (bs.map .ofByte))

/-! ### fields -/

def padParse (o : Order) (order : Option Order) (bits bytes : Option Nat) : Parser Unit :=
  if bits.isNone && bytes.isNone then pure ()
  else do
    guard .invalidParam (padSmall bits bytes)
    skip o (order.getD .msb0) (bits.getD 0 + 8 * bytes.getD 0)

/-- What `assert_eq` asks for. -/
def SAttrs.passed (a : SAttrs) (env : Env) (v : Val) : Bool :=
  match a.assertEq with
  | none => true
  | some e => decide (v = .num (e.eval env))

/-- Magic bytes, padding, the value, what is asserted, padding. -/
def SAttrs.parse (o : Order) (order : Option Order) (a : SAttrs) (default : Option Val) (value : Parser Val) (env : Env) :
    Parser Val := do
  magicParse o a.magic
  padParse o order a.padBitsBefore a.padBytesBefore
  let v ← (if a.parsed env then value else match a.default.or default with | some v => pure v | none => unclear)
  guard .assertion (a.passed env v)
  padParse o order a.padBitsAfter a.padBytesAfter
  pure v

/-- The first variant that takes the id, otherwise the first default one. -/
def SVariants.choose (vs : SVariants) (n : Int) : Option Nat :=
  (vs.heads.findIdx? fun a => a.kind.takes n).or (vs.heads.findIdx? fun a => a.default)

/-- The variant of this number, if there is one. -/
def Parser.choose (i : Option Nat) (fields : Nat → Parser Val) : Parser Val :=
  match i with
  | some i => do let fs ← fields i; pure (.variant i fs)
  | none => fail .parse

def SId.parse (o : Order) (m : Machine) (c : Container) (sc : List Arg) (env : Env) : SId → Parser Int
  | .ctx e => pure (e.eval env)
  | .typed W e bits bytes => do
    let l ← intParse o ((SId.typed W e bits bytes).passes c sc) W
    pure (unsignedOf o m.native ((SId.typed W e bits bytes).passes c sc) l)

mutual

/-- What the source says of an input. `lims` are the limits written on the field. -/
def STy.parse (o : Order) (m : Machine) : STy → List Lim → List Arg → Env → Parser Val
  | .base b, _, args, _ => b.parse o m args
  | .option t, lims, args, env => do let v ← t.parse o m lims args env; pure (.some v)
  | .array n t, lims, args, env => do let vs ← (t.parse o m lims args env).times n; pure (.ofList vs)
  | .pair a b, lims, args, env => do
    let x ← a.parse o m lims args env
    let y ← b.parse o m lims args env
    pure (.cons x (.cons y .nil))
  | .vec zst t, lims, args, env =>
    match lims with
    | [l] => do let vs ← l.parse m.mem zst env (t.parse o m [] args env); pure (.ofList vs)
    | _ => unclear
  | .struct c fs, _, args, env => do
    magicParse o c.magic
    fs.parse o m c (c.scope args) (inside ((c.scope args).map Arg.expr) env)
  | .enum c id vs, _, args, env => do
    magicParse o c.magic
    let n ← id.parse o m c (c.scope args) (inside ((c.scope args).map Arg.expr) env)
    choose (vs.choose n)
      (vs.parseAt o m c (c.scope args) id.size.isSome (inside ((c.scope args).map Arg.expr) env) n)

def SFields.parse (o : Order) (m : Machine) (c : Container) : SFields → List Arg → Env → Parser Val
  | .nil, _, _ => pure .nil
  | .cons a t rest, sc, env => do
    let v ← a.parse o ((a.order.or c.order).bind (·.means Arg.order? sc)) t.default
      (match a.limits, t.isVecU8 with
        | [.count n], true => bytesParse o (a.passes c sc) env n
        | lims, _ => t.parse o m lims (a.passes c sc) env) env
    let vs ← rest.parse o m c sc (env.push v)
    pure (if a.temp.isSome then vs else .cons v vs)

/-- The fields of variant number `i`. If the id was read, a variant with a pattern has it as its first field. -/
def SVariants.parseAt (o : Order) (m : Machine) (c : Container) : SVariants → List Arg → Bool → Env → Int → Nat → Parser Val
  | .nil, _, _, _, _, _ => fail .panic
  | .cons a fs _, sc, typed, env, n, 0 =>
    if a.kind.isPat && typed then fs.parseStored o m c sc env n else fs.parse o m c sc env
  | .cons _ _ rest, sc, typed, env, n, i + 1 => rest.parseAt o m c sc typed env n i

def SFields.parseStored (o : Order) (m : Machine) (c : Container) : SFields → List Arg → Env → Int → Parser Val
  | .nil, _, _, _ => fail .panic
  | .cons _ _ rest, sc, env, n => do
    let vs ← rest.parse o m c sc (env.push (.num n))
    pure (.cons (.num n) vs)

end

/-! ### inputs -/

/-- What the source says of a byte string, after `off` bits. -/
def STy.parseBytes (o : Order) (m : Machine) (t : STy) (data : List Byte) (off : Nat) : Verdict Val :=
  (if off = 0 then t.parse o m [] [] {} else do
    skip o .msb0 off
    t.parse o m [] [] {}) false (orderBits o data)

/-! ### sources of which everything is said

How many bits into a byte everything begins. -/

/-- From the number of bits into a byte to the ones there can be behind; `none`: something is unclear. -/
abbrev Phases := Nat → Option (List Nat)

namespace Phases

def still : Phases := fun n => some [n]

def move (k : Nat) : Phases := fun n => some [(n + k) % 8]

def stuck : Phases := fun _ => some []

def merge (a b : List Nat) : List Nat := a.filter (fun n => decide (n ∉ b)) ++ b

/-- Where it begins at one of these. -/
def after (f : Phases) : List Nat → Option (List Nat)
  | [] => some []
  | n :: ns => do
    let a ← f n
    let b ← f.after ns
    some (merge a b)

def seq (f g : Phases) : Phases := fun n => do
  let ns ← f n
  g.after ns

def either (f g : Phases) : Phases := fun n => do
  let a ← f n
  let b ← g n
  some (merge a b)

def inOrder (o o' : Order) (whole : Bool) (f : Phases) : Phases := fun n =>
  if decide (o' = o) || (whole && decide (n = 0)) then f n else none

def times (f : Phases) : Nat → Phases
  | 0 => still
  | k + 1 => f.seq (f.times k)

def closure (f : Phases) : Nat → List Nat → List Nat
  | 0, ns => ns
  | k + 1, ns =>
    match f.after ns with
    | some ms => f.closure k (merge ms ns)
    | none => ns

/-- Any number of times. -/
def loop (f : Phases) : Phases := fun n =>
  match f.after (f.closure 8 [n]) with
  | some ms => if ms.all (f.closure 8 [n]).contains then some (f.closure 8 [n]) else none
  | none => none

/-- Anywhere, and then at a known place. -/
def loopTo (f : Phases) (place : Nat → Nat) : Phases := fun n => do
  let _ ← f.loop n
  some [place n]

end Phases

open Phases in
def intPhases (o : Order) (args : List Arg) (W : Nat) : Phases :=
  Phases.inOrder o (orderOf args) (!bitSized args) (move ((sizeOf? args).getD (8 * W)))

def Base.phases (o : Order) (args : List Arg) : Base → Phases
  | .uint W | .sint W | .nonzero W | .nonzeroSigned W => intPhases o args W
  | .bool => intPhases o args 1
  | .cstring => Phases.inOrder o .msb0 true .still
  | .unit => .still

def magicPhases (o : Order) (magic : List Byte) : Phases :=
  if magic.isEmpty then .still else Phases.inOrder o .msb0 true .still

def skipPhases (o o' : Order) (n : Nat) : Phases := Phases.inOrder o o' (decide (n % 8 = 0)) (.move n)

def padPhases (o : Order) (order : Option Order) (bits bytes : Option Nat) : Phases :=
  if bits.isNone && bytes.isNone then .still else skipPhases o (order.getD .msb0) (bits.getD 0 + 8 * bytes.getD 0)

def SId.phases (o : Order) (c : Container) (sc : List Arg) : SId → Phases
  | .ctx _ => .still
  | .typed W e bits bytes => intPhases o ((SId.typed W e bits bytes).passes c sc) W

/-- A field that may be left out needs a default value. -/
def SAttrs.phases (o : Order) (order : Option Order) (a : SAttrs) (default : Option Val) (value : Phases) : Phases :=
  (magicPhases o a.magic).seq ((padPhases o order a.padBitsBefore a.padBytesBefore).seq (Phases.seq
    (if a.always then value else if (a.default.or default).isSome then
      (if (a.skip = some .read ∨ a.skip = some .all) ∧ a.cond = none then .still else value.either .still) else fun _ => none)
    (padPhases o order a.padBitsAfter a.padBytesAfter)))

/-- There is a bit that is read first. -/
def intEager (args : List Arg) (W : Nat) : Bool := decide (1 ≤ (sizeOf? args).getD (8 * W))

def Base.eager (args : List Arg) : Base → Bool
  | .uint W | .sint W | .nonzero W | .nonzeroSigned W => intEager args W
  | .bool => intEager args 1
  | .cstring => match sizeOf? args with | none => true | some n => decide (8 ≤ n)
  | .unit => false

def SAttrs.eager (a : SAttrs) (value : Bool) : Bool :=
  !a.magic.isEmpty || (a.padBitsBefore.isNone && a.padBytesBefore.isNone && a.always && value)

mutual

def STy.eager : STy → List Arg → Bool
  | .base b, args => b.eager args
  | .option t, args => t.eager args
  | .array n t, args => decide (n ≠ 0) && t.eager args
  | .pair a _, args => a.eager args
  | .vec .., _ => false
  | .struct c fs, args => !c.magic.isEmpty || fs.eager c (c.scope args)
  | .enum c id _, args => !c.magic.isEmpty || match id with
    | .ctx _ => false
    | .typed W e bits bytes => intEager ((SId.typed W e bits bytes).passes c (c.scope args)) W

def SFields.eager : SFields → Container → List Arg → Bool
  | .nil, _, _ => false
  | .cons a t _, c, sc => a.eager (t.eager (a.passes c sc))

end

/-- The limit of a list; elements that are read to the end of the input have to begin with a bit. -/
def Lim.phases (zst eager : Bool) (f : Phases) : Lim → Phases
  | .count _ | .bits _ | .until _ => if zst then .still else f.loop
  | .bytes _ => if zst then .still else f.loopTo id
  | .all => if zst then .still else if eager then f.loopTo fun _ => 0 else fun _ => none

mutual

def STy.phases (o : Order) : STy → List Lim → List Arg → Phases
  | .base b, _, args => b.phases o args
  | .option t, lims, args => t.phases o lims args
  | .array n t, lims, args => (t.phases o lims args).times n
  | .pair a b, lims, args => (a.phases o lims args).seq (b.phases o lims args)
  | .vec zst t, lims, args =>
    match lims with
    | [l] => l.phases zst (t.eager args) (t.phases o [] args)
    | _ => fun _ => none
  | .struct c fs, _, args => (magicPhases o c.magic).seq (fs.phases o c (c.scope args))
  | .enum c id vs, _, args =>
    (magicPhases o c.magic).seq ((id.phases o c (c.scope args)).seq (vs.phases o c (c.scope args) id.size.isSome))

def SFields.phases (o : Order) (c : Container) : SFields → List Arg → Phases
  | .nil, _ => .still
  | .cons a t rest, sc =>
    (a.phases o ((a.order.or c.order).bind (·.means Arg.order? sc)) t.default
      (match a.limits, t.isVecU8 with
        | [.count _], true => if bitSized (a.passes c sc) then fun _ => none else Phases.inOrder o .lsb0 true .still
        | lims, _ => t.phases o lims (a.passes c sc))).seq (rest.phases o c sc)

/-- The field that stores the id (`typed`) is not read. -/
def SVariants.phases (o : Order) (c : Container) : SVariants → List Arg → Bool → Phases
  | .nil, _, _ => .stuck
  | .cons a fs rest, sc, typed =>
    (if a.kind.isPat && typed then fs.phasesStored o c sc else fs.phases o c sc).either (rest.phases o c sc typed)

def SFields.phasesStored (o : Order) (c : Container) : SFields → List Arg → Phases
  | .nil, _ => .stuck
  | .cons _ _ rest, sc => rest.phases o c sc

end

/-- Something is said of every input, after `off` bits. -/
def STy.clear (o : Order) (t : STy) (off : Nat) : Bool :=
  ((if off = 0 then Phases.still else skipPhases o .msb0 off).seq (t.phases o [] []) 0).isSome

end Deku
