import Verif.Model.Derive

/-!
# Names in attributes

In `Verif/Model/Derive.lean` attribute expressions refer to the fields before by their number. In the
source they refer to names, and what a name stands for is decided by the scopes of the emitted code.
Here are reading and writing once more, with these scopes.

While reading, the arguments of `ctx` are the parameters of the function and each field is bound by a
`let` after it has been read (deku_read.rs:1000-1003). While writing, the whole value is taken apart by
one pattern (`match *self { Foo { ref a, ref b } => ..`, deku_write.rs:94-102, 137-147; variants 337,
343-352), so that all fields are bound from the start, also those not written yet, and hide arguments of
the same name; only temporary fields are bound when their turn comes (deku_write.rs:798-813).
`deku::bit_offset` is a `let` too (deku_read.rs:573-601, deku_write.rs:523-543): it is there only if one
of certain attributes of the field mentions it, is not renewed by the fields after, and is still visible
to them.
-/

namespace Deku

abbrev Name := String

/-- What the names in an attribute stand for: fields and arguments, and `deku::bit_offset` (0 if there is
none; mentioning it does not compile then). -/
structure Names where
  get : Name → Option Val := fun _ => none
  off : Nat := 0

namespace Names

/-- `let n = v;` -/
def bind (sc : Names) (n : Name) (v : Val) : Names := { sc with get := fun k => if k = n then some v else sc.get k }

/-- `let __deku_bit_offset = ..;` -/
def «at» (sc : Names) (off : Nat) : Names := { sc with off := off }

/-- The parameters of the emitted function (`gen_ctx_types_and_arg`, macros/mod.rs:178-203). -/
def params (args : List (Name × Val)) : Names := { get := fun n => args.lookup n }

/-- The bindings of a pattern. -/
def bindAll (sc : Names) : List Name → List Val → Names
  | n :: ns, v :: vs => (sc.bind n v).bindAll ns vs
  | _, _ => sc

end Names

/-- The attributes of a field, as in `Attrs`, with expressions in names. -/
structure NAttrs where
  seek : Option (Names → Option SeekFrom) := none
  magic : List Byte := []
  padBefore : Option (Names → Int) := none
  padAfter : Option (Names → Int) := none
  padOrder : Option Order := none
  /-- One of the attributes in `field_check_vars` (deku_read.rs:667-681) mentions `deku::bit_offset` or
  `deku::byte_offset`. Paddings and seeks are not among them. -/
  usesRead : Bool := false
  /-- The same while writing (deku_write.rs:694-701): `count` and its like, `default` and `map` are not
  among them, `writer` is. -/
  usesWrite : Bool := false
  skip : Option SkipMode := none
  cond : Option (Names → Bool) := none
  default : Names → Val := fun _ => .num 0
  map : Names → Val → Except DekuError Val := fun _ v => .ok v
  unmap : Names → Val → Val := fun _ v => v
  assert : Names → Bool := fun _ => true
  assertEq : Names → Option Val := fun _ => none
  update : Option (Val → Except DekuError Val) := none
  sizeAttr : Option Nat := none

/-- `LimitE`, with expressions in names. -/
inductive NLimit
  | count (n : Names → Int)
  | until (p : Names → List Val → Bool)
  | bytes (n : Names → Int)
  | bits (n : Names → Int)
  | «end»

/-- `IdSrc`, with expressions in names. -/
inductive NId
  | ctx (e : Names → Val)
  | typed (size : Option Nat) (c : Names → Codec)

/-- `VAttrs`, with expressions in names. -/
structure NVAttrs where
  pat : Names → Val → Bool
  id : Option Val
  idPat : Bool := false
  discr : Bool := false
  default : Bool := false

mutual

/-- `Ty`, with named fields and arguments. The arguments of a struct or enum are its parameters with what is
passed for them at this place (`ctx` of the type and `ctx` of the field). -/
inductive NTy
  | prim (size : Option Nat) (c : Names → Codec)
  | option (t : NTy)
  | array (n : Nat) (t : NTy)
  | pair (a b : NTy)
  | vec (size : Nat) (l : NLimit) (t : NTy)
  | bytes (n : Names → Int) (ctx : Names → IntCtx)
  | struct (args : List (Name × (Names → Val))) (seek : Option (Names → Option SeekFrom)) (magic : List Byte)
      (fs : NFields)
  | enum (args : List (Name × (Names → Val))) (magic : List Byte) (id : NId)
      (store : Nat → Names → Val → M Writer Unit) (vs : NVariants)

inductive NFields
  | nil
  | cons (n : Name) (a : NAttrs) (t : NTy) (rest : NFields)
  | temp (n : Name) (a : NAttrs) (t : NTy) (value : Option (Val → Val)) (rest : NFields)

inductive NVariants
  | nil
  | cons (a : NVAttrs) (fs : NFields) (rest : NVariants)

end

/-- The names that the pattern binds (deku_write.rs:90-97, 225-232): those of the fields that are not
temporary. -/
def NFields.names : NFields → List Name
  | .nil => []
  | .cons n _ _ rest => n :: rest.names
  | .temp _ _ _ _ rest => rest.names

namespace NVariants

def firstMatch (sc : Names) (id : Val) : NVariants → Nat → Option Nat
  | .nil, _ => none
  | .cons a _ rest, i => if a.pat sc id then some i else firstMatch sc id rest (i + 1)

def defaultAt : NVariants → Nat → Option Nat
  | .nil, _ => none
  | .cons a _ rest, i => if a.default then some i else defaultAt rest (i + 1)

def select (sc : Names) (id : Val) (vs : NVariants) : Option Nat :=
  match vs.firstMatch sc id 0 with
  | some i => some i
  | none => vs.defaultAt 0

end NVariants

namespace NAttrs

/-- `assert` and `assert_eq` (deku_read.rs:741-759, deku_write.rs:710-730). -/
def check {σ : Type} (a : NAttrs) (sc : Names) (v : Val) : M σ Unit :=
  if a.assert sc = false then M.throw .assertion
  else match a.assertEq sc with
    | none => pure ()
    | some x => if v ≠ x then M.throw .assertion else pure ()

/-- The matrix of `skip` and `cond` while reading (deku_read.rs:949-988). -/
def isRead (a : NAttrs) (sc : Names) : Bool :=
  match a.skip, a.cond with
  | some .all, some c => !c sc
  | some .read, some c => !c sc
  | some .all, none => false
  | some .read, none => false
  | some .write, _ => true
  | none, some c => c sc
  | none, none => true

/-- While writing (deku_write.rs:814-842). -/
def isWritten (a : NAttrs) (sc : Names) : Bool :=
  match a.skip, a.cond with
  | some .all, some c => !c sc
  | some .write, some c => !c sc
  | some .all, none => false
  | some .write, none => false
  | some .read, _ => true
  | none, _ => true

/-- `field_read_tokens` (deku_read.rs:941-988). -/
def value (a : NAttrs) (rd : Names → M Reader Val) (sc : Names) : M Reader Val :=
  if a.isRead sc then do
    let raw ← rd sc
    match a.map sc raw with
    | .ok v => pure v
    | .error e => M.throw e
  else pure (a.default sc)

/-- `emit_field_read` (deku_read.rs:652-1011) of field `n`: the value, and the scope for what follows. -/
def read (a : NAttrs) (native : Endian) (rd : Names → M Reader Val) (n : Name) (sc : Names) : M Reader (Val × Names) := do
  seekRead (a.seek.map fun f _ => f sc) {}
  magicRead native a.magic
  padRead a.padOrder (a.padBefore.map fun f _ => f sc) {}
  let r ← M.get
  let sc := if a.usesRead then sc.at r.bitsRead else sc
  let v ← a.value rd sc
  let sc := sc.bind n v
  a.check sc v
  padRead a.padOrder (a.padAfter.map fun f _ => f sc) {}
  pure (v, sc)

/-- Whether the `let` of a temporary field is emitted (deku_write.rs:814-842): not for one that is always
left out. -/
def declared (a : NAttrs) : Bool :=
  match a.skip, a.cond with
  | some .all, none => false
  | some .write, none => false
  | _, _ => true

/-- `field_write_tokens` (deku_write.rs:814-842). -/
def put (a : NAttrs) (wr : Names → Val → M Writer Unit) (sc : Names) (v : Val) : M Writer Unit :=
  if a.isWritten sc then wr sc (a.unmap sc v) else pure ()

/-- `emit_field_write` (deku_write.rs:604-862), and the scope for what follows; `decl` is the `let` of a
temporary field, after the assertions. -/
def write (a : NAttrs) (native : Endian) (wr : Names → Val → M Writer Unit) (decl : Names → Names) (sc : Names) (v : Val) :
    M Writer Names := do
  seekWrite (a.seek.map fun f _ => f sc) {}
  magicWrite native a.magic
  padWrite a.padOrder (a.padBefore.map fun f _ => f sc) {}
  let w ← M.get
  let sc := if a.usesWrite then sc.at w.bitsWritten else sc
  a.check sc v
  let sc := decl sc
  a.put wr sc v
  padWrite a.padOrder (a.padAfter.map fun f _ => f sc) {}
  pure sc

end NAttrs

/-- `LimitE` for the scope `ρ env`. -/
def NLimit.inst (ρ : Env → Names) : NLimit → LimitE
  | .count n => .count fun env => n (ρ env)
  | .until p => .until fun env => p (ρ env)
  | .bytes n => .bytes fun env => n (ρ env)
  | .bits n => .bits fun env => n (ρ env)
  | .end => .end

mutual

/-- `from_reader_with_ctx` of a type. -/
def NTy.read (m : Machine) : NTy → Names → M Reader Val
  | .prim _ c, sc => (c sc).read
  | .option t, sc => do
    let v ← t.read m sc
    pure (.some v)
  | .array n t, sc => do
    let vs ← Coll.arrayRead (t.read m sc) n
    pure (.ofList vs)
  | .pair a b, sc => do
    let x ← a.read m sc
    let y ← b.read m sc
    pure (.cons x (.cons y .nil))
  | .vec size l t, sc => do
    let lim ← (l.inst fun _ => sc).eval {}
    let vs ← Coll.vecRead m.mem size (t.read m sc) lim
    pure (.ofList vs)
  | .bytes n _, sc => do
    let k ← toUsize (n sc)
    let bs ← Coll.readExact k
    pure (.ofList (bs.map .ofByte))
  | .struct args seek magic fs, sc => do
    let sc := Names.params (args.map fun p => (p.1, p.2 sc))
    seekRead (seek.map fun f _ => f sc) {}
    magicRead m.native magic
    fs.read m sc
  | .enum args magic id _ vs, sc => do
    let sc := Names.params (args.map fun p => (p.1, p.2 sc))
    magicRead m.native magic
    match id with
    | .ctx e => dispatch (vs.select sc (e sc)) (vs.readAt m sc (e sc) false)
    | .typed _ c => do
      let x ← (c sc).read
      dispatch (vs.select sc x) (vs.readAt m sc x true)

def NFields.read (m : Machine) : NFields → Names → M Reader Val
  | .nil, _ => pure .nil
  | .cons n a t rest, sc => do
    let (v, sc) ← a.read m.native (t.read m) n sc
    let vs ← rest.read m sc
    pure (.cons v vs)
  | .temp n a t _ rest, sc => do
    let (_, sc) ← a.read m.native (t.read m) n sc
    rest.read m sc

def NFields.readStored (m : Machine) : NFields → Names → Val → M Reader Val
  | .nil, _, _ => pure .nil
  | .cons n _ _ rest, sc, id => do
    let vs ← rest.read m (sc.bind n id)
    pure (.cons id vs)
  | .temp n _ _ _ rest, sc, id => rest.read m (sc.bind n id)

def NVariants.readAt (m : Machine) : NVariants → Names → Val → Bool → Nat → M Reader Val
  | .nil, _, _, _, _ => M.panic
  | .cons a fs _, sc, id, typed, 0 =>
    if a.idPat && typed then fs.readStored m sc id else fs.read m sc
  | .cons _ _ rest, sc, id, typed, i + 1 => rest.readAt m sc id typed i

end

mutual

/-- `to_writer` of a type. -/
def NTy.write (m : Machine) : NTy → Names → Val → M Writer Unit
  | .prim _ c, sc, v => (c sc).write v
  | .option t, sc, v =>
    match v with
    | .none => pure ()
    | .some x => t.write m sc x
    | _ => M.panic
  | .array n t, sc, v =>
    if v.isList ∧ v.elems.length = n then Coll.writeAll (t.write m sc) v.elems else M.panic
  | .pair a b, sc, v =>
    match v with
    | .cons x (.cons y .nil) => do
      a.write m sc x
      b.write m sc y
    | _ => M.panic
  | .vec _ _ t, sc, v => if v.isList then Coll.writeAll (t.write m sc) v.elems else M.panic
  | .bytes _ ctx, sc, v =>
    if v.isBytes then Coll.writeAll (Coll.u8Write m.native (ctx sc)) (v.elems.map Val.toByte)
    else M.panic
  | .struct args seek magic fs, sc, v => do
    let sc := (Names.params (args.map fun p => (p.1, p.2 sc))).bindAll fs.names v.elems
    seekWrite (seek.map fun f _ => f sc) {}
    magicWrite m.native magic
    fs.write m sc v v
  | .enum args magic id store vs, sc, v =>
    match v with
    | .variant i fs => do
      let sc := Names.params (args.map fun p => (p.1, p.2 sc))
      magicWrite m.native magic
      vs.writeAt m sc id (store i) i fs
    | _ => M.panic

def NFields.write (m : Machine) : NFields → Names → Val → Val → M Writer Unit
  | .nil, _, _, v => if v = .nil then pure () else M.panic
  | .cons _ a t rest, sc, all, v =>
    match v with
    | .cons x xs => do
      let sc ← a.write m.native (t.write m) id sc x
      rest.write m sc all xs
    | _ => M.panic
  | .temp n a t value rest, sc, all, v =>
    match value with
    | some f => do
      let sc ← a.write m.native (t.write m) (fun sc => if a.declared then sc.bind n (f all) else sc) sc (f all)
      rest.write m sc all v
    | none => do
      let sc ← a.write m.native (fun _ _ => pure ()) id sc .none
      rest.write m sc all v

def NFields.writeStored (m : Machine) (store : Names → Val → M Writer Unit) :
    NFields → Names → Val → M Writer Unit
  | .nil, _, v => if v = .nil then pure () else M.panic
  | .cons _ _ _ rest, sc, v =>
    match v with
    | .cons x xs => do
      store sc x
      rest.write m sc v xs
    | _ => M.panic
  | .temp _ _ _ _ _, _, _ => M.panic

/-- The arm of variant number `i` (deku_write.rs:239-341), with the bindings of its pattern. -/
def NVariants.writeAt (m : Machine) :
    NVariants → Names → NId → (Names → Val → M Writer Unit) → Nat → Val → M Writer Unit
  | .nil, _, _, _, _, _ => M.panic
  | .cons a fs _, sc, id, store, 0, v => do
    let sc := sc.bindAll fs.names v.elems
    match id, a.id with
    | .typed _ c, some x => (c sc).write x
    | _, _ => pure ()
    if a.idPat then fs.writeStored m store sc v else fs.write m sc v v
  | .cons _ _ rest, sc, id, store, i + 1, v => rest.writeAt m sc id store i v

end

/-! ## The numbers of the names -/

/-- What the names stand for where the fields `ns` (the last one first) have been read and the arguments
are called `as`. -/
def Env.scope (as ns : List Name) (env : Env) : Names :=
  { get := fun n => ((ns.zip env.vars) ++ (as.zip env.ctx)).lookup n, off := env.off }

/-- Attributes with every name replaced by what it stands for while reading. -/
def NAttrs.inst (as ns : List Name) (n : Name) (a : NAttrs) : Attrs :=
  { seek := a.seek.map fun f env => f (env.scope as ns), magic := a.magic,
    padBefore := a.padBefore.map fun f env => f (env.scope as ns),
    padAfter := a.padAfter.map fun f env => f (env.scope as (n :: ns)),
    padOrder := a.padOrder, usesOffset := a.usesRead || a.usesWrite, skip := a.skip,
    cond := a.cond.map fun f env => f (env.scope as ns),
    default := fun env => a.default (env.scope as ns),
    map := fun env => a.map (env.scope as ns), unmap := fun env => a.unmap (env.scope as ns),
    assert := fun env v => a.assert ((env.scope as ns).bind n v),
    assertEq := fun env => a.assertEq (env.scope as ns), update := a.update, sizeAttr := a.sizeAttr }

def NId.inst (as : List Name) : NId → IdSrc
  | .ctx e => .ctx fun env => e (env.scope as [])
  | .typed size c => .typed size fun env => c (env.scope as [])

def NVAttrs.inst (as : List Name) (a : NVAttrs) : VAttrs :=
  { pat := fun env => a.pat (env.scope as []), id := a.id, idPat := a.idPat, discr := a.discr, default := a.default }

mutual

/-- The definition with every name replaced by the number of what it stands for while reading. -/
def NTy.toTy (as ns : List Name) : NTy → Ty
  | .prim size c => .prim size fun env => c (env.scope as ns)
  | .option t => .option (t.toTy as ns)
  | .array n t => .array n (t.toTy as ns)
  | .pair a b => .pair (a.toTy as ns) (b.toTy as ns)
  | .vec size l t => .vec size (l.inst (Env.scope as ns)) (t.toTy as ns)
  | .bytes n ctx => .bytes (fun env => n (env.scope as ns)) fun env => ctx (env.scope as ns)
  | .struct args seek magic fs =>
    .struct (fun env => args.map fun p => p.2 (env.scope as ns))
      (seek.map fun f env => f (env.scope (args.map (·.1)) [])) magic (fs.toFields (args.map (·.1)) [])
  | .enum args magic id store vs =>
    .enum (fun env => args.map fun p => p.2 (env.scope as ns)) magic (id.inst (args.map (·.1)))
      (fun i env => store i (env.scope (args.map (·.1)) [])) (vs.toVariants (args.map (·.1)))

def NFields.toFields (as ns : List Name) : NFields → Fields
  | .nil => .nil
  | .cons n a t rest => .cons (a.inst as ns n) (t.toTy as ns) (rest.toFields as (n :: ns))
  | .temp n a t value rest => .temp (a.inst as ns n) (t.toTy as ns) value (rest.toFields as (n :: ns))

def NVariants.toVariants (as : List Name) : NVariants → Variants
  | .nil => .nil
  | .cons a fs rest => .cons (a.inst as) (fs.toFields as []) (rest.toVariants as)

end

end Deku
