import Verif.Model.Derive

/-!
# Discriminants as ids

A variant without `id` and `id_pat` is identified by its discriminant, if the enum declares any. Discriminants are numbered
by the compiler. The macros refer to them with an unsafe read of the tag of `Self::Variant` through a pointer to an integer
(deku_read.rs:235, 263-293, deku_write.rs:217, 276-307). Here are the numbering, the conditions under which the macros and
the compiler accept a declaration, and the variants of `Model.Derive` that it is turned into.
-/

namespace Deku

/-- An integer type. -/
structure IntTy where
  W : Nat
  signed : Bool
  deriving DecidableEq, Repr

def IntTy.holds (t : IntTy) (n : Int) : Bool :=
  if t.signed then decide (-(256 ^ t.W) ≤ 2 * n ∧ 2 * n < 256 ^ t.W) else decide (0 ≤ n ∧ n < 256 ^ t.W)

/-- A token of the type in `id_type`; groups in brackets and punctuation are `other`. -/
inductive Token
  | ident (s : String)
  | other
  deriving DecidableEq, Repr

/-- The names of `ReprType` (deku-derive/src/lib.rs:268-295). -/
def IntTy.named : String → Option IntTy
  | "u8" => some ⟨1, false⟩
  | "u16" => some ⟨2, false⟩
  | "u32" => some ⟨4, false⟩
  | "u64" => some ⟨8, false⟩
  | "u128" => some ⟨16, false⟩
  | "i8" => some ⟨1, true⟩
  | "i16" => some ⟨2, true⟩
  | "i32" => some ⟨4, true⟩
  | "i64" => some ⟨8, true⟩
  | "i128" => some ⟨16, true⟩
  | _ => none

/-- `from_token` (deku-derive/src/lib.rs:298-320): the last name of an integer type among the tokens. -/
def fromToken (ts : List Token) : Option IntTy :=
  ts.foldl (fun found t => match t with
    | .ident s => (IntTy.named s).or found
    | .other => found) none

/-- How a variant is identified in the source. -/
inductive DIdent
  /-- `id` -/
  | id (x : Int)
  /-- `id_pat` -/
  | pat (p : Int → Bool)
  /-- neither -/
  | discr

/-- A variant as it is declared. -/
structure Declared where
  /-- `= n` -/
  explicit : Option Int := none
  ident : DIdent := .discr
  default : Bool := false
  fields : Fields := .nil

/-- The numbers the compiler gives to variants: the one that is written, or one more than that of the variant before, the
first being 0 (The Rust Reference, "Implicit discriminants"). -/
def numbersFrom : Int → List Declared → List Int
  | _, [] => []
  | next, v :: vs => v.explicit.getD next :: numbersFrom (v.explicit.getD next + 1) vs

def numbers (vs : List Declared) : List Int := numbersFrom 0 vs

/-- An enum as it is declared. `idType` is `id_type` with the size of that type in bytes; without it the id is given by the
context. -/
structure DeclaredEnum where
  /-- `#[repr(…)]`, if it is exactly the name of an integer type (deku-derive/src/lib.rs:322-346). -/
  repr : Option IntTy
  idType : Option (List Token × Nat)
  variants : List Declared

/-- `has_discriminant` (deku_read.rs:235, deku_write.rs:217). -/
def DeclaredEnum.hasDiscriminant (d : DeclaredEnum) : Bool := d.variants.any fun v => v.explicit.isSome

def Declared.noFields (v : Declared) : Bool := match v.fields with | .nil => true | _ => false

/-- `DekuRead` accepts the variant (deku_read.rs:247-298). -/
def DeclaredEnum.reads (d : DeclaredEnum) (v : Declared) : Bool :=
  match v.ident with
  | .id _ | .pat _ => true
  | .discr => d.hasDiscriminant &&
    match d.repr with
    | none => false
    | some r => match d.idType with
      | none => true
      | some t => fromToken t.1 == some r

/-- `DekuWrite` accepts the variant (deku_write.rs:239-318). -/
def DeclaredEnum.writes (d : DeclaredEnum) (v : Declared) : Bool :=
  match d.idType with
  | none => true
  | some t =>
    match v.ident, v.noFields with
    | .id _, _ => true
    | .pat _, false => true
    | _, _ => d.hasDiscriminant &&
      match d.repr with
      | none => false
      | some r => fromToken t.1 == some r

/-- The size in bytes of what the unsafe expression reads (deku_read.rs:284-289: the type of `repr`; deku_write.rs:303-307:
the type of `id_type`), if there is one for the variant. -/
def DeclaredEnum.unsafeRead (d : DeclaredEnum) (v : Declared) : Option Nat :=
  match v.ident with
  | .discr => d.repr.map (·.W)
  | _ => none

def DeclaredEnum.unsafeWrite (d : DeclaredEnum) (v : Declared) : Option Nat :=
  match d.idType, v.ident, v.noFields with
  | none, _, _ | _, .id _, _ | _, .pat _, false => none
  | some t, _, _ => some t.2

/-- The compiler accepts the discriminants: they are in the range of the type, and all different. -/
def DeclaredEnum.numbered (d : DeclaredEnum) : Bool :=
  (numbers d.variants).all ((d.repr.getD ⟨8, true⟩).holds ·) && decide (numbers d.variants).Nodup

/-- The arm of a variant with number `n`: `match` with `id`, with `id_pat`, or with `_ if __deku_variant_id == n`
(deku_read.rs:247-290). -/
def Declared.accepts (v : Declared) (n x : Int) : Bool :=
  match v.ident with
  | .id y => decide (x = y)
  | .pat p => p x
  | .discr => decide (x = n)

/-- What is written for the id (deku_write.rs:247-311): nothing if the first field stores it. -/
def Declared.written (v : Declared) (n : Int) : Option Int :=
  match v.ident, v.noFields with
  | .id y, _ => some y
  | .pat _, false => none
  | _, _ => some n

def Declared.attrs (v : Declared) (n : Int) : VAttrs where
  pat _ x := match x with | .num x => v.accepts n x | _ => false
  id := (v.written n).map .num
  idPat := match v.ident with | .pat _ => true | _ => false
  discr := match v.ident with | .id _ => false | _ => true
  default := v.default

/-- The variants that the macros make of it. -/
def variantsOf : List Declared → List Int → Variants
  | v :: vs, n :: ns => .cons (v.attrs n) v.fields (variantsOf vs ns)
  | _, _ => .nil

def declared (vs : List Declared) : Variants := variantsOf vs (numbers vs)

end Deku
