import Verif.Lemmas.Leaves
import Verif.Lemmas.Select

/-! # Definitions for the concrete examples -/

namespace Deku

namespace Example

def mach : Machine := ⟨.little, 1000⟩

def u8T : Ty := .prim (some 8) fun _ => uintCodec .little 1 .unit
def u4T : Ty := .prim (some 4) fun _ => uintCodec .little 1 (.bits 4)
def u16be : Ty := .prim (some 16) fun _ => uintCodec .little 2 (.endian .big)

/-- Field number `i`, the last one being number 0. -/
def var (i : Nat) (env : Env) : Int :=
  match env.vars[i]? with
  | some (.num n) => n
  | _ => 0

/-- Any alignment. -/
abbrev any : Nat → Prop := fun _ => True

theorem leaf {native e : Endian} {W n : Nat} {ctx : IntCtx} {s : Option Nat} {m : Machine}
    {P Q : Nat → Prop} {env : Env} {v : Val} (hW : 1 ≤ W) (hs : ctx.shape native W = (e, n, .msb0))
    (h1 : 1 ≤ n) (hn : n ≤ 8 * W) (hf : ctx.isBits = true ∨ n = 8 * W) (hQ : ∀ q, Q q) :
    (Ty.prim s fun _ => uintCodec native W ctx).Fits m .msb0 P Q env v := by
  simp only [Ty.Fits]
  exact (uint_sound_msb hW hs h1 hn (hf.imp id .inl)).mono (fun _ h => h) fun q _ => hQ q

theorem u8_fits {P Q : Nat → Prop} {env : Env} {v : Val} (hQ : ∀ q, Q q) :
    u8T.Fits mach .msb0 P Q env v :=
  leaf (e := .little) (n := 8) (by decide) rfl (by decide) (by decide) (.inr rfl) hQ

theorem u8_sound {P : Nat → Prop} {v : Val} : SoundOn .msb0 P (uintCodec .little 1 .unit).read
    ((uintCodec .little 1 .unit).write v) v any :=
  (uint_sound_msb (e := .little) (n := 8) (by decide) rfl (by decide) (by decide) (.inr (.inl rfl))).mono
    (fun _ h => h) fun _ _ => trivial

theorem u4_fits {P Q : Nat → Prop} {env : Env} {v : Val} (hQ : ∀ q, Q q) :
    u4T.Fits mach .msb0 P Q env v :=
  leaf (e := .little) (n := 4) (by decide) rfl (by decide) (by decide) (.inl rfl) hQ

theorem u16_fits {P Q : Nat → Prop} {env : Env} {v : Val} (hQ : ∀ q, Q q) :
    u16be.Fits mach .msb0 P Q env v :=
  leaf (e := .big) (n := 16) (by decide) rfl (by decide) (by decide) (.inr rfl) hQ

theorem any_all (q : Nat) : any q := trivial

theorem shift_any (q : Nat) : shift any 0 q := ⟨q, trivial, rfl⟩

/-- A field without attributes. -/
theorem plain {T : (Nat → Prop) → (Nat → Prop) → Env → Val → Prop}
    {wr : Env → Val → M Writer Unit} {P : Nat → Prop} {env : Env} {x : Val}
    (h : T (shift P 0) any (env.at 0) x) : ({} : Attrs).Fits .msb0 T wr P any env x :=
  ⟨rfl, rfl, .inl rfl, .inl rfl, .inl rfl, any, .inl ⟨rfl, rfl, rfl, h⟩, fun _ _ => trivial⟩

/-- A struct with a magic, bit fields, a counted list, an optional field that is there if `flags` is 1,
and a padded last field:
```
#[deku(magic = b"\xAB")]
struct Packet {
    #[deku(bits = 4)] version: u8,
    #[deku(bits = 4)] flags: u8,
    count: u8,
    #[deku(count = "count", endian = "big")] items: Vec<u16>,
    #[deku(cond = "*flags == 1")] extra: Option<u8>,
    #[deku(bits = 4, pad_bits_before = "12")] last: u8,
}
``` -/
def packet : Ty := .struct (fun _ => []) none [0xab] <|
  .cons {} u4T <| .cons {} u4T <| .cons {} u8T <| .cons {} (.vec 2 (.count (var 0)) u16be) <|
  .cons { cond := some fun env => decide (var 2 env = 1), default := fun _ => .none } (.option u8T) <|
  .cons { padBefore := some fun _ => 12 } u4T .nil

def packetValue (items : List Int) (extra : Val) : Val := .ofList
  [.num 3, .num (if extra = .none then 0 else 1), .num items.length, .ofList (items.map .num), extra,
    .num 9]

/-- Values of the struct are consistent if the list is as long as `count`. -/
theorem packet_fits (items : List Int) (h : items.length ≤ 1000) :
    packet.Fits mach .msb0 (· = 0) any {} (packetValue items (.some (.num 7))) := by
  simp only [packet, Ty.Fits, Fields.Fits, packetValue, Val.ofList]
  refine ⟨trivial, .inr (.inl rfl), _, _, any, rfl, plain (u4_fits any_all), _, _, any, rfl,
    plain (u4_fits any_all), _, _, any, rfl, plain (u8_fits any_all), _, _, any, rfl,
    plain ⟨any, fun _ _ => trivial, fun x _ => u16_fits any_all, fun _ _ => trivial, by simp, ?_, ?_,
      fun h => by simp [LimitE.isSize] at h⟩, _, _, any, rfl, ?_, _, _, any, rfl, ?_, fun _ _ => trivial⟩
  · rw [elems_ofList]; simpa [mach] using h
  · simp only [LimitE.Fits, elems_ofList]
    simp [var, Env.push, Env.at]
    omega
  · refine ⟨rfl, rfl, .inl rfl, .inl rfl, .inl rfl, any, .inl ⟨?_, rfl, rfl, _, rfl, u8_fits any_all⟩,
      fun _ _ => trivial⟩
    simp [Attrs.isRead, var, Env.push, Env.at]
  · exact ⟨rfl, rfl, .inl rfl, .inr rfl, .inl rfl, any, .inl ⟨rfl, rfl, rfl, u4_fits any_all⟩,
      fun _ _ => trivial⟩

/-- An enum with two variants with ids, and one that stores its id:
```
#[deku(id_type = "u8")]
enum Shapes {
    #[deku(id = "1")] A,
    #[deku(id = "2")] B(#[deku(bits = 4)] u8, #[deku(bits = 4)] u8),
    #[deku(id_pat = "2..=9")] C(u8),
}
``` -/
def shapeVariants : Variants :=
  .cons { pat := fun _ x => decide (x = .num 1), id := some (.num 1) } .nil <|
  .cons { pat := fun _ x => decide (x = .num 2), id := some (.num 2) }
    (.cons {} u4T <| .cons {} u4T .nil) <|
  .cons { pat := fun _ x => match x with | .num n => decide (2 ≤ n ∧ n ≤ 9) | _ => false, id := none,
          idPat := true } (.cons {} u8T .nil) .nil

def shapes : Ty := .enum (fun _ => []) [] (.typed (some 8) fun _ => uintCodec .little 1 .unit)
  (fun _ _ => (uintCodec .little 1 .unit).write) shapeVariants

/-- `struct { flag: u8, #[deku(cond = "*flag == 1")] x: u8 }` -/
def condTy : Ty := .struct (fun _ => []) none [] <|
  .cons {} u8T <| .cons { cond := some fun env => decide (var 0 env = 1) } u8T .nil

/-- An enum whose id comes from the context, with patterns:
```
#[deku(ctx = "id: u8", id = "id")]
enum Pattern {
    #[deku(id_pat = "1..=2")] A(u8),
    #[deku(id_pat = "4..=5")] B(u16),
    #[deku(id_pat = "_")] C,
}
```
Here the `u16` is read with `ctx`. -/
def ctxPatternVariants (ctx : IntCtx) : Variants :=
  .cons { pat := fun _ x => match x with | .num n => decide (1 ≤ n ∧ n ≤ 2) | _ => false, id := none,
          idPat := true } (.cons {} u8T .nil) <|
  .cons { pat := fun _ x => match x with | .num n => decide (4 ≤ n ∧ n ≤ 5) | _ => false, id := none,
          idPat := true } (.cons {} (.prim (some 16) fun _ => uintCodec .little 2 ctx) .nil) <|
  .cons { pat := fun _ _ => true, id := none, idPat := true } .nil .nil

/-- `Pattern` with the id `id`. -/
def ctxPattern (id : Nat) (ctx : IntCtx) : Ty := .enum (fun _ => []) [] (.ctx fun _ => .num id)
  (fun i _ => (uintCodec .little (i + 1) .unit).write)
  (ctxPatternVariants ctx)

/-- The ids above 2 are stored. -/
def idVariants : Variants :=
  .cons { pat := fun _ x => decide (x = .num 1), id := some (.num 1) } .nil <|
  .cons { pat := fun _ x => match x with | .num n => decide (2 < n) | _ => false, id := none,
          idPat := true } (.cons {} u16be <| .cons {} u8T .nil) .nil

/-- An enum with a 16 bit id, read with `ctx`, stored with `store`. -/
def idEnum (ctx store : IntCtx) : Ty :=
  .enum (fun _ => []) [] (.typed (some 16) fun _ => uintCodec mach.native 2 ctx)
    (fun _ _ => (uintCodec mach.native 2 store).write) idVariants

end Example

end Deku
