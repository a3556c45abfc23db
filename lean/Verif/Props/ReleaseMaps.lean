import Verif.Lemmas.ReleaseMaps
import Verif.Props.Release

/-!
# C83 for `HashMap`, `HashSet` and `to_bits`
-/

namespace Deku

open M (Follows)

/-- **C83.** A map in a field, whatever its keys, values, limit and hasher are: as a leaf of a definition, so that
`C83_from_reader_is_the_same` and `C83_to_writer_is_the_same` hold for definitions with maps. -/
theorem C83_maps_are_the_same (m : Machine) (size : Option Nat) (l : LimitE) (k k' v v' : Ty) (hk : k.Follows k') (hv : v.Follows v')
    (iter : List (Val × Val) → List (Val × Val)) :
    (Ty.prim size (mapCodec m l k v iter)).Follows (.prim size (Rel.mapCodec m l k' v' iter)) :=
  ⟨size, _, rfl, mapCodec_release m l hk hv iter⟩

/-- **C83.** The same for sets. -/
theorem C83_sets_are_the_same (m : Machine) (size : Option Nat) (l : LimitE) (t u : Ty) (h : t.Follows u) (iter : List Val → List Val) :
    (Ty.prim size (setCodec m l t iter)).Follows (.prim size (Rel.setCodec m l u iter)) :=
  ⟨size, _, rfl, setCodec_release m l h iter⟩

/-- **C83.** `to_bits`, for every definition. -/
theorem C83_to_bits_is_the_same (m : Machine) (t u : Ty) (h : t.Follows u) (env : Env) (v : Val)
    (hp : toBits (t.write m env v) ≠ .panic) : Rel.toBits (Rel.write m u env v) = toBits (t.write m env v) :=
  toBits_release (Ty.write_release m t u h env v) hp

namespace ReleaseExample

open Example CoreExample

/-- ```
struct Sized { #[deku(endian = "big")] size: u64, #[deku(bytes_read = "size")] data: HashMap<u8, u8> }
``` -/
def sizedMap (m : Machine) : Ty :=
  .struct (fun _ => []) none [] (.cons {} (.prim (some 64) fun _ => uintCodec m.native 8 (.endian .big))
    (.cons {} (.prim none (mapCodec m (.bytes (Expr.field 0).eval) u8T u8T id)) .nil))

/-- The same in a release build. -/
def sizedMapRelease (m : Machine) : Ty :=
  .struct (fun _ => []) none [] (.cons {} (.prim (some 64) fun _ => Rel.uintCodec m.native 8 (.endian .big))
    (.cons {} (.prim none (Rel.mapCodec m (.bytes (Expr.field 0).eval) u8T u8T id)) .nil))

theorem u8T_follows : u8T.Follows u8T := ⟨_, _, rfl, fun _ => ⟨.refl _, fun _ => .refl _⟩⟩

theorem sizedMap_follows (m : Machine) : (sizedMap m).Follows (sizedMapRelease m) :=
  ⟨_, rfl, _, _, rfl, ⟨_, _, rfl, fun _ => uintCodec_release _ _ _⟩, _, _, rfl,
    C83_maps_are_the_same m none _ _ _ _ _ u8T_follows u8T_follows id, rfl⟩

/-- What the debug build reads, the release build reads. -/
example : Rel.fromReaderOn (Rel.read mach (sizedMapRelease mach) {}) { data := [0, 0, 0, 0, 0, 0, 0, 4, 7, 1, 5, 2] } 0 =
    fromReaderOn ((sizedMap mach).read mach {}) { data := [0, 0, 0, 0, 0, 0, 0, 4, 7, 1, 5, 2] } 0 :=
  C83_from_reader_is_the_same mach _ _ (sizedMap_follows mach) {} _ 0 (by
    have : ((fromReaderOn ((sizedMap mach).read mach {}) { data := [0, 0, 0, 0, 0, 0, 0, 4, 7, 1, 5, 2] } 0).1) =
      .ok (96, .ofList [.num 4, .ofList [.ofList [.num 5, .num 2], .ofList [.num 7, .num 1]]]) := by decide +kernel
    rw [this]; exact fun e => nomatch e)

example : Rel.toBits (Rel.write mach u8T {} (.num 0xa5)) = .ok [true, false, true, false, false, true, false, true] := by
  have : toBits (u8T.write mach {} (.num 0xa5)) = .ok [true, false, true, false, false, true, false, true] := by decide +kernel
  rw [C83_to_bits_is_the_same mach u8T u8T u8T_follows {} _ (by rw [this]; exact fun e => nomatch e), this]

end ReleaseExample

open Example CoreExample ReleaseExample

/-- **C83 is false where the debug build panics.** As for lists, a size of `2^61` bytes of a map is multiplied by 8 without a
check (src/impls/hashmap.rs:158, src/impls/hashset.rs:143): the release build returns an empty map. -/
theorem C83_map_size_wraps_around :
    fromBytes ((sizedMap mach).read mach {}) [0x20, 0, 0, 0, 0, 0, 0, 0, 5, 6] 0 = .panic ∧
    Rel.fromBytes (Rel.read mach (sizedMapRelease mach) {}) [0x20, 0, 0, 0, 0, 0, 0, 0, 5, 6] 0 =
      .ok (([5, 6], 0), .ofList [.num (2 ^ 61), .nil]) := by
  refine ⟨?_, ?_⟩ <;> decide +kernel

end Deku
