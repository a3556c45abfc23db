import Verif.Lemmas.Examples
import Verif.Lemmas.Monad
import Verif.Model.Toplevel

/-!
# C78: `map` is applied to what was read
-/

namespace Deku

open Example

/-- What becomes of an attempt to read: the value that was read goes through `g`; an error of `g` takes
the place of the value, and all else stays. -/
def Res.through {β : Type} (g : Val → Except DekuError Val) (out : β → Val → β × Val) :
    Res (β × Val) → Res (β × Val)
  | .ok (b, v) =>
    match g v with
    | .ok w => .ok (out b w)
    | .error e => .err e
  | .err e => .err e
  | .panic => .panic

theorem applyMap_ok {a : Attrs} {env : Env} {v w : Val} (h : a.map env v = .ok w) :
    a.applyMap env v = pure w := by unfold Attrs.applyMap; rw [h]

theorem applyMap_error {a : Attrs} {env : Env} {v : Val} {e : DekuError} (h : a.map env v = .error e) :
    a.applyMap env v = M.throw e := by unfold Attrs.applyMap; rw [h]

/-- **C78.** A field with `map` and nothing else, for every type, map, stream, offset and fault schedule:
what `from_reader` gives is what it gives for the type of the field, with the function applied to the
value. An error of the function is reported as it is. The stream stands in the same place, and as many
bits are counted. -/
theorem C78_map_is_applied_to_what_was_read (m : Machine) (t : Ty) (g : Env → Val → Except DekuError Val)
    (src : Src) (off : Nat) :
    fromReaderOn ((Ty.struct (fun _ => []) none [] (.cons { map := g } t .nil)).read m {}) src off =
      ((fromReaderOn (t.read m {}) src off).1.through (g {}) (fun n w => (n, .ofList [w])),
        (fromReaderOn (t.read m {}) src off).2) := by
  have key : ∀ r, (Ty.struct (fun _ => []) none [] (.cons { map := g } t .nil)).read m {} r =
      match t.read m {} r with
      | (.ok v, r') => (match g {} v with
        | .ok w => (.ok (.ofList [w]), r')
        | .error e => (.err e, r'))
      | (.err e, r') => (.err e, r')
      | (.panic, r') => (.panic, r') := by
    intro r
    have e1 : Attrs.read { map := g } m.native (t.read m) {} r =
        match t.read m {} r with
        | (.ok v, r') => (match g {} v with
          | .ok w => (.ok w, r')
          | .error e => (.err e, r'))
        | (.err e, r') => (.err e, r')
        | (.panic, r') => (.panic, r') := by
      simp only [Attrs.read, Attrs.value, Attrs.check, Attrs.isRead, seekRead, magicRead, padRead,
        M.pure_bind_run, M.get_bind_run]
      show ((t.read m {} >>= _) >>= _) r = _
      rcases hx : t.read m {} r with ⟨x, r'⟩
      cases x with
      | ok v =>
        show _ = match g {} v with
          | .ok w => (Res.ok w, r')
          | .error e => (.err e, r')
        cases hg : g {} v with
        | ok w =>
          rw [M.bind_ok (a := w) (s' := r') (by rw [M.bind_ok hx]; exact congrFun (applyMap_ok (a := { map := g }) hg) r')]
          rfl
        | error e =>
          rw [M.bind_err (e := e) (s' := r') (by rw [M.bind_ok hx]; exact congrFun (applyMap_error (a := { map := g }) hg) r')]
      | err e => rw [M.bind_err (M.bind_err hx _)]
      | panic => rw [M.bind_panic (M.bind_panic hx _)]
    simp only [Ty.read, Fields.read, seekRead, magicRead, M.pure_bind_run]
    rcases hx : t.read m {} r with ⟨x, r'⟩
    rw [hx] at e1
    cases x with
    | ok v =>
      dsimp only at e1 ⊢
      cases hg : g {} v with
      | ok w => rw [hg] at e1; rw [M.bind_ok e1]; rfl
      | error e => rw [hg] at e1; rw [M.bind_err e1]
    | err e => rw [M.bind_err e1]
    | panic => rw [M.bind_panic e1]
  have key2 : ∀ r, readFrom ((Ty.struct (fun _ => []) none [] (.cons { map := g } t .nil)).read m {}) off r =
      match readFrom (t.read m {}) off r with
      | (.ok v, r') => (match g {} v with
        | .ok w => (.ok (.ofList [w]), r')
        | .error e => (.err e, r'))
      | (.err e, r') => (.err e, r')
      | (.panic, r') => (.panic, r') := by
    intro r
    unfold readFrom
    split
    · rw [M.bind_def, M.bind_def]
      rcases Reader.skipBits off .msb0 r with ⟨x, r1⟩
      cases x
      · exact key r1
      · rfl
      · rfl
    · exact key r
  unfold fromReaderOn
  rw [key2]
  rcases readFrom (t.read m {}) off (Reader.new src) with ⟨x, r⟩
  cases x with
  | ok v => dsimp only [Res.through]; cases g {} v <;> rfl
  | err e => rfl
  | panic => rfl

/-- A `map` that refuses more than 100 with an error of its own and adds one otherwise. -/
def Example.plusOne (_ : Env) : Val → Except DekuError Val
  | .num n => if n ≤ 100 then .ok (.num (n + 1)) else .error .invalidParam
  | _ => .error .parse

example :
    let f := fromReaderOn ((Ty.struct (fun _ => []) none [] (.cons { map := plusOne } u8T .nil)).read mach {})
    (f { data := [7, 8] } 0).1 = .ok (8, .ofList [.num 8]) ∧ (f { data := [7, 8] } 0).2.pos = 1 ∧
    (f { data := [107, 8] } 0).1 = .err .invalidParam ∧ (f { data := [107, 8] } 0).2.pos = 1 := by decide +kernel

/-- **C78.** With any other attributes, and after any fields before it: if the field without `map`, assertions
and padding after it is read, and `map` fails on the value, then reading the field fails with exactly this
error, in the same state. (No attribute of the field uses `deku::bit_offset` or `deku::byte_offset`.) -/
theorem C78_map_error_is_reported (a : Attrs) (native : Endian) (rd : Env → M Reader Val) (env : Env)
    (r r' : Reader) (raw : Val) (e : DekuError) (hu : a.usesOffset = false)
    (hread : a.isRead (env.at 0) = true)
    (hraw : ({ a with map := fun _ v => .ok v, assert := fun _ _ => true, assertEq := fun _ => none, padAfter := none } : Attrs).read native rd env r = (.ok raw, r'))
    (he : a.map (env.at 0) raw = .error e) :
    a.read native rd env r = (.err e, r') := by
  simp only [Attrs.read] at hraw ⊢
  obtain ⟨_, r1, h1, hraw⟩ := M.bind_eq_ok hraw
  obtain ⟨_, r2, h2, hraw⟩ := M.bind_eq_ok hraw
  obtain ⟨_, r3, h3, hraw⟩ := M.bind_eq_ok hraw
  rw [M.bind_ok h1, M.bind_ok h2, M.bind_ok h3, M.get_bind_run]
  rw [M.get_bind_run] at hraw
  have hr' : ({ a with map := fun _ v => .ok v, assert := fun _ _ => true, assertEq := fun _ => none, padAfter := none, usesOffset := false } : Attrs).isRead (env.at 0) = true := hread
  simp only [hu, Bool.false_eq_true, if_false, Attrs.value, hread, if_true] at hraw ⊢
  rw [if_pos hr'] at hraw
  obtain ⟨v, r4, h4, hraw⟩ := M.bind_eq_ok hraw
  obtain ⟨v', r5, h5, h6⟩ := M.bind_eq_ok h4
  cases h6
  cases hraw
  refine M.bind_err ?_ _
  rw [M.bind_ok h5]
  rw [applyMap_error he]
  rfl

example : ({ map := plusOne, magic := [9], padBefore := some fun _ => 8 } : Attrs).read .little (u8T.read mach) {} (Reader.new { data := [9, 0, 200, 1] }) =
    (.err .invalidParam, ((({ magic := [9], padBefore := some fun _ => 8 } : Attrs).read .little (u8T.read mach) {} (Reader.new { data := [9, 0, 200, 1] })).2)) :=
  C78_map_error_is_reported _ _ _ _ _ _ (.num 200) _ rfl rfl rfl rfl

/-- **C78.** A field that is not read, because of `skip` or `cond`, has its `default`, to which `map` is not
applied: reading is the same with any other function. -/
theorem C78_map_is_not_applied_to_defaults (a : Attrs) (g : Env → Val → Except DekuError Val) (native : Endian)
    (rd : Env → M Reader Val) (env : Env) (hread : ∀ pos, a.isRead (env.at pos) = false) :
    a.read native rd env = ({ a with map := g } : Attrs).read native rd env := by
  have hv : ∀ pos, a.value rd (env.at pos) = ({ a with map := g } : Attrs).value rd (env.at pos) := by
    intro pos
    have h2 : ({ a with map := g } : Attrs).isRead (env.at pos) = false := hread pos
    simp only [Attrs.value, hread pos, h2, Bool.false_eq_true, if_false]
  simp only [Attrs.read, hv]
  rfl

example : fromBytes ((Ty.struct (fun _ => []) none []
      (.cons { map := plusOne, skip := some .read, default := fun _ => .num 5 } u8T .nil)).read mach {}) [7] 0 =
    .ok (([7], 0), .ofList [.num 5]) := by decide +kernel

/-- **C78.** Without a `writer`, the function is not undone on writing: what was read and written again is
not what was there. -/
theorem C78_map_is_not_undone :
    fromBytes ((Ty.struct (fun _ => []) none [] (.cons { map := plusOne } u8T .nil)).read mach {}) [7] 0 =
      .ok (([], 0), .ofList [.num 8]) ∧
    toBytes ((Ty.struct (fun _ => []) none [] (.cons { map := plusOne } u8T .nil)).write mach {} (.ofList [.num 8])) =
      .ok [8] := by decide +kernel

end Deku
