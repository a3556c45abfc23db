import Verif.Lemmas.Conform
import Verif.Props.CoreRead

/-! # What was parsed satisfies what the definition states: C66 -/

namespace Deku

/-- **C66.** Whatever the source contains and however it fails, and in whatever state the reader is: if a read
succeeds, the value satisfies what the definition states. The scope of the definition are the arguments of the
context and the fields before it. -/
theorem C66_what_was_parsed_satisfies_the_definition (m : Machine) (d : Def) (args before : List Val) (r r' : Reader)
    (v : Val) (h : (d.toTy m).read m { ctx := args, vars := before.reverse } r = (.ok v, r')) :
    d.Conforms args before v :=
  (Def.read_conforms m d _ args before ⟨rfl, rfl⟩ r v r' trivial h).2

/-- **C66.** The same for the entry points, at any offset. -/
theorem C66_entry_points_return_conforming_values (m : Machine) (d : Def) (args : List Val) :
    (∀ data off rest v, fromBytes ((d.toTy m).read m { ctx := args }) data off = .ok (rest, v) → d.Conforms args [] v) ∧
    (∀ src off n v, fromReader ((d.toTy m).read m { ctx := args }) src off = .ok (n, v) → d.Conforms args [] v) ∧
    ∀ data v, tryFrom ((d.toTy m).read m { ctx := args }) data = .ok v → d.Conforms args [] v := by
  have hread := Def.read_conforms m d { ctx := args } args [] ⟨rfl, rfl⟩
  have hf : ∀ src off n v, fromReader ((d.toTy m).read m { ctx := args }) src off = .ok (n, v) →
      d.Conforms args [] v := by
    intro src off n v h
    unfold fromReader at h
    have hk : Yields (fun v => d.Conforms args [] v) (readFrom ((d.toTy m).read m { ctx := args }) off) := by
      unfold readFrom
      dsimp only
      exact Yields.ite (fun _ => Yields.after fun _ => hread) fun _ => hread
    split at h
    · rename_i x r e
      cases h
      exact (hk _ _ _ trivial e).2
    · cases h
    · cases h
  refine ⟨?_, hf, ?_⟩
  · intro data off rest v h
    have : ∃ n, fromReader ((d.toTy m).read m { ctx := args }) { data := data } off = .ok (n, v) := by
      unfold fromBytes at h
      unfold fromReader
      split at h
      · rename_i x r e
        split at h
        · cases h; exact ⟨_, rfl⟩
        · cases h
      · cases h
      · cases h
    obtain ⟨n, hn⟩ := this
    exact hf _ _ _ _ hn
  · intro data v h
    unfold tryFrom at h
    split at h
    · rename_i n x e
      split at h
      · cases h
      · split at h
        · cases h
        · cases h; exact hf _ _ _ _ e
    · cases h
    · cases h

/-- **C66.** So a value that does not satisfy what the definition states never comes back: there is no input that is
parsed as this value, whatever `to_bytes` did with it. -/
theorem C66_other_values_never_come_back (m : Machine) (d : Def) (args : List Val) (v : Val)
    (h : ¬ d.Conforms args [] v) (data : List Byte) (off : Nat) (rest : List Byte × Nat) :
    fromBytes ((d.toTy m).read m { ctx := args }) data off ≠ .ok (rest, v) := fun he =>
  h ((C66_entry_points_return_conforming_values m d args).1 _ _ _ _ he)

/-! ### Examples -/

open Example CoreExample

/-- In whatever is parsed as a list with a count before it, the count is the length of the list. -/
example (data : List Byte) (rest : List Byte × Nat) (v : Val)
    (h : fromBytes (((counted 2).toTy mach).read mach {}) data 0 = .ok (rest, v)) :
    ∃ n items : Val, v = .ofList [n, items] ∧ ∀ k, n = .num k → (items.elems.length : Int) = k := by
  have hc := (C66_entry_points_return_conforming_values mach (counted 2) []).1 _ _ _ _ h
  simp only [CoreExample.counted, Def.Conforms, DFields.Conforms, Lim.Allows] at hc
  obtain ⟨vals, _, n, _, rfl, _, _, _, items, _, rfl, h1, _, _, rfl⟩ := hc
  refine ⟨n, items, rfl, ?_⟩
  rintro k rfl
  exact (h1 rfl).2 trivial k ⟨by simp, by simp⟩

example : fromBytes (((counted 2).toTy mach).read mach {}) [0, 2, 0, 7, 1, 0] 0 =
    .ok (([], 0), .ofList [.num 2, .ofList [.num 7, .num 256]]) := by decide +kernel

/-- A value with a wrong count is written, and what was written is not read as this value. -/
example : let v : Val := .ofList [.num 1, .ofList [.num 7, .num 256]]
    toBytes (((counted 2).toTy mach).write mach {} v) = .ok [0, 1, 0, 7, 1, 0] ∧
    ∀ data off rest, fromBytes (((counted 2).toTy mach).read mach {}) data off ≠ .ok (rest, v) := by
  refine ⟨by decide +kernel, fun data off rest => ?_⟩
  refine C66_other_values_never_come_back mach (counted 2) [] _ (fun hc => ?_) data off rest
  simp only [CoreExample.counted, Def.Conforms, DFields.Conforms, Lim.Allows] at hc
  obtain ⟨vals, _, n, _, e1, _, _, _, items, _, e2, h1, _, _, rfl⟩ := hc
  cases e1
  cases e2
  have := (h1 rfl).2 trivial 1 ⟨by simp, by simp⟩
  simp [Val.ofList, Val.elems] at this

/-- ```
struct S { a: u8, #[deku(cond = "*a < 10")] b: Option<u8>, #[deku(until = "|x| *x == 0")] c: Vec<u8> }
``` -/
def CoreExample.optional : Def :=
  .struct [] [] (.cons {} (.leaf (some 8) (.uint 1 .unit))
    (.cons { cond := some (.lt (.field 0) (.lit 10)), default := .none } (.option (.leaf (some 8) (.uint 1 .unit)))
    (.cons {} (.vec false (.until 0) (.leaf (some 8) (.uint 1 .unit))) .nil)))

/-- The optional field is there exactly if the first one is less than 10, and the list ends with its only zero. -/
example (data : List Byte) (rest : List Byte × Nat) (v : Val)
    (h : fromBytes ((optional.toTy mach).read mach {}) data 0 = .ok (rest, v)) :
    ∃ a b c : Val, v = .ofList [a, b, c] ∧ (∀ k, a = .num k → (k < 10 → ∃ x, b = .some x) ∧ (10 ≤ k → b = .none)) ∧
      ∃ front, c.elems = front ++ [.num 0] ∧ Val.num 0 ∉ front := by
  have hc := (C66_entry_points_return_conforming_values mach optional []).1 _ _ _ _ h
  simp only [CoreExample.optional, Def.Conforms, DFields.Conforms, Lim.Allows] at hc
  obtain ⟨vals, _, a, _, rfl, _, _, _, b, _, rfl, h1, h2, _, c, _, rfl, h3, _, _, rfl⟩ := hc
  refine ⟨a, b, c, rfl, ?_, ?_⟩
  · rintro k rfl
    refine ⟨fun hk => ?_, fun hk => ?_⟩
    · obtain ⟨x, rfl, _⟩ := h1 ⟨k, 10, ⟨by simp, by simp⟩, rfl, by simpa using hk⟩
      exact ⟨x, rfl⟩
    · exact h2 ⟨k, 10, ⟨by simp, by simp⟩, rfl, by simpa using hk⟩
  · obtain ⟨front, hf, hn⟩ := (h3 rfl).2 trivial
    exact ⟨front, hf, fun hm => hn _ hm rfl⟩

example : fromBytes ((optional.toTy mach).read mach {}) [9, 5, 1, 0, 2] 0 =
      .ok (([2], 0), .ofList [.num 9, .some (.num 5), .ofList [.num 1, .num 0]]) ∧
    fromBytes ((optional.toTy mach).read mach {}) [10, 5, 1, 0, 2] 0 =
      .ok (([2], 0), .ofList [.num 10, .none, .ofList [.num 5, .num 1, .num 0]]) := by decide +kernel

/-- ```
#[deku(endian = "big")]
struct Header {
    #[deku(bits = 4, assert_eq = "4")] version: u8,
    #[deku(bits = 4)] ihl: u8,
    flags: u8,
    #[deku(cond = "*flags & 1 != 0 && *ihl < 6")] extra: Option<u8>,
    #[deku(count = "(*ihl as usize * 4).saturating_sub(20)")] options: Vec<u8>,
}
``` -/
def CoreExample.header : Def :=
  .struct [] [] (.cons { assertEq := some (.lit 4) } (.leaf (some 4) (.uint 1 (.endianBits .big 4)))
    (.cons {} (.leaf (some 4) (.uint 1 (.endianBits .big 4)))
    (.cons {} (.leaf (some 8) (.uint 1 .unit))
    (.cons { cond := some (.and (.not (.eq (.lop (.and 1) (.field 0)) (.lit 0))) (.lt (.field 1) (.lit 6))),
             default := .none } (.option (.leaf (some 8) (.uint 1 .unit)))
    (.cons {} (.vec false (.count (.op .sub (.op .mul (.field 2) (.lit 4)) (.lit 20)))
      (.leaf (some 8) (.uint 1 .unit))) .nil)))))

/-- Whatever is parsed as a header has as many bytes of options as the length field says. -/
example (data : List Byte) (rest : List Byte × Nat) (v : Val)
    (h : fromBytes ((header.toTy mach).read mach {}) data 0 = .ok (rest, v)) :
    ∃ a ihl flags extra options : Val, v = .ofList [a, ihl, flags, extra, options] ∧
      ∀ k : Nat, ihl = .num k → 5 ≤ k → options.elems.length = 4 * k - 20 := by
  have hc := (C66_entry_points_return_conforming_values mach header []).1 _ _ _ _ h
  simp only [CoreExample.header, Def.Conforms, DFields.Conforms, Lim.Allows] at hc
  obtain ⟨vals, _, a, _, rfl, _, _, _, b, _, rfl, _, _, _, c, _, rfl, _, _, _, d, _, rfl, _, _, _, e, _, rfl, h1, _, _,
    rfl⟩ := hc
  refine ⟨a, b, c, d, e, rfl, ?_⟩
  rintro k rfl hk
  have := (h1 rfl).2 trivial (4 * k - 20) ⟨4 * k, 20, ⟨k, 4, ⟨by simp, by simp⟩, rfl, by omega, by omega, by omega⟩, rfl,
    by omega, by omega, by omega, by omega, by omega⟩
  omega

example : fromBytes ((header.toTy mach).read mach {}) [0x46, 1, 5, 6, 7, 8, 9] 0 =
      .ok (([9], 0), .ofList [.num 4, .num 6, .num 1, .none, .ofList [.num 5, .num 6, .num 7, .num 8]]) ∧
    fromBytes ((header.toTy mach).read mach {}) [0x45, 3, 5, 6] 0 =
      .ok (([6], 0), .ofList [.num 4, .num 5, .num 3, .some (.num 5), .nil]) ∧
    fromBytes ((header.toTy mach).read mach {}) [0x43, 2, 5, 6] 0 =
      .ok (([5, 6], 0), .ofList [.num 4, .num 3, .num 2, .none, .nil]) := by
  refine ⟨?_, ?_, ?_⟩ <;> decide +kernel

end Deku
