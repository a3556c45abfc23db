import Verif.Lemmas.Names
import Verif.Lemmas.Rename
import Verif.Lemmas.Examples

/-!
# C95: names in attributes
-/

namespace Deku

/-- **C95.** Reading a definition with names is reading the one in which every name is replaced by the
number of the field or argument that it stands for: the last one of this name among the fields before,
or else the argument. -/
theorem C95_reading_follows_the_names (m : Machine) {t : NTy} (h : t.Settled [] false false) :
    t.read m {} = (t.toTy [] []).read m {} :=
  t.read_eq m [] false false h [] [] {} {} (fun _ => rfl) (fun _ => rfl)

/-- **C95.** Writing it is writing the same definition, though the fields are bound in another way: no
expression sees a field that was not yet there while reading. -/
theorem C95_writing_follows_the_same_names_partial (m : Machine) {t : NTy} (h : t.Settled [] false false) (v : Val) :
    t.write m {} v = (t.toTy [] []).write m {} v :=
  t.write_eq m [] false false h [] [] {} {} v ⟨fun _ _ => rfl, fun _ => rfl⟩

/-- **C95.** So a value that fits the definition in numbers is read back from what the definition in names
writes. -/
theorem C95_round_trip_partial (m : Machine) (o : Order) {t : NTy} (h : t.Settled [] false false) {v : Val} {Q : Nat → Prop}
    (hf : (t.toTy [] []).Fits m o (· = 0) Q {} v) (out : List Byte) (hout : toBytes (t.write m {} v) = .ok out) :
    ∃ n, n ≤ 8 * out.length ∧ 8 * out.length < n + 8 ∧ Q n ∧
      ∀ extra, fromBytes (t.read m {}) (out ++ extra) 0 = .ok (((out ++ extra).drop (n / 8), n % 8), v) := by
  rw [C95_writing_follows_the_same_names_partial m h] at hout
  rw [C95_reading_follows_the_names m h]
  exact (Ty.sound m o _ _ _ _ _ hf).round_trip hout

/-- **C95.** How fields and arguments are called is of no importance: a renaming that gives different names
to different names changes nothing, also for definitions that are not settled. -/
theorem C95_renaming_changes_nothing (m : Machine) (ρ : Name → Name) (hρ : ∀ a b, ρ a = ρ b → a = b) (t : NTy) (v : Val) :
    (t.rename ρ).read m {} = t.read m {} ∧ (t.rename ρ).write m {} v = t.write m {} v :=
  ⟨t.read_rename hρ m {}, t.write_rename hρ m {} v⟩

/-- **C95.** An expression over numbers is settled if it does not mention the names. -/
theorem C95_expression_ignores_what_it_does_not_mention (e : NExpr) (N : List Name) (o : Bool)
    (h : ∀ n ∈ e.free, n ∉ N) (ho : e.here = true → o = true) : Ignores e.eval N o := e.ignores h ho

namespace NamesExample

open Example

def u8N : NTy := .prim (some 8) fun _ => uintCodec .little 1 .unit

theorem u8N_settled (N : List Name) (o o' : Bool) : u8N.Settled N o o' := Ignores.const _ _ _

/-- `#[deku(ctx = "k: u8")] struct Sub { #[deku(pad_bits_before = "k % 16")] n: u8 }` -/
def sub (k : NExpr) : NTy := .struct [("k", fun sc => .num (k.eval sc))] none [] <|
  .cons "n" { padBefore := some (NExpr.mod (.name "k") (.lit 16)).eval } u8N .nil

/-- `struct Msg { n: u8, #[deku(assert = "*k != *n")] k: u8, #[deku(count = "n")] items: Vec<(u8,)>,
#[deku(ctx = "*k + 1")] sub: Sub }` -/
def msg : NTy := .struct [] none [] <|
  .cons "n" {} u8N <|
  .cons "k" { assert := fun sc => (NExpr.name "k").eval sc != (NExpr.name "n").eval sc } u8N <|
  .cons "items" {} (.vec 1 (.count (NExpr.name "n").eval) u8N) <|
  .cons "sub" {} (sub (.add (.name "k") (.lit 1))) .nil

theorem plain_settled (B C A : List Name) : NAttrs.Settled {} B C A :=
  ⟨by simp, by simp, by simp, by simp, Ignores.const _ _ _, Ignores.const _ _ _, Ignores.const _ _ _, Ignores.const _ _ _, Ignores.const _ _ _⟩

theorem msg_settled : msg.Settled [] false false := by
  refine ⟨by simp, by simp, by decide, plain_settled _ _ _, u8N_settled _ _ _, ?_, u8N_settled _ _ _, plain_settled _ _ _,
    ⟨NExpr.ignores _ (by simp) (by decide), u8N_settled _ _ _⟩, plain_settled _ _ _, ?_, trivial⟩
  · refine ⟨by simp, by simp, by simp, by simp, Ignores.const _ _ _, Ignores.const _ _ _, Ignores.const _ _ _, ?_, Ignores.const _ _ _⟩
    intro sc sc' h _
    dsimp only
    simp only [NExpr.eval, h "k" (by decide), h "n" (by decide)]
  · refine ⟨?_, by simp, by decide, ?_, u8N_settled _ _ _, trivial⟩
    · intro p hp
      simp only [List.mem_singleton] at hp
      subst hp
      exact (NExpr.ignores _ (by decide) (by decide)).comp Val.num
    · refine ⟨by simp, ?_, by simp, by simp, Ignores.const _ _ _, Ignores.const _ _ _, Ignores.const _ _ _, Ignores.const _ _ _, Ignores.const _ _ _⟩
      intro f hf
      simp only [Option.some.injEq] at hf
      subst hf
      exact NExpr.ignores _ (by decide) (by decide)

example (v : Val) : msg.read mach {} = (msg.toTy [] []).read mach {} ∧ msg.write mach {} v = (msg.toTy [] []).write mach {} v :=
  ⟨C95_reading_follows_the_names mach msg_settled, C95_writing_follows_the_same_names_partial mach msg_settled v⟩

example : fromBytes (msg.read mach {}) [2, 7, 5, 6, 0, 9] 0 =
    .ok (([], 0), .ofList [.num 2, .num 7, .ofList [.num 5, .num 6], .ofList [.num 9]]) ∧
    toBytes (msg.write mach {} (.ofList [.num 2, .num 7, .ofList [.num 5, .num 6], .ofList [.num 9]])) = .ok [2, 7, 5, 6, 0, 9] := by
  decide +kernel

example (v : Val) : (msg.rename ("field_" ++ ·)).write mach {} v = msg.write mach {} v :=
  (C95_renaming_changes_nothing mach _ (fun a b h => by simpa using h) msg v).2

end NamesExample

open NamesExample Example

/-- An argument with the name of a field that comes later: `#[deku(ctx = "k: u8")] struct S {
#[deku(pad_bytes_before = "k % 4")] a: u8, k: u8 }`. While reading `k` is the argument, while writing the
field, and the message is written with another padding than it was read with. -/
theorem C95_field_hides_the_argument_while_writing :
    let s : NTy := .struct [("k", fun _ => .num 1)] none [] <|
      .cons "a" { padBefore := some fun sc => 8 * (NExpr.mod (.name "k") (.lit 4)).eval sc } u8N <| .cons "k" {} u8N .nil
    fromBytes (s.read mach {}) [0, 7, 3] 0 = .ok (([], 0), .ofList [.num 7, .num 3]) ∧
    toBytes (s.write mach {} (.ofList [.num 7, .num 3])) = .ok [0, 0, 0, 7, 3] := by
  decide +kernel

/-- `deku::bit_offset` in a padding is the offset of an earlier field that mentions it elsewhere:
`struct S { a: u8, #[deku(assert = "deku::bit_offset == 8")] b: u8, #[deku(pad_bits_before =
"deku::bit_offset")] c: u8 }` has 8 bits of padding before `c`, which is at bit 16. -/
theorem C95_offset_in_paddings_is_stale :
    let s : NTy := .struct [] none [] <| .cons "a" {} u8N <|
      .cons "b" { usesRead := true, usesWrite := true, assert := fun sc => sc.off == 8 } u8N <|
      .cons "c" { padBefore := some NExpr.offset.eval } u8N .nil
    fromBytes (s.read mach {}) [1, 2, 0, 3] 0 = .ok (([], 0), .ofList [.num 1, .num 2, .num 3]) ∧
    toBytes (s.write mach {} (.ofList [.num 1, .num 2, .num 3])) = .ok [1, 2, 0, 3] := by
  decide +kernel

/-- `count` makes `deku::bit_offset` known while reading but not while writing, so that in a padding after
the same field it is the offset of that field while reading and of an earlier one while writing:
`struct S { #[deku(assert = "deku::bit_offset == 0")] a: u8, #[deku(count = "deku::bit_offset / 8",
pad_bits_after = "deku::bit_offset")] b: Vec<(u8,)>, c: u8 }`. -/
theorem C95_offset_differs_between_reading_and_writing :
    let s : NTy := .struct [] none [] <|
      .cons "a" { usesRead := true, usesWrite := true, assert := fun sc => sc.off == 0 } u8N <|
      .cons "b" { usesRead := true, padAfter := some NExpr.offset.eval } (.vec 1 (.count fun sc => (sc.off / 8 : Nat)) u8N) <|
      .cons "c" {} u8N .nil
    fromBytes (s.read mach {}) [1, 2, 0, 3] 0 = .ok (([], 0), .ofList [.num 1, .ofList [.num 2], .num 3]) ∧
    toBytes (s.write mach {} (.ofList [.num 1, .ofList [.num 2], .num 3])) = .ok [1, 2, 3] := by
  decide +kernel

end Deku
