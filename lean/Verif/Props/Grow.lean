import Verif.Lemmas.GrowSource
import Verif.Lemmas.FromBytes
import Verif.Props.Source

/-!
# Properties of definitions that grow: C80

Variants are added at the end of enums anywhere in a definition (`Spec/Grow.lean`). Old messages keep their meaning, and
an old program given a new message says so.
-/

namespace Deku

theorem Res.stops_parse {α : Type} {x : Res α} (h : x.Stops (some .parse)) : x = .err .parse := by
  cases x with
  | ok a => exact h.elim
  | err e => cases h; rfl
  | panic => cases h

theorem Res.stops_panic {α : Type} {x : Res α} (h : x.Stops none) : x = .panic := by
  cases x with
  | ok a => exact h.elim
  | err e => cases h
  | panic => rfl

/-! ## C80 -/

/-- **C80.** Whatever the attributes and wherever the reader stands: the new code does what the old code does, unless the
old code reports `Parse`. -/
theorem C80_new_code_reads_as_the_old (m : Machine) (old new : Ty) (h : old.Grows new) (env : Env) (r : Reader) :
    new.read m env r = old.read m env r ∨ (old.read m env r).1 = .err .parse :=
  (Ty.read_below m old new h env r).imp_right Res.stops_parse

/-- **C80.** Whatever the attributes and the state of the writer: the new code does what the old code does, unless the old
code panics, as it does in the model if there is no such value. -/
theorem C80_new_code_writes_as_the_old (m : Machine) (old new : Ty) (h : old.Grows new) (env : Env) (v : Val) (w : Writer)
    (hv : (old.write m env v w).1 ≠ .panic) : new.write m env v w = old.write m env v w :=
  (Ty.write_below m old new h env v w).resolve_right fun hs => hv (Res.stops_panic hs)

/-- **C80.** If the new source compiles, so does the old one, and its values are written as before, whatever happens. -/
theorem C80_sources_can_grow (old new : STy) (h : old.Grows new) (d' : Def) (hd : new.compile = some d') :
    ∃ d, old.compile = some d ∧ (∀ m, (d.toTy m).Grows (d'.toTy m)) ∧
      ∀ m env v, old.has v = true → (d'.toTy m).write m env v = (d.toTy m).write m env v := by
  obtain ⟨d, h1, h2⟩ := STy.elab_grows old new h none [] d' hd
  refine ⟨d, h1, h2, fun m env v hv => ?_⟩
  exact Def.write_grows m d _ (h2 m) env v (by rw [STy.elab_has old none [] d h1 v]; exact hv)

/-- **C80.** Every entry point for reading gives what it gave, or it reported `Parse`. -/
theorem C80_entry_points_read_as_before (m : Machine) (old new : Ty) (h : old.Grows new) (env : Env) (data : List Byte)
    (src : Src) (off : Nat) :
    (fromBytes (new.read m env) data off = fromBytes (old.read m env) data off ∨
      fromBytes (old.read m env) data off = .err .parse) ∧
    (fromReader (new.read m env) src off = fromReader (old.read m env) src off ∨
      fromReader (old.read m env) src off = .err .parse) ∧
    (tryFrom (new.read m env) data = tryFrom (old.read m env) data ∨ tryFrom (old.read m env) data = .err .parse) := by
  have key : ∀ off r, readFrom (new.read m env) off r = readFrom (old.read m env) off r ∨
      (readFrom (old.read m env) off r).1 = .err .parse := by
    intro off r
    have hb : M.Below (some .parse) (readFrom (old.read m env) off) (readFrom (new.read m env) off) := by
      unfold readFrom
      by_cases ho : off ≠ 0
      · rw [if_pos ho, if_pos ho]; exact .after _ fun _ => Ty.read_below m old new h env
      · rw [if_neg ho, if_neg ho]; exact Ty.read_below m old new h env
    exact (hb r).imp_right Res.stops_parse
  have hr : ∀ src off, fromReader (new.read m env) src off = fromReader (old.read m env) src off ∨
      fromReader (old.read m env) src off = .err .parse := by
    intro src off
    unfold fromReader
    rcases key off (Reader.new src) with hk | hk
    · left; rw [hk]
    · right
      rcases hx : readFrom (old.read m env) off (Reader.new src) with ⟨x, s⟩
      rw [hx] at hk; cases hk; rfl
  refine ⟨?_, hr src off, ?_⟩
  · unfold fromBytes
    rcases key off (Reader.new { data := data }) with hk | hk
    · left; rw [hk]
    · right
      rcases hx : readFrom (old.read m env) off (Reader.new { data := data }) with ⟨x, s⟩
      rw [hx] at hk; cases hk; rfl
  · unfold tryFrom
    rcases hr { data := data } 0 with hk | hk
    · left; rw [hk]
    · right; rw [hk]

/-- **C80.** A new program understands what an old one has written: it is what the new one writes as well, and all that
the old program made of an input the new one does too. -/
theorem C80_old_messages_keep_their_meaning (m : Machine) (old new : STy) (h : old.Grows new) (d' : Def)
    (hd : new.compile = some d') : ∃ d, old.compile = some d ∧
      (∀ v, old.has v = true → toBytes ((d'.toTy m).write m {} v) = toBytes ((d.toTy m).write m {} v)) ∧
      ∀ data off x, fromBytes ((d.toTy m).read m {}) data off = .ok x →
        fromBytes ((d'.toTy m).read m {}) data off = .ok x := by
  obtain ⟨d, h1, h2, h3⟩ := C80_sources_can_grow old new h d' hd
  refine ⟨d, h1, fun v hv => by rw [h3 m {} v hv], fun data off x hx => ?_⟩
  rcases (C80_entry_points_read_as_before m _ _ (h2 m) {} data { data := [] } off).1 with hk | hk
  · rw [hk]; exact hx
  · rw [hk] at hx; cases hx

/-- **C80.** An old program that is given a new message makes the same of it as a new one, or it reports `Parse`: it never
takes it for another message, runs out of data or panics. -/
theorem C80_new_messages_are_refused (m : Machine) (old new : STy) (h : old.Grows new) (d' : Def)
    (hd : new.compile = some d') : ∃ d, old.compile = some d ∧
      ∀ data off x, fromBytes ((d'.toTy m).read m {}) data off = .ok x →
        fromBytes ((d.toTy m).read m {}) data off = .ok x ∨ fromBytes ((d.toTy m).read m {}) data off = .err .parse := by
  obtain ⟨d, h1, h2, _⟩ := C80_sources_can_grow old new h d' hd
  refine ⟨d, h1, fun data off x hx => ?_⟩
  rcases (C80_entry_points_read_as_before m _ _ (h2 m) {} data { data := [] } off).1 with hk | hk
  · left; rw [← hk]; exact hx
  · exact .inr hk

/-- **C80.** The ids of the variants there were are as before, `update` does what it did, and `SIZE_BITS` does not get
smaller. -/
theorem C80_the_rest_is_as_before :
    (∀ (old new : Ty), old.Grows new → ∀ v, old.dekuId v ≠ .panic → new.dekuId v = old.dekuId v) ∧
    (∀ (old new : Fields), old.Grows new → ∀ i, new.update i = old.update i) ∧
    (∀ (old new : Ty), old.Grows new → ∀ k l, old.size = some k → new.size = some l → k ≤ l) := by
  refine ⟨fun old new h v hv => ?_, Fields.update_grows, Ty.size_grows⟩
  cases old with
  | enum args magic id store vs =>
    rw [Ty.Grows] at h
    obtain ⟨store', vs', rfl, h, _⟩ := h
    cases v with
    | variant i fs => exact (Variants.dekuIdAt_grows vs vs' h i).resolve_right hv
    | _ => rfl
  | _ => exact absurd rfl hv

/-! ### Examples -/

namespace GrowExample

open Example SourceExample

def msgs (more : SVariants) : STy := .enum {} (.typed 1 none none none)
  (.cons { kind := .id 1 } (.cons { endian := some (.lit .big) } (.base (.uint 2)) .nil)
  (.cons { kind := .id 2 } (.cons {} (.base .bool) .nil) more))

/-- `count` messages. -/
def log (more : SVariants) : STy := .struct { magic := [0x4c] } (.cons {} (.base (.uint 1))
  (.cons { count := some (.field 0) } (.vec false (msgs more)) .nil))

/-- A message that may occur in a new log only, and all others. -/
def added : SVariants :=
  .cons { kind := .id 3 } (.cons {} (.base .cstring) .nil)
  (.cons { kind := .any } (.cons {} (.base (.uint 1)) .nil) .nil)

theorem log_grows : (log .nil).Grows (log added) := by
  simp only [log, msgs, STy.Grows, SFields.Grows, SVariants.Grows]
  exact ⟨_, rfl, _, _, rfl, rfl, _, _, rfl, ⟨_, rfl, _, rfl, _, _, rfl, ⟨_, _, rfl, rfl, rfl⟩, _, _, rfl,
    ⟨_, _, rfl, rfl, rfl⟩, .inl rfl⟩, rfl⟩

def oldValue : Val := .ofList [.num 2, .ofList [.variant 0 (.ofList [.num 0x1234]), .variant 1 (.ofList [.num 1])]]

/-- An old log. -/
example : (log .nil).has oldValue = true ∧
    ((log .nil).compile.map fun d => toBytes ((d.toTy mach).write mach {} oldValue)) =
      some (.ok [0x4c, 2, 1, 0x12, 0x34, 2, 1]) ∧
    ((log added).compile.map fun d => toBytes ((d.toTy mach).write mach {} oldValue)) =
      some (.ok [0x4c, 2, 1, 0x12, 0x34, 2, 1]) ∧
    ((log added).compile.map fun d => fromBytes ((d.toTy mach).read mach {}) [0x4c, 2, 1, 0x12, 0x34, 2, 1] 0) =
      some (.ok (([], 0), oldValue)) := by
  refine ⟨?_, ?_, ?_, ?_⟩ <;> decide +kernel

/-- A new log. -/
example :
    ((log added).compile.map fun d => fromBytes ((d.toTy mach).read mach {}) [0x4c, 2, 3, 0x41, 0, 9] 0) =
      some (.ok (([], 0), .ofList [.num 2, .ofList [.variant 2 (.ofList [.ofList [.num 0x41]]),
        .variant 3 (.ofList [.num 9])]])) ∧
    ((log .nil).compile.map fun d => fromBytes ((d.toTy mach).read mach {}) [0x4c, 2, 3, 0x41, 0, 9] 0) =
      some (.err .parse) := by
  refine ⟨?_, ?_⟩ <;> decide +kernel

/-! ### Where definitions must not grow -/

/-- An enum whose first variant is the default. -/
def withDefault (more : SVariants) : STy := .enum {} (.typed 1 none none none)
  (.cons { kind := .id 1, default := true } (.cons {} (.base (.uint 1)) .nil) more)

end GrowExample

open Example GrowExample

/-- **C80 is false** if variants are added to an enum with a `default` variant: what an old message was taken for
depends on the ids that were not in use. -/
theorem C80_default_variants_do_not_grow :
    ((withDefault .nil).compile.map fun d => fromBytes ((d.toTy mach).read mach {}) [3, 7] 0) =
      some (.ok (([], 0), .variant 0 (.ofList [.num 7]))) ∧
    ((withDefault added).compile.map fun d => fromBytes ((d.toTy mach).read mach {}) [3, 7] 0) =
      some (.err (.incomplete 8)) := by
  refine ⟨?_, ?_⟩ <;> decide +kernel

/-- **C80 is false** if variants are added before others: patterns are tried in this order. -/
theorem C80_variants_are_not_added_before_others :
    let u : STy := .base (.uint 1)
    let any : SVariants := .cons { kind := .any } (.cons {} u (.cons {} u .nil)) .nil
    let old : STy := .enum {} (.typed 1 none none none) any
    let new : STy := .enum {} (.typed 1 none none none) (.cons { kind := .id 3 } .nil any)
    (old.compile.map fun d => fromBytes ((d.toTy mach).read mach {}) [3, 7] 0) =
      some (.ok (([], 0), .variant 0 (.ofList [.num 3, .num 7]))) ∧
    (new.compile.map fun d => fromBytes ((d.toTy mach).read mach {}) [3, 7] 0) =
      some (.ok (([7], 0), .variant 0 .nil)) := by
  refine ⟨?_, ?_⟩ <;> decide +kernel

end Deku
