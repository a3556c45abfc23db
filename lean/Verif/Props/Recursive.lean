import Verif.Lemmas.Recursive
import Verif.Lemmas.Examples
import Verif.Props.Safe

/-!
# C97: types that contain themselves

`unroll F n` are the types with bodies `F` on a stack with room for `n` calls; the next call is a panic (stack overflow).
-/

namespace Deku

variable {ι : Type}

/-- **C97**, the stack does not show: on a larger stack, `from_bytes` gives the same result, unless the smaller one overflows. -/
theorem C97_reading_does_not_depend_on_the_stack (m : Machine) (F : (ι → Ty) → ι → Ty) (hF : ∀ i, Shape fun σ => F σ i)
    (n k : Nat) (hn : n ≤ k) (i : ι) (env : Env) (data : List Byte) (off : Nat) :
    fromBytes ((unroll F n i).read m env) data off = fromBytes ((unroll F k i).read m env) data off ∨
    fromBytes ((unroll F n i).read m env) data off = .panic :=
  ((unroll_below m hF n k hn i).read env).fromBytes data off

/-- **C97**, the same of `to_bytes`. -/
theorem C97_writing_does_not_depend_on_the_stack (m : Machine) (F : (ι → Ty) → ι → Ty) (hF : ∀ i, Shape fun σ => F σ i)
    (n k : Nat) (hn : n ≤ k) (i : ι) (env : Env) (v : Val) :
    toBytes ((unroll F n i).write m env v) = toBytes ((unroll F k i).write m env v) ∨
    toBytes ((unroll F n i).write m env v) = .panic :=
  ((unroll_below m hF n k hn i).write env v).toBytes

/-- **C97**, round trip: a value that fits and is written within `n` calls is written and read back on every larger stack,
also if the two are not the same. -/
theorem C97_round_trip (m : Machine) (F : (ι → Ty) → ι → Ty) (hF : ∀ i, Shape fun σ => F σ i) (o : Order) (n : Nat) (i : ι)
    (env : Env) (v : Val) (Q : Nat → Prop) (hv : (unroll F n i).Fits m o (· = 0) Q env v) (out : List Byte)
    (hout : toBytes ((unroll F n i).write m env v) = .ok out) (k k' : Nat) (hk : n ≤ k) (hk' : n ≤ k') :
    toBytes ((unroll F k i).write m env v) = .ok out ∧
    ∃ l, l ≤ 8 * out.length ∧ 8 * out.length < l + 8 ∧ Q l ∧ ∀ extra,
      fromBytes ((unroll F k' i).read m env) (out ++ extra) 0 = .ok (((out ++ extra).drop (l / 8), l % 8), v) := by
  refine ⟨?_, ?_⟩
  · rcases C97_writing_does_not_depend_on_the_stack m F hF n k hk i env v with h | h
    · rw [← h, hout]
    · rw [hout] at h; cases h
  · obtain ⟨l, h1, h2, h3, h4⟩ := (Ty.sound m o _ _ _ _ _ hv).round_trip hout
    refine ⟨l, h1, h2, h3, fun extra => ?_⟩
    rcases C97_reading_does_not_depend_on_the_stack m F hF n k' hk' i env (out ++ extra) 0 with h | h
    · rw [← h, h4]
    · rw [h4] at h; cases h

/-- **C97**, the input bounds the depth: if something is read before a type occurs again, then 8 calls for each byte of the
input and 2 more are enough; what would happen in deeper calls, here `base`, does not matter. -/
theorem C97_depth_is_bounded_by_the_input (m : Machine) (F : (ι → Ty) → ι → Ty) (hF : ∀ i, Guarded False fun σ => F σ i)
    (base : ι → Ty) (i : ι) (env : Env) (data : List Byte) (off n : Nat) (hn : 8 * data.length + 2 ≤ n) :
    fromBytes ((unroll F n i).read m env) data off = fromBytes ((unrollOn F base n i).read m env) data off := by
  obtain ⟨k, rfl⟩ : ∃ k, n = k + 1 := ⟨n - 1, by omega⟩
  exact fromBytes_eqOn (unrollOn_eqOn m hF data.length (fun _ => overflow_runs) k i env) (Nat.le_refl _) (by omega) off

/-- **C97**, so on two stacks that are large enough the results are the same, without exception. -/
theorem C97_large_stacks_agree (m : Machine) (F : (ι → Ty) → ι → Ty) (hF : ∀ i, Guarded False fun σ => F σ i)
    (i : ι) (env : Env) (data : List Byte) (off n k : Nat) (hn : 8 * data.length + 2 ≤ n) (hk : 8 * data.length + 2 ≤ k) :
    fromBytes ((unroll F n i).read m env) data off = fromBytes ((unroll F k i).read m env) data off := by
  have key : ∀ n k, 8 * data.length + 2 ≤ n → n ≤ k →
      fromBytes ((unroll F n i).read m env) data off = fromBytes ((unroll F k i).read m env) data off := fun n k hn hk => by
    obtain ⟨d, rfl⟩ := Nat.exists_eq_add_of_le hk
    rw [C97_depth_is_bounded_by_the_input m F hF (unroll F d) i env data off n hn]
    simp only [unroll, unrollOn_add]
  rcases Nat.le_total n k with h | h
  · exact key n k hn h
  · exact (key k n hk h).symm

/-- **C97**, no panic: if moreover the bodies are of the kind that C50 covers (given that the types in them are), then
`from_bytes` does not panic on a stack that is large enough for the input. -/
theorem C97_never_panics_partial (m : Machine) (len : Nat) (F : (ι → Ty) → ι → Ty) (hF : ∀ i, Guarded False fun σ => F σ i)
    (S : Stage → Prop) (hT : ∀ σ : ι → Ty, (∀ j, (σ j).Runs ∧ (σ j).Hungry ∧ ∀ s, S s → (σ j).Tame m len s) →
      ∀ i, (F σ i).Hungry ∧ ∀ s, S s → (F σ i).Tame m len s)
    (hmem : 8 * len + 1 ≤ m.mem) (i : ι) (env : Env) (data : List Byte) (hd : data.length ≤ len) (off : Nat) (s : Stage)
    (hs : S s) (ho : 8 * data.length < off → s.past = true) (n : Nat) (hn : 8 * data.length + 2 ≤ n) :
    fromBytes ((unroll F n i).read m env) data off ≠ .panic := by
  let failing : ι → Ty := fun _ => .prim none fun _ => { read := M.throw .parse, write := fun _ => M.throw .parse }
  have hf : ∀ j, (failing j).Runs ∧ (failing j).Hungry ∧ ∀ s, S s → (failing j).Tame m len s := fun j => by
    simp only [failing, Ty.Runs, Ty.Hungry, Ty.Tame]
    exact ⟨fun _ => Moves.throw _, fun _ => Eats.throw _, fun _ _ _ => Panicless.throw⟩
  have hall : ∀ n j, (unrollOn F failing n j).Runs ∧ (unrollOn F failing n j).Hungry ∧
      ∀ s, S s → (unrollOn F failing n j).Tame m len s := by
    intro n
    induction n with
    | zero => exact hf
    | succ n ih => exact fun j => ⟨(hF j).runs fun i => (ih i).1, hT _ ih j⟩
  rw [C97_depth_is_bounded_by_the_input m F hF failing i env data off n hn]
  exact C50_structural_partial m len _ env s hmem ((hall n i).2.2 s hs) data hd off ho

/-! ## Trees -/

namespace Example

def treeVariants (t : Ty) : Variants :=
  .cons { pat := fun _ x => decide (x = .num 0), id := some (.num 0) } (.cons {} u8T .nil) <|
  .cons { pat := fun _ x => decide (x = .num 1), id := some (.num 1) } (.cons {} t <| .cons {} t .nil) .nil

/-- `#[deku(id_type = "u8")] enum Tree { #[deku(id = 0)] Leaf(u8), #[deku(id = 1)] Node(Box<Tree>, Box<Tree>) }` -/
def treeF (σ : Unit → Ty) (_ : Unit) : Ty :=
  .enum (fun _ => []) [] (.typed (some 8) fun _ => uintCodec .little 1 .unit)
    (fun _ _ => (uintCodec .little 1 .unit).write) (treeVariants (σ ()))

inductive BinTree
  | leaf (n : Int)
  | node (l r : BinTree)

/-- The value in the program. -/
def BinTree.val : BinTree → Val
  | .leaf n => .variant 0 (.ofList [.num n])
  | .node l r => .variant 1 (.ofList [l.val, r.val])

def BinTree.height : BinTree → Nat
  | .leaf _ => 1
  | .node l r => max l.height r.height + 1

theorem tree_shape (i : Unit) : Shape fun σ => treeF σ i :=
  .enum _ _ _ _ <| .cons _ (.cons _ (.const _) .nil) <| .cons _ (.cons _ (.hole ()) <| .cons _ (.hole ()) .nil) .nil

theorem tree_guarded (i : Unit) : Guarded False fun σ => treeF σ i := by
  have h : False ∨ ([] : List Byte) ≠ [] ∨ ∀ env : Env, Eats ((fun _ => uintCodec .little 1 .unit : Env → Codec) env).read :=
    .inr (.inr fun _ => u8_eats)
  refine .enumTyped _ _ _ _ _ (fun _ => u8_moves) <| .cons _ (fun h => by simp at h) (.cons _ rfl (.const _ ?_) .nil) <|
    .cons _ (fun h => by simp at h) (.cons _ rfl (.hole () (.inl h)) <| .cons _ rfl (.hole () (.inl (.inl h))) .nil) .nil
  simp only [u8T, Ty.Runs]
  exact fun _ => u8_moves

theorem tree_fits : ∀ (t : BinTree) (n : Nat), t.height ≤ n → ∀ (P : Nat → Prop) (env : Env),
    (unroll treeF n ()).Fits mach .msb0 P any env t.val
  | .leaf k, n + 1, _, P, env => by
    simp only [unroll, unrollOn, treeF, Ty.Fits, BinTree.val]
    refine ⟨.inl trivial, 0, _, rfl, ?_⟩
    simp only [treeVariants, Variants.FitsAt]
    refine .inl ⟨.inl trivial, .num 0, any, rfl, by simp [Variants.select, Variants.firstMatch], u8_sound, ?_⟩
    simp only [Fields.Fits, Val.ofList]
    exact ⟨_, _, any, rfl, plain (u8_fits any_all), fun _ _ => trivial⟩
  | .node l r, n + 1, h, P, env => by
    simp only [BinTree.height] at h
    have h1 := tree_fits l n (by omega)
    have h2 := tree_fits r n (by omega)
    simp only [unroll, unrollOn, treeF, Ty.Fits, BinTree.val]
    refine ⟨.inl trivial, 1, _, rfl, ?_⟩
    simp only [treeVariants, Variants.FitsAt]
    refine .inl ⟨.inl trivial, .num 1, any, rfl, by simp [Variants.select, Variants.firstMatch], u8_sound, ?_⟩
    simp only [Fields.Fits, Val.ofList]
    exact ⟨_, _, any, rfl, plain (h1 _ _), _, _, any, rfl, plain (h2 _ _), fun _ _ => trivial⟩
  | .leaf _, 0, h, _, _ => by simp [BinTree.height] at h
  | .node _ _, 0, h, _, _ => by simp [BinTree.height] at h

theorem tree_write : ∀ (t : BinTree) (n k : Nat), t.height ≤ n → t.height ≤ k → ∀ env,
    (unroll treeF n ()).write mach env t.val = (unroll treeF k ()).write mach env t.val
  | .leaf _, n + 1, k + 1, _, _, env => by
    simp only [unroll, unrollOn, treeF, treeVariants, BinTree.val, Ty.write, Variants.writeAt]
  | .node l r, n + 1, k + 1, h, h', env => by
    simp only [BinTree.height] at h h'
    have h1 := tree_write l n k (by omega) (by omega)
    have h2 := tree_write r n k (by omega) (by omega)
    simp only [unroll] at h1 h2
    simp only [unroll, unrollOn, treeF, treeVariants, BinTree.val, Ty.write, Variants.writeAt, Val.ofList, Fields.write,
      Attrs.write, Attrs.put, Bool.false_eq_true, if_false, h1, h2]
  | .leaf _, 0, _, h, _, _ => by simp [BinTree.height] at h
  | .leaf _, _, 0, _, h, _ => by simp [BinTree.height] at h
  | .node _ _, 0, _, h, _, _ => by simp [BinTree.height] at h
  | .node _ _, _, 0, _, h, _ => by simp [BinTree.height] at h

end Example

open Example

/-- **C97**, trees: every tree, of any shape and size, is read back as it was written, if either stack is as large as the
tree is high. -/
theorem C97_trees_round_trip (t : BinTree) (n k : Nat) (hn : t.height ≤ n) (hk : t.height ≤ k) (out : List Byte)
    (hout : toBytes ((unroll treeF n ()).write mach {} t.val) = .ok out) :
    ∃ l, l ≤ 8 * out.length ∧ 8 * out.length < l + 8 ∧ ∀ extra,
      fromBytes ((unroll treeF k ()).read mach {}) (out ++ extra) 0 = .ok (((out ++ extra).drop (l / 8), l % 8), t.val) := by
  rw [tree_write t n k hn hk] at hout
  obtain ⟨-, l, h1, h2, -, h3⟩ := C97_round_trip mach treeF tree_shape .msb0 k () {} t.val any (tree_fits t k hk _ _) out hout
    k k (Nat.le_refl _) (Nat.le_refl _)
  exact ⟨l, h1, h2, h3⟩

namespace Example

def aTree : BinTree := .node (.node (.leaf 5) (.leaf 6)) (.leaf 7)

example : aTree.height = 3 ∧ toBytes ((unroll treeF 3 ()).write mach {} aTree.val) = .ok [1, 1, 0, 5, 0, 6, 0, 7] ∧
    fromBytes ((unroll treeF 3 ()).read mach {}) [1, 1, 0, 5, 0, 6, 0, 7, 9] 0 = .ok (([9], 0), aTree.val) ∧
    fromBytes ((unroll treeF 2 ()).read mach {}) [1, 1, 0, 5, 0, 6, 0, 7, 9] 0 = .panic ∧
    toBytes ((unroll treeF 2 ()).write mach {} aTree.val) = .panic := by decide +kernel

/-- Trees are read without panic on a stack with room for 8 calls for each byte. -/
theorem tree_safe (data : List Byte) (hd : data.length ≤ 124) (n : Nat) (hn : 8 * data.length + 2 ≤ n) :
    fromBytes ((unroll treeF n ()).read mach {}) data 0 ≠ .panic := by
  refine C97_never_panics_partial mach 124 treeF tree_guarded (fun _ => True) (fun σ h i => ⟨?_, fun s _ => ?_⟩)
    (by decide) () {} data hd 0 .fresh trivial (by omega) n hn
  · simp only [treeF, Ty.Hungry]
    exact .inr (.inl fun _ => u8_eats)
  · have ha : ({} : Attrs).Tame s := ⟨fun f h => by simp at h, fun h => by simp at h, fun h => by simp at h⟩
    have hu : ∀ env : Env, Panicless 124 s (uintCodec .little 1 .unit).read s fun _ => True := fun _ =>
      u8_panicless.mono (Stage.le_refl _) ⟨fun h => by simp [Stage.fresh] at h, fun h => by simp [Stage.fresh] at h⟩ fun _ _ => trivial
    simp only [treeF, Ty.Tame, treeVariants, Variants.Tame, Fields.Tame, u8T]
    exact ⟨hu, ⟨ha, hu, trivial⟩, ⟨ha, (h ()).2.2 s trivial, ha, (h ()).2.2 s trivial, trivial⟩, trivial⟩

/-- `struct Node { tag: u8, #[deku(cond = "*tag == 1")] next: Option<Box<Node>> }` -/
def chainF (σ : Unit → Ty) (_ : Unit) : Ty := .struct (fun _ => []) none [] <|
  .cons {} u8T <| .cons { cond := some fun env => decide (var 0 env = 1), default := fun _ => .none } (.option (σ ())) .nil

theorem chain_shape (i : Unit) : Shape fun σ => chainF σ i :=
  .struct _ _ _ <| .cons _ (.const _) <| .cons _ (.option (.hole ())) .nil

theorem chain_guarded (i : Unit) : Guarded False fun σ => chainF σ i := by
  have hu : u8T.Runs := by simp only [u8T, Ty.Runs]; exact fun _ => u8_moves
  have hh : u8T.Hungry := by simp only [u8T, Ty.Hungry]; exact fun _ => u8_eats
  exact .struct _ _ <| .cons _ rfl (.const _ hu) <| .cons _ rfl (.option (.hole () (.inl (.inr (.inr
    ⟨fun _ => rfl, fun _ => hh⟩))))) .nil

theorem plain_read (rd : Env → M Reader Val) (native : Endian) (env : Env) : ({} : Attrs).read native rd env = rd (env.at 0) := by
  funext r
  simp only [Attrs.read, seekRead, magicRead, padRead, M.pure_bind, M.get_bind_run]
  simp [Attrs.value, Attrs.isRead, Attrs.check, Attrs.applyMap, M.bind_def]
  show _ = rd (env.at 0) r
  rcases rd (env.at 0) r with ⟨x, r'⟩
  cases x <;> rfl

theorem panics_bind {σ α β : Type} {x : M σ α} {f : α → M σ β} {s : σ} (h : (x s).1 = .panic) :
    ((x >>= f) s).1 = .panic := by
  rcases e : x s with ⟨_ | _ | _, s'⟩ <;> rw [e] at h <;> try cases h
  rw [M.bind_panic e]

theorem panics_fromBytes {α : Type} {f : M Reader α} {data : List Byte} (h : (f (Reader.new { data := data })).1 = .panic) :
    fromBytes f data 0 = .panic := by
  unfold fromBytes readFrom
  rw [if_neg (by simp)]
  rcases e : f (Reader.new { data := data }) with ⟨_ | _ | _, s'⟩ <;> rw [e] at h <;> try cases h
  simp only
  rw [e]

theorem one_read {r : Reader} {p : Nat} {tl : List Bool} (hr : r.At p) (h : r.unread .msb0 = orderBits .msb0 [1] ++ tl) :
    ∃ r', (uintCodec .little 1 .unit).read r = (.ok (.num 1), r') ∧ r'.At (p + 8) ∧ r'.unread .msb0 = tl := by
  have hd := Prim.readUnsigned_delivers .little .unit (W := 1) (by decide) (by decide) (by decide)
  obtain ⟨r', h1, h2⟩ := (hd r hr.healthy hr.wf).1 (by rw [h]; simp)
  refine ⟨r', ?_, hr.step h2, ?_⟩
  · simp only [uintCodec]
    rw [M.bind_ok h1, h, List.take_left' (by simp)]
    have e : fieldValue .little .msb0 (orderBits .msb0 [1]) = 1 := by decide +kernel
    rw [e]
    rfl
  · rw [h2.unread, h]
    rfl

theorem chain_overflows : ∀ (n : Nat) (r : Reader) (p : Nat) (tl : List Bool) (env : Env), r.At p →
    r.unread .msb0 = orderBits .msb0 (List.replicate n 1) ++ tl → ((unroll chainF n ()).read mach env r).1 = .panic
  | 0, r, p, tl, env, _, _ => by simp only [unroll, unrollOn, overflow, Ty.read]; rfl
  | n + 1, r, p, tl, env, hr, h => by
    obtain ⟨r1, h1, h2, h3⟩ := one_read hr (tl := orderBits .msb0 (List.replicate n 1) ++ tl) (by
      rw [h, List.replicate_succ, ← List.singleton_append, orderBits_append, List.append_assoc])
    have ih := fun env => chain_overflows n r1 _ _ env h2 h3
    simp only [unroll, unrollOn, chainF, Ty.read, Fields.read, seekRead_none, M.pure_bind, u8T, plain_read, magicRead]
    rw [M.bind_ok h1]
    refine panics_bind ?_
    simp only [Attrs.read, seekRead, magicRead, padRead, M.pure_bind]
    refine panics_bind ?_
    rw [M.get_bind_run]
    refine panics_bind ?_
    unfold Attrs.value
    rw [if_pos (by simp [Attrs.isRead, var, Env.push, Env.at])]
    exact panics_bind (panics_bind (ih _))

end Example

/-- **C97 has a limit**: the depth is up to the input. Whatever the size of the stack, there is an input on which the
program ends, no longer in bytes than the stack is deep in calls. -/
theorem C97_every_stack_can_be_exhausted (n : Nat) :
    fromBytes ((unroll chainF n ()).read mach {}) (List.replicate n 1) 0 = .panic := by
  have h := chain_overflows n (Reader.new { data := List.replicate n 1 }) 0 [] {} (Reader.new_at _) (by
    rw [List.append_nil]; rfl)
  exact panics_fromBytes h

/-- **C97 needs the guard**: `struct Loop(Box<Loop>)` ends the program on every input, whatever the size of the stack. -/
theorem C97_recursion_that_reads_nothing_never_ends (n : Nat) (data : List Byte) :
    fromBytes ((unroll (fun σ (_ : Unit) => .struct (fun _ => []) none [] (.cons {} (σ ()) .nil)) n ()).read mach {}) data 0 =
      .panic := by
  have h : ∀ n env r, ((unroll (fun σ (_ : Unit) => .struct (fun _ => []) none [] (.cons {} (σ ()) .nil)) n ()).read mach env r).1
      = .panic := by
    intro n
    induction n with
    | zero => intro env r; simp only [unroll, unrollOn, overflow, Ty.read]; rfl
    | succ n ih =>
      intro env r
      simp only [unroll, unrollOn, Ty.read, Fields.read, seekRead_none, M.pure_bind, plain_read, magicRead]
      exact panics_bind (ih _ r)
  exact panics_fromBytes (h n {} _)

namespace Example

example : fromBytes ((unroll chainF 3 ()).read mach {}) [1, 1, 0, 9] 0 =
      .ok (([9], 0), .ofList [.num 1, .some (.ofList [.num 1, .some (.ofList [.num 0, .none])])]) ∧
    fromBytes ((unroll chainF 9 ()).read mach {}) [1, 1, 0, 9] 0 = fromBytes ((unroll chainF 3 ()).read mach {}) [1, 1, 0, 9] 0 ∧
    fromBytes ((unroll chainF 3 ()).read mach {}) [1, 1, 1, 0] 0 = .panic := by decide +kernel

example (data : List Byte) (n : Nat) (hn : 8 * data.length + 2 ≤ n) : fromBytes ((unroll chainF n ()).read mach {}) data 0 =
    fromBytes ((unroll chainF (8 * data.length + 2) ()).read mach {}) data 0 :=
  C97_large_stacks_agree mach chainF chain_guarded () {} data 0 _ _ hn (Nat.le_refl _)

/-- Two types that contain each other: `struct Dir { n: u8, #[deku(count = "n")] entries: Vec<Entry> }`,
`#[deku(magic = b"\x2f")] struct Entry { name: u8, #[deku(cond = "*name == 0")] dir: Option<Dir> }` -/
def dirF (σ : Bool → Ty) : Bool → Ty
  | true => .struct (fun _ => []) none [] <| .cons {} u8T <| .cons {} (.vec 1 (.count (var 0)) (σ false)) .nil
  | false => .struct (fun _ => []) none [0x2f] <| .cons {} u8T <|
    .cons { cond := some fun env => decide (var 0 env = 0), default := fun _ => .none } (.option (σ true)) .nil

theorem dir_shape : ∀ i, Shape fun σ => dirF σ i
  | true => .struct _ _ _ <| .cons _ (.const _) <| .cons _ (.vec _ _ (.hole false)) .nil
  | false => .struct _ _ _ <| .cons _ (.const _) <| .cons _ (.option (.hole true)) .nil

theorem dir_guarded : ∀ i, Guarded False fun σ => dirF σ i := by
  have hu : u8T.Runs := by simp only [u8T, Ty.Runs]; exact fun _ => u8_moves
  have hh : u8T.Hungry := by simp only [u8T, Ty.Hungry]; exact fun _ => u8_eats
  rintro (_ | _)
  · exact .struct _ _ <| .cons _ rfl (.const _ hu) <| .cons _ rfl (.option (.hole true (.inl (.inl (.inr (by simp)))))) .nil
  · exact .struct _ _ <| .cons _ rfl (.const _ hu) <| .cons _ rfl (.vec _ _ (.hole false (.inl (.inr (.inr
      ⟨fun _ => rfl, fun _ => hh⟩))))) .nil

example : fromBytes ((unroll dirF 5 true).read mach {}) [2, 0x2f, 0, 1, 0x2f, 7, 0x2f, 8] 0 =
      .ok (([], 0), .ofList [.num 2, .ofList [.ofList [.num 0, .some (.ofList [.num 1, .ofList [.ofList [.num 7, .none]]])],
        .ofList [.num 8, .none]]]) ∧
    fromBytes ((unroll dirF 3 true).read mach {}) [2, 0x2f, 0, 1, 0x2f, 7, 0x2f, 8] 0 = .panic := by decide +kernel

example (data : List Byte) (n k : Nat) (hk : n ≤ k) :
    fromBytes ((unroll dirF n true).read mach {}) data 0 = fromBytes ((unroll dirF k true).read mach {}) data 0 ∨
    fromBytes ((unroll dirF n true).read mach {}) data 0 = .panic :=
  C97_reading_does_not_depend_on_the_stack mach dirF dir_shape n k hk true {} data 0

example (data : List Byte) (n : Nat) (hn : 8 * data.length + 2 ≤ n) (base : Bool → Ty) :
    fromBytes ((unroll dirF n true).read mach {}) data 0 = fromBytes ((unrollOn dirF base n true).read mach {}) data 0 :=
  C97_depth_is_bounded_by_the_input mach dirF dir_guarded base true {} data 0 n hn

end Example

end Deku
