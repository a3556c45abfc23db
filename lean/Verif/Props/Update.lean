import Verif.Spec.Update
import Verif.Lemmas.Examples

/-!
# Properties of `update`: C43
-/

namespace Deku

open Reader Writer Coll Example

theorem Val.elems_set (x : Val) : ∀ (v : Val) (i : Nat), (v.set i x).elems = v.elems.set i x
  | .cons y ys, 0 => by simp [Val.set, Val.elems]
  | .cons y ys, i + 1 => by simp [Val.set, Val.elems, Val.elems_set x ys i]
  | .num _, i => by simp [Val.set, Val.elems]
  | .none, i => by simp [Val.set, Val.elems]
  | .some _, i => by simp [Val.set, Val.elems]
  | .nil, i => by simp [Val.set, Val.elems]
  | .variant _ _, i => by simp [Val.set, Val.elems]

theorem Val.set_same (x : Val) : ∀ (v : Val) (i : Nat), v.elems[i]? = Option.some x → v.set i x = v
  | .cons y ys, 0, h => by simp [Val.elems] at h; simp [Val.set, h]
  | .cons y ys, i + 1, h => by
    simp only [Val.elems, List.getElem?_cons_succ] at h
    simp only [Val.set, Val.set_same x ys i h]
  | .num _, i, h => by simp [Val.elems] at h
  | .none, i, h => by simp [Val.elems] at h
  | .some _, i, h => by simp [Val.elems] at h
  | .nil, i, h => by simp [Val.elems] at h
  | .variant _ _, i, h => by simp [Val.elems] at h

/-- One assignment after the other. -/
def applyUpdates : List (Nat × (Val → Except DekuError Val)) → Val → Res Unit × Val
  | [], v => (.ok (), v)
  | u :: us, v =>
    match u.2 v with
    | .ok x => applyUpdates us (v.set u.1 x)
    | .error e => (.err e, v)

theorem update_eq : ∀ (fs : Fields) (i : Nat) (v : Val), fs.update i v = applyUpdates (fs.updates i) v
  | .nil, i, v => rfl
  | .cons a t tl, i, v => by
    simp only [Fields.update, Fields.updates]
    cases hu : a.update with
    | none => exact update_eq tl (i + 1) v
    | some f =>
      simp only [applyUpdates]
      rw [M.get_bind_run]
      cases hf : f v with
      | error e => rfl
      | ok x =>
        simp only
        rw [M.modify_bind_run]
        exact update_eq tl (i + 1) _
  | .temp a t val tl, i, v => by
    simp only [Fields.update, Fields.updates]
    exact update_eq tl i v

theorem updates_lt : ∀ (fs : Fields) (i : Nat) (u : Nat × (Val → Except DekuError Val)),
    u ∈ fs.updates i → i ≤ u.1
  | .nil, i, u, h => by simp [Fields.updates] at h
  | .cons a t tl, i, u, h => by
    simp only [Fields.updates] at h
    cases hu : a.update with
    | none => rw [hu] at h; have := updates_lt tl (i + 1) u h; omega
    | some f =>
      rw [hu] at h
      rcases List.mem_cons.1 h with h | h
      · subst h; exact Nat.le_refl _
      · have := updates_lt tl (i + 1) u h; omega
  | .temp a t val tl, i, u, h => by
    simp only [Fields.updates] at h
    exact updates_lt tl i u h

theorem updates_pairwise : ∀ (fs : Fields) (i : Nat), (fs.updates i).Pairwise fun u u' => u.1 ≠ u'.1
  | .nil, i => List.Pairwise.nil
  | .cons a t tl, i => by
    simp only [Fields.updates]
    cases a.update with
    | none => exact updates_pairwise tl (i + 1)
    | some f =>
      refine List.pairwise_cons.2 ⟨fun u hu => ?_, updates_pairwise tl (i + 1)⟩
      have := updates_lt tl (i + 1) u hu
      simp only
      omega
  | .temp a t val tl, i => by
    simp only [Fields.updates]
    exact updates_pairwise tl i

theorem applyUpdates_ok {us : List (Nat × (Val → Except DekuError Val))} {v v' : Val}
    (hi : ∀ u ∈ us, ∀ u' ∈ us, ∀ v x, u.2 (v.set u'.1 x) = u.2 v)
    (hp : us.Pairwise fun u u' => u.1 ≠ u'.1) (h : applyUpdates us v = (.ok (), v')) :
    (∀ u ∈ us, ∃ x, u.2 v = .ok x ∧ u.2 v' = .ok x ∧ (u.1 < v.elems.length → v'.elems[u.1]? = some x)) ∧
    (∀ j, (∀ u ∈ us, u.1 ≠ j) → v'.elems[j]? = v.elems[j]?) ∧ v'.elems.length = v.elems.length ∧
    (∀ f : Val → Except DekuError Val, (∀ u ∈ us, ∀ v x, f (v.set u.1 x) = f v) → f v' = f v) := by
  induction us generalizing v with
  | nil => simp [applyUpdates] at h; subst h; simp
  | cons u us ih =>
    simp only [applyUpdates] at h
    cases hu : u.2 v with
    | error e => rw [hu] at h; simp at h
    | ok x =>
      rw [hu] at h
      simp only at h
      have hp' := List.pairwise_cons.1 hp
      obtain ⟨h1, h2, h3, h4⟩ := ih (fun a ha b hb => hi a (List.mem_cons_of_mem _ ha) b
        (List.mem_cons_of_mem _ hb)) hp'.2 h
      rw [Val.elems_set] at h2 h3
      rw [List.length_set] at h3
      refine ⟨fun w hw => ?_, fun j hj => ?_, h3, fun f hf => ?_⟩
      · rcases List.mem_cons.1 hw with rfl | hw
        · refine ⟨x, hu, ?_, fun hl => ?_⟩
          · rw [h4 w.2 fun u' hu' => hi w (List.mem_cons_self) u' (List.mem_cons_of_mem _ hu'),
              hi w List.mem_cons_self w List.mem_cons_self, hu]
          · rw [h2 w.1 fun u' hu' => (hp'.1 u' hu').symm]
            simp [hl]
        · obtain ⟨y, g1, g2, g3⟩ := h1 w hw
          rw [hi w (List.mem_cons_of_mem _ hw) u List.mem_cons_self] at g1
          rw [Val.elems_set, List.length_set] at g3
          exact ⟨y, g1, g2, g3⟩
      · rw [h2 j fun u' hu' => hj u' (List.mem_cons_of_mem _ hu'),
          List.getElem?_set_ne (hj u List.mem_cons_self)]
      · rw [h4 f fun u' hu' => hf u' (List.mem_cons_of_mem _ hu'), hf u List.mem_cons_self]

theorem applyUpdates_same {us : List (Nat × (Val → Except DekuError Val))} {v : Val}
    (h : ∀ u ∈ us, ∃ x, u.2 v = .ok x ∧ v.elems[u.1]? = some x) : applyUpdates us v = (.ok (), v) := by
  induction us with
  | nil => rfl
  | cons u us ih =>
    obtain ⟨x, h1, h2⟩ := h u List.mem_cons_self
    simp only [applyUpdates, h1, Val.set_same x v u.1 h2]
    exact ih fun u' hu' => h u' (List.mem_cons_of_mem _ hu')

theorem applyUpdates_err {us : List (Nat × (Val → Except DekuError Val))} {v : Val}
    (hi : ∀ u ∈ us, ∀ u' ∈ us, ∀ v x, u.2 (v.set u'.1 x) = u.2 v) {u : Nat × (Val → Except DekuError Val)}
    (hu : u ∈ us) {e : DekuError} (he : u.2 v = .error e) :
    ∃ u' ∈ us, ∃ e', u'.2 v = .error e' ∧ (applyUpdates us v).1 = .err e' := by
  induction us generalizing v with
  | nil => simp at hu
  | cons w us ih =>
    cases hw : w.2 v with
    | error e' => exact ⟨w, List.mem_cons_self, e', hw, by simp [applyUpdates, hw]⟩
    | ok x =>
      simp only [applyUpdates, hw]
      rcases List.mem_cons.1 hu with rfl | hu
      · rw [hw] at he; simp at he
      · obtain ⟨u', h1, e', h2, h3⟩ := ih (v := v.set w.1 x) (fun a ha b hb =>
          hi a (List.mem_cons_of_mem _ ha) b (List.mem_cons_of_mem _ hb)) hu
          (by rw [hi u (List.mem_cons_of_mem _ hu) w List.mem_cons_self]; exact he)
        rw [hi u' (List.mem_cons_of_mem _ h1) w List.mem_cons_self] at h2
        exact ⟨u', List.mem_cons_of_mem _ h1, e', h2, h3⟩

/-- **C43.** After a successful `update`, every updated field has the value its expression has then,
and no other field has changed. -/
theorem C43_update_makes_consistent (fs : Fields) (hi : fs.Independent) (v v' : Val)
    (hlen : ∀ u ∈ fs.updates 0, u.1 < v.elems.length) (h : fs.update 0 v = (.ok (), v')) :
    fs.Consistent v' ∧ v'.elems.length = v.elems.length ∧
      ∀ j, (∀ u ∈ fs.updates 0, u.1 ≠ j) → v'.elems[j]? = v.elems[j]? := by
  rw [update_eq] at h
  obtain ⟨h1, h2, h3, _⟩ := applyUpdates_ok hi (updates_pairwise fs 0) h
  exact ⟨fun u hu => let ⟨x, _, g2, g3⟩ := h1 u hu; ⟨x, g2, g3 (hlen u hu)⟩, h3, h2⟩

/-- **C43.** A consistent value is not changed. -/
theorem C43_consistent_is_unchanged (fs : Fields) (v : Val) (h : fs.Consistent v) :
    fs.update 0 v = (.ok (), v) := by
  rw [update_eq]; exact applyUpdates_same h

/-- **C43.** `update` is idempotent. -/
theorem C43_update_is_idempotent (fs : Fields) (hi : fs.Independent) (v v' : Val)
    (hlen : ∀ u ∈ fs.updates 0, u.1 < v.elems.length) (h : fs.update 0 v = (.ok (), v')) :
    fs.update 0 v' = (.ok (), v') :=
  C43_consistent_is_unchanged fs v' (C43_update_makes_consistent fs hi v v' hlen h).1

/-- **C43.** If one of the expressions fails, so does `update`, with the error of one that does. -/
theorem C43_update_fails (fs : Fields) (hi : fs.Independent) (v : Val)
    (u : Nat × (Val → Except DekuError Val)) (hu : u ∈ fs.updates 0) (e : DekuError)
    (he : u.2 v = .error e) :
    ∃ u' ∈ fs.updates 0, ∃ e', u'.2 v = .error e' ∧ (fs.update 0 v).1 = .err e' := by
  rw [update_eq]; exact applyUpdates_err hi hu he

/-! ### a count and a list -/

/-- A count of `W` bytes, updated with the length of the list after it, and further fields:
```
struct Counted {
    #[deku(update = "self.list.len()")] count: uW,
    #[deku(count = "count")] list: Vec<T>,
    ..
}
``` -/
def counted (W : Nat) (ctx : IntCtx) (size : Nat) (t : Ty) (tl : Fields) : Fields :=
  .cons { update := some (lenOf 1 W) } (.prim (some (8 * W)) fun _ => uintCodec .little W ctx) <|
  .cons {} (.vec size (.count (var 0)) t) tl

/-- **C43.** `update` stores the length of the list, or fails if it is out of the range of the count. -/
theorem C43_count_is_the_length (W : Nat) (ctx : IntCtx) (size : Nat) (t : Ty) (tl : Fields)
    (ht : tl.updates 2 = []) (c l xs : Val) :
    (counted W ctx size t tl).update 0 (.cons c (.cons l xs)) =
      if l.elems.length < 256 ^ W then (.ok (), .cons (.num l.elems.length) (.cons l xs))
      else (.err .parse, .cons c (.cons l xs)) := by
  rw [update_eq]
  simp only [counted, Fields.updates, ht, applyUpdates, lenOf, Val.elems, List.getElem?_cons_succ,
    List.getElem?_cons_zero]
  by_cases h : l.elems.length < 256 ^ W
  · simp only [if_pos h, Val.set]
  · simp only [if_neg h]

/-- **C43.** Whatever the count was, after `update` the value survives `to_bytes` and `from_bytes`: for
every Msb0 count type of whole bytes, every element type and every further fields whose values fit. -/
theorem C43_round_trip_after_update (m : Machine) (e : Endian) (W : Nat) (ctx : IntCtx) (size : Nat)
    (t : Ty) (tl : Fields) (ht : tl.updates 2 = []) (c l xs v' : Val) (Q : Nat → Prop)
    (hW : 1 ≤ W) (hs : ctx.shape .little W = (e, 8 * W, .msb0)) (hsize : size ≠ 0)
    (hmem : l.elems.length ≤ m.mem) (h64 : l.elems.length < 2 ^ 64)
    (hu : (counted W ctx size t tl).update 0 (.cons c (.cons l xs)) = (.ok (), v'))
    (hel : ∀ x ∈ l.elems, t.Fits m .msb0 any any { vars := [.num l.elems.length] } x)
    (htl : tl.Fits m .msb0 any Q { vars := [l, .num l.elems.length] } v' xs) (out : List Byte)
    (hout : toBytes ((Ty.struct (fun _ => []) none [] (counted W ctx size t tl)).write m {} v') = .ok out) :
    ∃ n, n ≤ 8 * out.length ∧ 8 * out.length < n + 8 ∧ Q n ∧ ∀ extra,
      fromBytes ((Ty.struct (fun _ => []) none [] (counted W ctx size t tl)).read m {}) (out ++ extra) 0 =
        .ok (((out ++ extra).drop (n / 8), n % 8), v') := by
  rw [C43_count_is_the_length W ctx size t tl ht] at hu
  by_cases hl : l.elems.length < 256 ^ W
  · rw [if_pos hl] at hu
    simp at hu
    subst hu
    refine SoundOn.round_trip (Ty.sound m .msb0 _ _ _ _ _ ?_) hout
    simp only [Ty.Fits, counted, Fields.Fits]
    refine ⟨trivial, .inl trivial, _, _, any, rfl, ?_, _, _, any, rfl, ?_, htl⟩
    · refine ⟨rfl, rfl, .inl rfl, .inl rfl, .inl rfl, any, .inl ⟨rfl, rfl, rfl, ?_⟩, fun _ _ => trivial⟩
      exact (uint_sound_msb hW hs (by omega) (Nat.le_refl _) (.inr (.inl rfl))).mono (fun _ h => h)
        fun _ _ => trivial
    · refine plain ⟨any, fun _ _ => trivial, hel, fun _ _ => trivial, hsize, hmem, ?_, fun h => by simp [LimitE.isSize] at h⟩
      refine ⟨rfl, ?_⟩
      show ((l.elems.length : Nat) : Int) < 2 ^ 64
      omega
  · rw [if_neg hl] at hu
    simp at hu

/-- A struct with two-byte elements and a last field: `update` corrects its count. -/
example : (counted 1 .unit 2 u16be (.cons {} u8T .nil)).update 0
      (.ofList [.num 77, .ofList [.num 1, .num 2, .num 3], .num 9]) =
    (.ok (), .ofList [.num 3, .ofList [.num 1, .num 2, .num 3], .num 9]) := by decide +kernel

example (c : Val) (items : List Int) (h : items.length < 256) (out : List Byte)
    (hout : toBytes ((Ty.struct (fun _ => []) none [] (counted 1 .unit 2 u16be (.cons {} u8T .nil))).write mach {}
      (.ofList [.num items.length, .ofList (items.map .num), .num 9])) = .ok out) :
    ∃ n, n ≤ 8 * out.length ∧ 8 * out.length < n + 8 ∧ any n ∧ ∀ extra,
      fromBytes ((Ty.struct (fun _ => []) none [] (counted 1 .unit 2 u16be (.cons {} u8T .nil))).read mach {})
        (out ++ extra) 0 = .ok (((out ++ extra).drop (n / 8), n % 8),
          .ofList [.num items.length, .ofList (items.map .num), .num 9]) := by
  refine C43_round_trip_after_update mach .little 1 .unit 2 u16be (.cons {} u8T .nil) rfl c
    (.ofList (items.map .num)) (.ofList [.num 9]) _ any (by decide) rfl (by decide) ?_ ?_ ?_ ?_ ?_ out hout
  · rw [elems_ofList]; simp [mach]; omega
  · rw [elems_ofList]; simp; omega
  · rw [C43_count_is_the_length _ _ _ _ _ rfl, elems_ofList, List.length_map, if_pos (by simpa using h)]
    rfl
  · exact fun x _ => u16_fits any_all
  · simp only [Fields.Fits, Val.ofList]
    exact ⟨_, _, any, rfl, plain (u8_fits any_all), fun _ _ => trivial⟩

/-- A list of 256 elements is too long for a count of one byte. -/
example (c : Val) : (counted 1 .unit 2 u16be .nil).update 0 (.cons c (.cons (.ofList (List.replicate 256 (.num 0))) .nil)) =
    (.err .parse, .cons c (.cons (.ofList (List.replicate 256 (.num 0))) .nil)) := by
  rw [C43_count_is_the_length _ _ _ _ _ rfl, elems_ofList, List.length_replicate, if_neg (by decide)]

/-- The hypothesis of independence, for the struct with a count. -/
example (W : Nat) (ctx : IntCtx) (size : Nat) (t : Ty) : (counted W ctx size t .nil).Independent := by
  intro u hu u' hu' v x
  simp [counted, Fields.updates] at hu hu'
  subst hu hu'
  simp only [lenOf, Val.elems_set]
  rw [List.getElem?_set_ne (by decide)]

/-- Fields that are updated from each other: one `update` is not enough. -/
theorem C43_dependent_updates_need_another_update :
    let fs : Fields := .cons { update := some fun v => .ok ((v.elems[1]?).getD .nil) } u8T <|
      .cons { update := some fun v => .ok ((v.elems[2]?).getD .nil) } u8T <| .cons {} u8T .nil
    fs.update 0 (.ofList [.num 1, .num 2, .num 3]) = (.ok (), .ofList [.num 2, .num 3, .num 3]) ∧
    fs.update 0 (.ofList [.num 2, .num 3, .num 3]) = (.ok (), .ofList [.num 3, .num 3, .num 3]) := by
  constructor <;> decide +kernel

/-- The example for `bytes_read` in the documentation (src/attributes.rs:1023-1036), which has
`update = "(self.items.len() / 2)"` where it takes `* 2`: a value that was just parsed is changed by `update`, and what
is then written is refused when read. -/
theorem C43_documented_size_is_not_the_size :
    let half : Val → Except DekuError Val := fun v => .ok (.num (((v.elems[1]?.getD Val.nil).elems.length / 2 : Nat) : Int))
    let fs : Fields := .cons { update := some half } u8T <|
      .cons {} (.vec 2 (.bytes fun env => match env.vars[0]? with | Option.some (Val.num n) => n | _ => 0) (.pair u8T u8T)) .nil
    let t : Ty := .struct (fun _ => []) none [] fs
    let v : Val := .ofList [.num 4, .ofList [.ofList [.num 0xab, .num 0xbc], .ofList [.num 0xde, .num 0xef]]]
    let v' : Val := .ofList [.num 1, .ofList [.ofList [.num 0xab, .num 0xbc], .ofList [.num 0xde, .num 0xef]]]
    fromBytes (t.read mach {}) [4, 0xab, 0xbc, 0xde, 0xef] 0 = .ok (([], 0), v) ∧
    fs.update 0 v = (.ok (), v') ∧
    toBytes (t.write mach {} v') = .ok [1, 0xab, 0xbc, 0xde, 0xef] ∧
    fromBytes (t.read mach {}) [1, 0xab, 0xbc, 0xde, 0xef] 0 = .err (.incomplete 8) := by
  refine ⟨?_, ?_, ?_, ?_⟩ <;> decide +kernel

end Deku
