import Verif.Lemmas.Monad
import Verif.Spec.Unsafe

/-! # The unsafe code of array reads: C65 -/

namespace Deku

open Unsafe

variable {α : Type}

namespace Unsafe

/-- The array after the values `vs` have been written to it and `k` slots remain. -/
def filled (vs : List α) (k : Nat) : Mem α := { slots := vs.map .init ++ List.replicate k .uninit }

theorem filled_write (vs : List α) (k : Nat) (a : α) :
    (filled vs (k + 1)).write vs.length a = some (filled (vs ++ [a]) k) := by
  have h : (filled vs (k + 1)).slots[vs.length]? = some .uninit := by
    simp [filled]
  simp only [Mem.write, h]
  simp [filled, List.replicate_succ]

theorem dropRange_filled (pre vs : List α) (tl : List (Slot α)) (d : List α) :
    ({ slots := pre.map (fun _ => .moved) ++ (vs.map .init ++ tl), dropped := d } : Mem α).dropRange pre.length vs.length =
      some { slots := (pre ++ vs).map (fun _ => .moved) ++ tl, dropped := d ++ vs } := by
  induction vs generalizing pre d with
  | nil => simp [Mem.dropRange]
  | cons v vs ih =>
    have h : (pre.map (fun _ => (.moved : Slot α)) ++ ((v :: vs).map .init ++ tl))[pre.length]? = some (.init v) := by
      simp
    simp only [List.length_cons, Mem.dropRange, Mem.dropAt, h]
    have := ih (pre ++ [v]) (d ++ [v])
    simp only [List.length_append, List.length_cons, List.length_nil, Nat.zero_add] at this
    rw [show (pre.map (fun _ => (.moved : Slot α)) ++ ((v :: vs).map Slot.init ++ tl)).set pre.length .moved =
      (pre ++ [v]).map (fun _ => .moved) ++ (vs.map .init ++ tl) by simp, this]
    simp

theorem values_init (vs : List α) : values (vs.map .init) = some vs := by
  induction vs with
  | nil => rfl
  | cons v vs ih => simp [values, ih]

theorem fill_filled (read : M Reader α) (k : Nat) (vs : List α) (r : Reader) :
    let (out, m, r') := fill read vs.length k (filled vs k) r
    m.leaked = [] ∧
    match Coll.arrayRead read k r with
    | (.ok ws, s) => out = .ok (vs ++ ws) ∧ r' = s ∧ m.dropped = [] ∧ m.live = []
    | (.err e, s) => out = .err e ∧ r' = s ∧ m.dropped = vs ++ produced read k r ∧ m.live = []
    | (.panic, s) => out = .panic ∧ r' = s ∧ m.dropped = [] ∧ m.live = vs ++ produced read k r := by
  induction k generalizing vs r with
  | zero => simp [fill, filled, Mem.take, values_init, Coll.arrayRead, Mem.live, List.filterMap_eq_nil_iff]
  | succ k ih =>
    simp only [fill, Coll.arrayRead, produced]
    rw [M.bind_def]
    rcases h : read r with ⟨x, r1⟩
    cases x with
    | ok a =>
      simp only [filled_write]
      have := ih (vs ++ [a]) r1
      simp only [List.length_append, List.length_cons, List.length_nil, Nat.zero_add] at this
      rw [M.bind_def]
      rcases h1 : Coll.arrayRead read k r1 with ⟨y, s⟩
      rw [h1] at this
      cases y <;> simpa using this
    | err e =>
      have := dropRange_filled [] vs (List.replicate (k + 1) .uninit) []
      simp only [List.map_nil, List.nil_append, List.length_nil] at this
      simp only [filled, this]
      simp [Mem.live, List.filterMap_eq_nil_iff]
    | panic =>
      simp [filled, Mem.live, List.filterMap_append, List.filterMap_map, Function.comp_def]

end Unsafe

/-- **C65.** Reading an array has no undefined behaviour, whatever the reader of the elements does, and leaves the
reader where and with the result that the safe model has. -/
theorem C65_array_read_is_defined (read : M Reader α) (n : Nat) (r : Reader) :
    (Unsafe.arrayRead read n r).1 ≠ .ub ∧
    (Unsafe.arrayRead read n r).2.2 = (Coll.arrayRead read n r).2 ∧
    (Unsafe.arrayRead read n r).1 = match (Coll.arrayRead read n r).1 with
      | .ok vs => .ok vs
      | .err e => .err e
      | .panic => .panic := by
  have h := fill_filled read n [] r
  simp only [List.length_nil, List.nil_append] at h
  unfold Unsafe.arrayRead
  rw [show (Mem.new n : Mem α) = filled [] n from rfl]
  rcases hf : fill read 0 n (filled [] n) r with ⟨out, m, r'⟩
  rw [hf] at h
  rcases hc : Coll.arrayRead read n r with ⟨x, s⟩
  rw [hc] at h
  cases x <;> obtain ⟨_, rfl, rfl, _⟩ := h <;> simp

/-- **C65.** No element is lost or dropped twice. On success the elements are moved to the caller and nothing is
dropped; on an error exactly the elements read so far are dropped, once each and in order; none is overwritten.
If the reader of an element panics, the elements read so far are leaked. -/
theorem C65_every_element_is_dropped_once (read : M Reader α) (n : Nat) (r : Reader) :
    let m := (Unsafe.arrayRead read n r).2.1
    m.leaked = [] ∧
    match (Coll.arrayRead read n r).1 with
    | .ok vs => vs = produced read n r ∧ m.dropped = [] ∧ m.live = []
    | .err _ => m.dropped = produced read n r ∧ m.live = []
    | .panic => m.dropped = [] ∧ m.live = produced read n r := by
  have h := fill_filled read n [] r
  simp only [List.length_nil, List.nil_append] at h
  unfold Unsafe.arrayRead
  rw [show (Mem.new n : Mem α) = filled [] n from rfl]
  rcases hf : fill read 0 n (filled [] n) r with ⟨out, m, r'⟩
  rw [hf] at h
  have hp : ∀ (n : Nat) (r : Reader) (vs : List α) (s : Reader), Coll.arrayRead read n r = (.ok vs, s) →
      vs = produced read n r := by
    intro n
    induction n with
    | zero => intro r vs s h; simp [Coll.arrayRead] at h; simp [produced, h.1]
    | succ n ih =>
      intro r vs s h
      obtain ⟨a, r1, h1, h2⟩ := M.bind_eq_ok h
      obtain ⟨ws, r2, h3, h4⟩ := M.bind_eq_ok h2
      simp only [M.pure_run, Prod.mk.injEq, Res.ok.injEq] at h4
      simp only [produced, h1]
      rw [← ih r1 ws r2 h3, h4.1]
  rcases hc : Coll.arrayRead read n r with ⟨x, s⟩
  rw [hc] at h
  cases x with
  | ok vs => exact ⟨h.1, hp n r vs s hc, h.2.2.2⟩
  | err e => exact ⟨h.1, h.2.2.2⟩
  | panic => exact ⟨h.1, h.2.2.2⟩

/-- Four bytes, each read as a `bool`, of which the third is not one: the first two are dropped. -/
example :
    Unsafe.arrayRead (Coll.boolRead (Prim.readUnsigned .little 1 .unit)) 4 (Reader.new { data := [1, 0, 7, 1] }) =
      (.err .parse, { slots := [.moved, .moved, .uninit, .uninit], dropped := [true, false] },
        (Coll.arrayRead (Coll.boolRead (Prim.readUnsigned .little 1 .unit)) 4 (Reader.new { data := [1, 0, 7, 1] })).2) ∧
    produced (Coll.boolRead (Prim.readUnsigned .little 1 .unit)) 4 (Reader.new { data := [1, 0, 7, 1] }) = [true, false] := by
  constructor <;> rfl

end Deku
