import Verif.Model.ReleaseMaps
import Verif.Lemmas.Release

/-!
# `HashMap`, `HashSet` and `to_bits` in a release build
-/

namespace Deku

variable {α β τ : Type}

open M (Follows)

theorem mapLoop_release [DecidableEq α] {f g : M Reader (α × β)} (h : Follows f g) (pred : Nat → α × β → τ → Bool × τ) (start mem : Nat) :
    ∀ (st : τ) (res : List (α × β)), Follows (Coll.mapLoop f pred start mem st res) (Rel.mapLoop g pred start mem st res) := by
  induction mem with
  | zero => exact fun _ _ => .bind h fun _ => .refl _
  | succ n ih =>
    intro st res
    unfold Coll.mapLoop Rel.mapLoop
    refine .bind h fun v => .then_ _ fun r => ?_
    intro s hs
    by_cases hc : start ≤ r.bitsRead
    · have e : Rel.bitsSince start r.bitsRead = r.bitsRead - start := if_pos hc
      rw [e]
      exact Follows.drop _ (.ite (fun _ => .refl _) fun _ => ih _ _) s hs
    · simp [hc] at hs

theorem mapEndLoop_release [DecidableEq α] {f g : M Reader (α × β)} (h : Follows f g) (mem : Nat) :
    ∀ res, Follows (Coll.mapEndLoop f mem res) (Coll.mapEndLoop g mem res) := by
  induction mem with
  | zero =>
    intro res
    unfold Coll.mapEndLoop
    exact .then_ _ fun e => .ite (fun _ => .refl _) fun _ => .bind h fun _ => .refl _
  | succ n ih =>
    intro res
    unfold Coll.mapEndLoop
    exact .then_ _ fun e => .ite (fun _ => .refl _) fun _ => .bind h fun _ => ih _

theorem mapWithPredicate_release [DecidableEq α] {f g : M Reader (α × β)} (h : Follows f g) (mem : Nat) (cap : Option Nat)
    (pred : Nat → α × β → τ → Bool × τ) (st : τ) :
    Follows (Coll.mapWithPredicate mem cap f pred st) (Rel.mapWithPredicate mem cap g pred st) := by
  unfold Coll.mapWithPredicate Rel.mapWithPredicate
  exact .then_ _ fun _ => .then_ _ fun r => mapLoop_release h _ _ _ _ _

theorem mapRead_release [DecidableEq α] {f g : M Reader (α × β)} (h : Follows f g) (mem : Nat) (l : Limit (α × β) τ) :
    Follows (Coll.mapRead mem f l) (Rel.mapRead mem g l) := by
  cases l with
  | count n => exact .ite (fun _ => .refl _) fun _ => mapWithPredicate_release h _ _ _ _
  | «until» p i => exact mapWithPredicate_release h _ _ _ _
  | bits n => exact .ite (fun _ => .refl _) fun _ => mapWithPredicate_release h _ _ _ _
  | «end» => exact mapEndLoop_release h _ _
  | bytes n =>
    unfold Coll.mapRead Rel.mapRead usize
    dsimp only
    by_cases hn : n * 8 < 2 ^ 64
    · rw [if_pos hn, Nat.mod_eq_of_lt hn]
      intro s hs
      exact Follows.ite (fun _ => .refl _) (fun _ => mapWithPredicate_release h _ _ _ _) s hs
    · rw [if_neg hn]
      exact fun s hs => (hs rfl).elim

theorem setLoop_release [DecidableEq α] {f g : M Reader α} (h : Follows f g) (pred : Nat → α → τ → Bool × τ) (start mem : Nat) :
    ∀ (st : τ) (res : List α), Follows (Coll.setLoop f pred start mem st res) (Rel.setLoop g pred start mem st res) := by
  induction mem with
  | zero => exact fun _ _ => .bind h fun _ => .refl _
  | succ n ih =>
    intro st res
    unfold Coll.setLoop Rel.setLoop
    refine .bind h fun v => .then_ _ fun r => ?_
    intro s hs
    by_cases hc : start ≤ r.bitsRead
    · have e : Rel.bitsSince start r.bitsRead = r.bitsRead - start := if_pos hc
      rw [e]
      exact Follows.drop _ (.ite (fun _ => .refl _) fun _ => ih _ _) s hs
    · simp [hc] at hs

theorem setEndLoop_release [DecidableEq α] {f g : M Reader α} (h : Follows f g) (mem : Nat) :
    ∀ res, Follows (Coll.setEndLoop f mem res) (Coll.setEndLoop g mem res) := by
  induction mem with
  | zero =>
    intro res
    unfold Coll.setEndLoop
    exact .then_ _ fun e => .ite (fun _ => .refl _) fun _ => .bind h fun _ => .refl _
  | succ n ih =>
    intro res
    unfold Coll.setEndLoop
    exact .then_ _ fun e => .ite (fun _ => .refl _) fun _ => .bind h fun _ => ih _

theorem setWithPredicate_release [DecidableEq α] {f g : M Reader α} (h : Follows f g) (mem : Nat) (cap : Option Nat)
    (pred : Nat → α → τ → Bool × τ) (st : τ) :
    Follows (Coll.setWithPredicate mem cap f pred st) (Rel.setWithPredicate mem cap g pred st) := by
  unfold Coll.setWithPredicate Rel.setWithPredicate
  exact .then_ _ fun _ => .then_ _ fun r => setLoop_release h _ _ _ _ _

theorem setRead_release [DecidableEq α] {f g : M Reader α} (h : Follows f g) (mem : Nat) (l : Limit α τ) :
    Follows (Coll.setRead mem f l) (Rel.setRead mem g l) := by
  cases l with
  | count n => exact .ite (fun _ => .refl _) fun _ => setWithPredicate_release h _ _ _ _
  | «until» p i => exact setWithPredicate_release h _ _ _ _
  | bits n => exact .ite (fun _ => .refl _) fun _ => setWithPredicate_release h _ _ _ _
  | «end» => exact setEndLoop_release h _ _
  | bytes n =>
    unfold Coll.setRead Rel.setRead usize
    dsimp only
    by_cases hn : n * 8 < 2 ^ 64
    · rw [if_pos hn, Nat.mod_eq_of_lt hn]
      intro s hs
      exact Follows.ite (fun _ => .refl _) (fun _ => setWithPredicate_release h _ _ _ _) s hs
    · rw [if_neg hn]
      exact fun s hs => (hs rfl).elim

theorem mapCodec_release (m : Machine) (l : LimitE) {k k' v v' : Ty} (hk : k.Follows k') (hv : v.Follows v')
    (iter : List (Val × Val) → List (Val × Val)) (env : Env) :
    (mapCodec m l k v iter env).Follows (Rel.mapCodec m l k' v' iter env) := by
  refine ⟨.then_ _ fun lim => .bind (mapRead_release ?_ _ _) fun _ => .refl _, fun x => .ite (fun _ => ?_) fun _ => .refl _⟩
  · exact .bind (Ty.read_release m k k' hk env) fun _ => .bind (Ty.read_release m v v' hv env) fun _ => .refl _
  · exact writeAll_release (fun (e : Val × Val) => .bind (Ty.write_release m k k' hk env e.1) fun _ => Ty.write_release m v v' hv env e.2) _

theorem setCodec_release (m : Machine) (l : LimitE) {t u : Ty} (h : t.Follows u) (iter : List Val → List Val) (env : Env) :
    (setCodec m l t iter env).Follows (Rel.setCodec m l u iter env) :=
  ⟨.then_ _ fun _ => .bind (setRead_release (Ty.read_release m t u h env) _ _) fun _ => .refl _,
    fun _ => .ite (fun _ => writeAll_release (fun x => Ty.write_release m t u h env x) _) fun _ => .refl _⟩

theorem toBits_release {f g : M Writer Unit} (h : Follows f g) (hp : toBits f ≠ .panic) : Rel.toBits g = toBits f := by
  unfold toBits at hp
  unfold toBits Rel.toBits
  have hr : (f (Writer.new {})).1 ≠ .panic := by
    intro he
    rcases hx : f (Writer.new {}) with ⟨x, w⟩
    rw [hx] at hp he
    rw [show x = .panic from he] at hp
    exact hp rfl
  rw [h _ hr]
  rfl

end Deku
