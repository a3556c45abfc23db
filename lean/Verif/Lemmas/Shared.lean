import Verif.Lemmas.MixedRead
import Verif.Props.Mixed

/-!
# Lemmas about two bit orders on one byte
-/

namespace Deku

namespace Mixed

variable {α : Type}

theorem flip_take (s : List α) (h : 8 ≤ s.length) : (flip s).take 8 = (s.take 8).reverse := by
  have : flip s = (s.take 8).reverse ++ flips ((s.length - 8) / 8) (s.drop 8) := by
    rw [flip, show s.length / 8 = (s.length - 8) / 8 + 1 by omega, flips]
  rw [this, List.take_left' (by simp; omega)]

theorem flip_short (s : List α) (h : s.length < 8) : flip s = s.reverse := by
  rw [flip, show s.length / 8 = 0 by omega, flips]

theorem flip_eight (s : List α) (h : s.length = 8) : flip s = s.reverse := by
  rw [flip, h, flips, flips, List.drop_of_length_le (by omega), List.take_of_length_le (by omega)]; simp

theorem flip_cons (s t : List α) (h : s.length = 8) : flip (s ++ t) = s.reverse ++ flip t := by
  rw [flip, List.length_append, show (s.length + t.length) / 8 = t.length / 8 + 1 by omega, flips, List.take_left' h, List.drop_left' h, flip]

theorem length_flip (s : List α) : (flip s).length = s.length := (flip_perm s).length_eq

theorem flips_flips : ∀ (k : Nat) (s : List α), s.length = 8 * k → flips k (flips k s) = s
  | 0, s, h => by simp [flips]
  | k + 1, s, h => by
    rw [flips, flips, List.take_left' (by simp; omega), List.drop_left' (by simp; omega), flips_flips k _ (by simp; omega), List.reverse_reverse,
      List.take_append_drop]

theorem flip_flip (s : List α) (h : s.length % 8 = 0) : flip (flip s) = s := by
  rw [flip, length_flip, flip, flips_flips _ _ (by omega)]

/-- Lsb0 bits behind whole bytes. -/
theorem flip_behind (s l : List α) (h : s.length % 8 = 0) (hl : l.length < 8) : flip (flip s ++ l.reverse) = s ++ l := by
  have key : ∀ (k : Nat) (s : List α), s.length = 8 * k → flips k (flips k s ++ l.reverse) = s ++ l := by
    intro k
    induction k with
    | zero => intro s h; have : s = [] := List.length_eq_zero_iff.1 (by omega); subst this; simp [flips]
    | succ k ih =>
      intro s h
      rw [flips, flips, List.append_assoc, List.take_left' (by simp; omega), List.drop_left' (by simp; omega), ih _ (by simp; omega),
        List.reverse_reverse, ← List.append_assoc, List.take_append_drop]
  rw [flip, List.length_append, length_flip, List.length_reverse, show (s.length + l.length) / 8 = s.length / 8 by omega, flip, key _ _ (by omega)]

/-- A write of less than a byte behind whole bytes: it is behind them. -/
theorem lay_behind (t o : Order) (s l : List α) (h : s.length % 8 = 0) (hl : l.length < 8) : lay t o s l = s ++ l := by
  have hw : whole s = s := by rw [whole, List.take_of_length_le (by omega)]
  have hp : pending s = [] := by rw [pending, List.drop_of_length_le (by omega)]
  cases t <;> cases o
  · rfl
  · simp [lay, hw, hp]
  · rw [lay, hw, hp, show l.length / 8 = 0 by omega, show l.length % 8 = l.length by omega]; simp [backwards]
  · exact flip_behind s l h hl

/-- The other bits of a byte that an Msb0 write has begun. -/
theorem lay_msb_lsb (s a b : List α) (h : s.length % 8 = 0) (hab : a.length + b.length = 8) (ha : a.length < 8) (hb : b.length < 8) :
    lay .msb0 .lsb0 (s ++ a) b = s ++ (a ++ b) := by
  have hw : whole (s ++ a) = s := whole_of s a h ha
  have hp : pending (s ++ a) = a := pending_of s a h ha
  rw [lay, hw, hp, List.take_of_length_le (by omega), List.drop_of_length_le (by omega), List.append_nil]

/-- The other bits of a byte that an Lsb0 write has begun. -/
theorem lay_lsb_msb (s a b : List α) (h : s.length % 8 = 0) (ha : a.length < 8) (hb : b.length < 8) :
    lay .lsb0 .msb0 (s ++ a) b = s ++ (b ++ a) := by
  have hw : whole (s ++ a) = s := whole_of s a h ha
  have hp : pending (s ++ a) = a := pending_of s a h ha
  rw [lay, hw, hp, show b.length / 8 = 0 by omega, List.take_of_length_le (show b.length ≤ b.length % 8 by omega)]; rfl

end Mixed

open Mixed Writer

/-- The bits of all bytes of the output. -/
theorem toBytes_laid (sh : List (Nat × Option Order)) (ops : List WriteOp) (h : ops.map WriteOp.form = sh.map some) :
    ∃ out, toBytes (runWrites ops) = .ok out ∧
      bytesBits out = (fun x : List Bool × Order => lay x.2 x.2 x.1 (List.replicate ((8 - x.1.length % 8) % 8) false))
        (steps ([], .msb0) sh (ops.map WriteOp.content).flatten) := by
  obtain ⟨w, h1, h2, h3⟩ := runWrites_lays sh ops h (Writer.new {}) new_writer_wf new_writer_healthy
  have hh := h2.healthy new_writer_healthy
  obtain ⟨w', e, c, g, wf, _⟩ := C109_where_the_bits_go w h2.wf hh w.tag (List.replicate ((8 - w.leftover.length) % 8) false)
  have h8 := h2.wf.2
  have hlen : w.laid.length % 8 = w.leftover.length := by
    rw [laid, List.length_append, length_bytesBits, Writer.rest]; omega
  have hf : finalize w = (.ok (), w') := by
    simp only [finalize, M.get_bind_run, h8, decide_true, M.assert_true_bind_run]; exact e
  have hl' : w'.laid.length % 8 = 0 := by
    rw [c, length_lay, List.length_replicate]; omega
  have hr : w'.leftover = [] := by
    have := wf.2
    rw [laid, List.length_append, length_bytesBits, Writer.rest] at hl'
    exact List.length_eq_zero_iff.1 (by omega)
  have hg : Grew ((8 - w.leftover.length) % 8) w w' := by
    obtain ⟨w'', e', g', _⟩ := (writeBitsOrder_lays h2.wf w.tag (List.replicate ((8 - w.leftover.length) % 8) false)).ok
      (writeBitsOrder_took h2.wf w.tag _) hh
    rw [e] at e'
    simp only [Prod.mk.injEq, true_and] at e'
    subst e'
    simpa using g'
  have hg := h2.trans hg
  have hp : w'.inner.pos = w'.inner.data.length := by
    have ha := hg.wf.1.1
    have hb := congrArg List.length hg.tail
    simp [Writer.new] at hb
    omega
  refine ⟨w'.inner.data, ?_, ?_⟩
  · rw [toBytes, show (do runWrites ops; Writer.finalize : M Writer Unit) = (runWrites ops >>= fun _ => Writer.finalize) from rfl, M.bind_ok h1, hf]
  · have : steps ([], .msb0) sh (ops.map WriteOp.content).flatten = (w.laid, w.tag) := h3.symm
    rw [this]
    show bytesBits w'.inner.data = lay w.tag w.tag w.laid (List.replicate ((8 - w.laid.length % 8) % 8) false)
    rw [hlen, ← c, laid, Writer.rest, hr, List.append_nil, Sink.written, hp, List.take_length]

/-! ### the reading side -/

theorem picks_msb_lsb {α : Type} (a b t : List α) (ht : t.length % 8 = 0) (hab : a.length + b.length = 8) (ha : 0 < a.length) :
    picked .msb0 a.length (a ++ b ++ t) = a ∧ remains .msb0 a.length (a ++ b ++ t) = b ++ t ∧
      picked .lsb0 b.length (b ++ t) = b ∧ remains .lsb0 b.length (b ++ t) = t := by
  have h1 : turned (b ++ t) = b.reverse ++ flip t := by
    rw [turned, show (b ++ t).length % 8 = b.length by simp; omega, List.take_left, List.drop_left]
  have h2 : turned (flip t) = t := by
    rw [turned, length_flip, ht]; simp [flip_flip t ht]
  refine ⟨?_, ?_, ?_, ?_⟩
  · rw [picked, List.append_assoc, List.take_left]
  · rw [remains, List.append_assoc, List.drop_left]
  · rw [picked, h1, List.take_left' (by simp), List.reverse_reverse]
  · rw [remains, h1, List.drop_left' (by simp), h2]

theorem picks_lsb_msb {α : Type} (a b t : List α) (ht : t.length % 8 = 0) (hab : a.length + b.length = 8) (ha : 0 < a.length) :
    picked .lsb0 a.length (b ++ a ++ t) = a ∧ remains .lsb0 a.length (b ++ a ++ t) = b ++ t ∧
      picked .msb0 b.length (b ++ t) = b ∧ remains .msb0 b.length (b ++ t) = t := by
  have h1 : turned (b ++ a ++ t) = a.reverse ++ (b.reverse ++ flip t) := by
    rw [turned, show (b ++ a ++ t).length % 8 = 0 by simp; omega, List.take_zero, List.drop_zero, flip_cons _ _ (by simp; omega)]; simp
  have h2 : turned (b.reverse ++ flip t) = b ++ t := by
    rw [turned, show (b.reverse ++ flip t).length % 8 = b.length by simp [length_flip]; omega, List.take_left' (by simp), List.drop_left' (by simp),
      List.reverse_reverse, flip_flip t ht]
  refine ⟨?_, ?_, ?_, ?_⟩
  · rw [picked, h1, List.take_left' (by simp), List.reverse_reverse]
  · rw [remains, h1, List.drop_left' (by simp), h2]
  · rw [picked, List.take_left]
  · rw [remains, List.drop_left]

end Deku
