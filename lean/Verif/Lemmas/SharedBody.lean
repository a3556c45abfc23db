import Verif.Lemmas.SharedStruct
import Verif.Lemmas.CoreAccept
import Verif.Lemmas.CoreFits

/-!
# A header whose fields share bytes and a body
-/

namespace Deku

open HeadSlot Mixed Writer

/-- A header is written at any byte boundary, whatever was written before. -/
theorem head_follows (native : Endian) (ss : List HeadSlot) (h : ∀ s ∈ ss, s.Fits native) {w0 : Writer} (ha : w0.Appending) (hl0 : w0.leftover = []) :
    ∃ w out, writeFields native (ss.flatMap fields) w0 = (.ok (), w) ∧ w.Appending ∧ w.leftover = [] ∧
      w.tag = headTag native w0.tag ss ∧ w.inner.data = w0.inner.data ++ out ∧ bytesBits out = ss.flatMap (bits native) := by
  obtain ⟨w, e, hg, hl⟩ := writes_shift native ss h w0 ha.wf ha.healthy
  have h0 : w0.laid = bytesBits w0.inner.data := by
    rw [laid, Writer.rest, hl0, List.append_nil, Sink.written, ha.atEnd, List.take_length]
  rw [h0, steps_slots native ss h _ _ (by simp [length_bytesBits])] at hl
  simp only [Prod.mk.injEq] at hl
  obtain ⟨hl, ht⟩ := hl
  have ha' : w.Appending := Writer.Grew.appending ha hg
  have hr : w.leftover = [] := by
    have h8 := length_bits native ss h
    have := hg.wf.2
    have hl' := congrArg List.length hl
    rw [laid, List.length_append, List.length_append, length_bytesBits, length_bytesBits, Writer.rest] at hl'
    exact List.length_eq_zero_iff.1 (by omega)
  have hp : bytesBits (Prim.bytesOf .msb0 (ss.flatMap (bits native))) = ss.flatMap (bits native) :=
    Prim.orderBits_bytesOf .msb0 _ (length_bits native ss h)
  refine ⟨w, Prim.bytesOf .msb0 (ss.flatMap (bits native)), e, ha', hr, ht, ?_, hp⟩
  rw [laid, Writer.rest, hr, List.append_nil, Sink.written, ha'.atEnd, List.take_length, ← hp, ← bytesBits_append] at hl
  exact bytesBits_inj hl

/-- A header is written first. -/
theorem head_written (native : Endian) (ss : List HeadSlot) (h : ∀ s ∈ ss, s.Fits native) :
    ∃ w out, writeFields native (ss.flatMap fields) (Writer.new {}) = (.ok (), w) ∧ w.Appending ∧ w.leftover = [] ∧
      w.tag = headTag native .msb0 ss ∧ w.inner.data = out ∧ bytesBits out = ss.flatMap (bits native) :=
  head_follows native ss h Decides.new_appending rfl

/-- A header is read at a byte boundary. -/
theorem head_reads (native : Endian) (ss : List HeadSlot) (h : ∀ s ∈ ss, s.Fits native) {out : List Byte}
    (ho : bytesBits out = ss.flatMap (bits native)) :
    ReadsBytes (readFields native (ss.flatMap fields)) out ((ss.flatMap fields).map IntField.v) := by
  intro r rest ha hu
  have hu' : r.unreadMsb = ss.flatMap (bits native) ++ bytesBits rest := by
    have := ha.unread_aligned .msb0
    rw [hu] at this
    rw [← ho, ← bytesBits_append]
    exact this
  obtain ⟨r', e, u, b, a, n⟩ := reads_slots native (bytesBits rest) (by simp [length_bytesBits]) ss h ha.live hu'
  have a := a.at (n ha.noPeek)
  refine ⟨r', e, a, ?_, ?_⟩
  · have := a.unread_aligned .msb0
    exact bytesBits_inj (this.symm.trans u)
  · rw [b, ← length_all native ss h, ← ho, length_bytesBits]

/-- A body that fills whole bytes in one order. -/
theorem body_bytes (m : Machine) (o : Order) (d : Def) (env : Env) (v : Val) (hd : d.valid m.native = true)
    (hc : d.check m.native o (some 0) = some (some 0)) (hv : d.has v = true) (hg : d.good m env v = true)
    (hr : d.refusal m.native env v = none) {w : Writer} (ha : w.Appending) (hl : w.leftover = []) (ht : o = .lsb0 ∨ w.tag = .msb0) :
    ∃ w' body, (d.toTy m).write m env v w = (.ok (), w') ∧ w'.Appending ∧ w'.leftover = [] ∧
      w'.inner.data = w.inner.data ++ body ∧ ReadsBytes ((d.toTy m).read m env) body v ∧ 8 * body.length = d.bits m.native env v := by
  have hdec := Def.decides m d env v hd hv
  rw [hr] at hdec
  obtain ⟨w', e, ha'⟩ := hdec w ha
  have hp : ∀ p : Nat, p = 0 → Align.holds (some 0) p := by rintro _ rfl k hk; cases hk; rfl
  have hf := Def.fits m o d (· = 0) (fun n => n % 8 = 0) (some 0) (some 0) env v hd hg hc hp fun p h => h 0 rfl
  have hat : w.At o 0 := ⟨ha.wf, ha.healthy, by
    cases o with
    | msb0 => exact ht.resolve_left (by simp)
    | lsb0 => exact .inr hl, by rw [hl]; rfl⟩
  obtain ⟨bits, hw, hrd, hq⟩ := Ty.sound m o _ _ _ _ _ hf 0 w w' rfl hat e
  simp only [Nat.zero_add] at hq
  obtain ⟨w'', e', s, _⟩ := hw w hat
  rw [e] at e'
  simp only [Prod.mk.injEq, true_and] at e'
  subst e'
  rw [← Prim.orderBits_bytesOf o bits hq] at s hrd
  obtain ⟨c1, c2, _⟩ := Wrote.bytes ⟨ha.wf, ha.healthy, hl⟩ s
  refine ⟨w', _, e, ha', c1.empty, ?_, Reads.bytes hrd, ?_⟩
  · rw [Sink.written, Sink.written, ha.atEnd, ha'.atEnd, List.take_length, List.take_length] at c2
    exact c2
  · obtain ⟨_, n, rfl, hn⟩ := Def.puts m d env v hd w () w' ha e
    have := congrArg List.length c2
    simp only [Writer.total, Sink.written, ha.atEnd, ha'.atEnd, List.take_length, List.length_append] at hn this
    simp only [c1.empty, hl, List.length_nil] at hn
    omega

theorem twoFields_write (m : Machine) (a body : Ty) (env : Env) (x v : Val) (w : Writer) :
    (twoFields a body).write m env (.ofList [x, v]) w =
      (do a.write m { ctx := [] } x; body.write m (({ ctx := [] } : Env).push x) v) w := by
  have e1 : ({ ctx := [] } : Env).at 0 = { ctx := [] } := rfl
  have e2 : (({ ctx := [] } : Env).push x).at 0 = ({ ctx := [] } : Env).push x := rfl
  rw [twoFields, Ty.write]
  simp only [Val.ofList, Fields.write, seekWrite, magicWrite, Attrs.write, padWrite, Attrs.put, Attrs.isWritten, Attrs.check, Coll.writeAll, bind,
    M.bind, pure, M.pure, M.get, if_true, Bool.true_eq_false, Bool.false_eq_true, if_false, e1, e2]
  rcases a.write m { ctx := [] } x w with ⟨y, w1⟩
  cases y with
  | ok u =>
    simp only
    rcases body.write m (({ ctx := [] } : Env).push x) v w1 with ⟨z, w2⟩
    cases z <;> rfl
  | err e => rfl
  | panic => rfl

theorem twoFields_read (m : Machine) (a body : Ty) (env : Env) (r : Reader) :
    (twoFields a body).read m env r =
      (do let x ← a.read m { ctx := [] }
          let v ← body.read m (({ ctx := [] } : Env).push x)
          pure (Val.ofList [x, v])) r := by
  have e1 : ({ ctx := [] } : Env).at 0 = { ctx := [] } := rfl
  have e2 : ∀ x, (({ ctx := [] } : Env).push x).at 0 = ({ ctx := [] } : Env).push x := fun _ => rfl
  rw [twoFields, Ty.read]
  simp only [Fields.read, seekRead, magicRead, Attrs.read, padRead, Attrs.value, Attrs.isRead, Attrs.check, Attrs.applyMap, bind, M.bind, pure, M.pure,
    M.get, if_true, Bool.true_eq_false, Bool.false_eq_true, if_false, e1, e2]
  rcases a.read m { ctx := [] } r with ⟨y, r1⟩
  cases y with
  | ok x =>
    simp only
    rcases body.read m (({ ctx := [] } : Env).push x) r1 with ⟨z, r2⟩
    cases z <;> rfl
  | err e => rfl
  | panic => rfl

/-- Between bytes there is nothing to fill up. -/
theorem finalize_empty {w : Writer} (ha : w.Appending) (hl : w.leftover = []) :
    ∃ w', finalize w = (.ok (), w') ∧ w'.inner.data = w.inner.data := by
  have hw : w.Clean := ⟨ha.wf, ha.healthy, hl⟩
  obtain ⟨w', e, s⟩ := finalize_wrote hw.atLsb
  rw [hw.empty, show List.replicate ((8 - ([] : List Bool).length) % 8) false = orderBits .lsb0 [] from rfl] at s
  obtain ⟨c, h2, h3⟩ := Wrote.bytes hw s
  refine ⟨w', e, ?_⟩
  have h1 := c.wf.1.1
  have hlen := congrArg List.length h3
  have hlen2 := congrArg List.length h2
  rw [List.append_nil, Sink.written, Sink.written, ha.atEnd, List.take_length] at h2
  simp only [Sink.written, ha.atEnd, List.length_drop, List.take_length, List.length_take, List.append_nil] at hlen hlen2
  rw [List.take_of_length_le (by omega)] at h2
  exact h2

end Deku
