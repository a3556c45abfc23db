import Verif.Lemmas.Mixed
import Verif.Props.Writer

/-!
# Properties of writes in both bit orders: C109
-/

namespace Deku

open Writer Mixed

/-- **C109.** A bit write in either order, after writes in either order, succeeds on a sink that does not fail, and puts its bits
where the four cases of `lay` say. -/
theorem C109_where_the_bits_go (w : Writer) (hw : w.WF) (hh : w.Healthy) (o : Order) (l : List Bool) :
    ∃ w', writeBitsOrder l o w = (.ok (), w') ∧ w'.laid = lay w.tag o w.laid l ∧ w'.tag = o ∧ w'.WF ∧
      w'.bitsWritten + 8 * w.inner.pos = w.bitsWritten + 8 * w'.inner.pos := by
  obtain ⟨w', h1, h2, h3, h4⟩ := (writeBitsOrder_lays hw o l).ok (writeBitsOrder_took hw o l) hh
  exact ⟨w', h1, h3, h4, h2.wf, h2.counted⟩

theorem WriteOp.content_length {op : WriteOp} {x : Nat × Option Order} (h : op.form = some x) : op.content.length = x.1 := by
  cases op <;> simp [WriteOp.form] at h <;> simp [← h, WriteOp.content]

theorem WriteOp.contents_length : ∀ (sh : List (Nat × Option Order)) (ops : List WriteOp), ops.map WriteOp.form = sh.map some →
    (ops.map WriteOp.content).flatten.length = (sh.map Prod.fst).sum
  | [], [], _ => rfl
  | [], _ :: _, h => by simp at h
  | _ :: _, [], h => by simp at h
  | x :: sh, op :: ops, h => by
    simp only [List.map_cons, List.cons.injEq] at h
    simp only [List.map_cons, List.flatten_cons, List.length_append, List.sum_cons]
    rw [WriteOp.content_length h.1, WriteOp.contents_length sh ops h.2]

theorem WriteOp.call_lays {op : WriteOp} {x : Nat × Option Order} (h : op.form = some x) {w : Writer} (hw : w.WF) (hh : w.Healthy) :
    ∃ w', op.call w = (.ok (), w') ∧ Grew x.1 w w' ∧ (w'.laid, w'.tag) = step (w.laid, w.tag) op.content x.2 := by
  cases op with
  | bits l o =>
    simp only [WriteOp.form, Option.some.injEq] at h
    subst h
    obtain ⟨w', h1, h2, h3, h4⟩ := (writeBitsOrder_lays hw o l).ok (writeBitsOrder_took hw o l) hh
    exact ⟨w', h1, h2, by simp [step, WriteOp.content, h3, h4]⟩
  | bytes bs =>
    simp only [WriteOp.form, Option.some.injEq] at h
    subst h
    obtain ⟨w', h1, h2, h3, h4⟩ := (writeBytes_lays hw bs).ok (writeBytes_took hw bs) hh
    refine ⟨w', h1, h2, ?_⟩
    have e : w.laid.length % 8 = 0 ↔ w.leftover = [] := by
      have := hw.2
      rw [laid, List.length_append, length_bytesBits, Writer.rest, ← List.length_eq_zero_iff]
      omega
    rw [h3, h4]
    by_cases hl : w.leftover = []
    · simp [step, WriteOp.content, hl, e]
    · simp [step, WriteOp.content, hl, e]
  | uint v amt => simp [WriteOp.form] at h

theorem runWrites_lays : ∀ (sh : List (Nat × Option Order)) (ops : List WriteOp), ops.map WriteOp.form = sh.map some →
    ∀ (w : Writer), w.WF → w.Healthy →
    ∃ w', runWrites ops w = (.ok (), w') ∧ Grew (sh.map Prod.fst).sum w w' ∧
      (w'.laid, w'.tag) = steps (w.laid, w.tag) sh (ops.map WriteOp.content).flatten
  | [], [], _, w, hw, _ => ⟨w, rfl, Grew.refl hw, rfl⟩
  | [], _ :: _, h, _, _, _ => by simp at h
  | _ :: _, [], h, _, _, _ => by simp at h
  | x :: sh, op :: ops, h, w, hw, hh => by
    simp only [List.map_cons, List.cons.injEq] at h
    obtain ⟨w1, e1, g1, s1⟩ := WriteOp.call_lays h.1 hw hh
    obtain ⟨w2, e2, g2, s2⟩ := runWrites_lays sh ops h.2 w1 g1.wf (g1.healthy hh)
    have hl := WriteOp.content_length h.1
    refine ⟨w2, by rw [runWrites, M.bind_ok e1]; exact e2, by simpa using g1.trans g2, ?_⟩
    rw [s2, s1, List.map_cons, List.flatten_cons, steps, List.take_left' hl, List.drop_left' hl]

/-- **C109.** Bits change places only, and their new places do not depend on the bits: for every sequence of sizes and bit orders
there is a permutation, and whatever is written with these sizes and orders, the bytes in the sink and the pending bits are the bits
written, permuted. -/
theorem C109_bits_change_places_only (sh : List (Nat × Option Order)) :
    ∃ p : List Nat, p.Perm (List.range (sh.map Prod.fst).sum) ∧
      ∀ ops : List WriteOp, ops.map WriteOp.form = sh.map some →
        ∃ w', runWrites ops (Writer.new {}) = (.ok (), w') ∧
          bytesBits w'.inner.data ++ w'.rest = p.map (fun i => (ops.map WriteOp.content).flatten.getD i false) ∧
          w'.bitsWritten = 8 * w'.inner.data.length ∧ w'.rest.length < 8 := by
  refine ⟨(steps ([], .msb0) sh (List.range (sh.map Prod.fst).sum)).1, ?_, fun ops h => ?_⟩
  · have := steps_perm sh (([] : List Nat), Order.msb0) (List.range (sh.map Prod.fst).sum) (by simp)
    simpa using this
  · obtain ⟨w', h1, h2, h3⟩ := runWrites_lays sh ops h (Writer.new {}) new_writer_wf new_writer_healthy
    have hp : w'.inner.pos = w'.inner.data.length := by
      have ha := h2.wf.1.1
      have hb := congrArg List.length h2.tail
      simp [Writer.new] at hb
      omega
    refine ⟨w', h1, ?_, ?_, h2.wf.2⟩
    · have h4 := congrArg Prod.fst h3
      simp only [laid, Sink.written, hp, List.take_length] at h4
      rw [h4, ← WriteOp.contents_length sh ops h]
      generalize (ops.map WriteOp.content).flatten = c
      have := congrArg Prod.fst (steps_map (fun i => c.getD i false) sh (([] : List Nat), Order.msb0) (List.range c.length))
      rw [range_getD] at this
      exact this
    · have := h2.counted
      simp [Writer.new] at this
      omega

/-- The bits of a sequence, in two sequences of the same sizes, are the same only if the calls are the same. -/
theorem WriteOp.of_content : ∀ (ops ops' : List WriteOp), ops.map WriteOp.form = ops'.map WriteOp.form → (∀ op ∈ ops, op.Public) →
    (ops.map WriteOp.content).flatten = (ops'.map WriteOp.content).flatten → ops = ops'
  | [], [], _, _, _ => rfl
  | [], _ :: _, h, _, _ => by simp at h
  | _ :: _, [], h, _, _ => by simp at h
  | a :: ops, b :: ops', h, hp, hc => by
    simp only [List.map_cons, List.cons.injEq, List.flatten_cons] at h hc
    have ha := hp a List.mem_cons_self
    have hl : a.content.length = b.content.length := by
      cases a <;> cases b <;> simp [WriteOp.form, WriteOp.Public, WriteOp.content] at h ha ⊢ <;> omega
    obtain ⟨h1, h2⟩ := List.append_inj hc hl
    have hab : a = b := by
      cases a <;> cases b <;> simp [WriteOp.form, WriteOp.Public, WriteOp.content] at h ha h1 ⊢
      · exact ⟨h1, h.1.2⟩
      · exact bytesBits_inj h1
    rw [hab, WriteOp.of_content ops ops' h.2 (fun op ho => hp op (List.mem_cons_of_mem _ ho)) h2]

theorem WriteOp.forms : ∀ ops : List WriteOp, (∀ op ∈ ops, op.Public) → ∃ sh : List (Nat × Option Order), ops.map WriteOp.form = sh.map some
  | [], _ => ⟨[], rfl⟩
  | a :: ops, hp => by
    obtain ⟨sh, h⟩ := WriteOp.forms ops fun op ho => hp op (List.mem_cons_of_mem _ ho)
    have ha := hp a List.mem_cons_self
    cases a with
    | bits l o => exact ⟨(l.length, some o) :: sh, by simp [h, WriteOp.form]⟩
    | bytes bs => exact ⟨(8 * bs.length, none) :: sh, by simp [h, WriteOp.form]⟩
    | uint v n => exact ha.elim

/-- **C109.** So nothing is lost: if two sequences of writes with the same sizes and bit orders leave the same bytes and the same
pending bits, then the same was written. -/
theorem C109_no_bit_is_lost (ops ops' : List WriteOp) (hp : ∀ op ∈ ops, op.Public) (hf : ops.map WriteOp.form = ops'.map WriteOp.form)
    (hd : (runWrites ops (Writer.new {})).2.inner.data = (runWrites ops' (Writer.new {})).2.inner.data)
    (hr : (runWrites ops (Writer.new {})).2.rest = (runWrites ops' (Writer.new {})).2.rest) : ops = ops' := by
  obtain ⟨sh, hsh⟩ := WriteOp.forms ops hp
  obtain ⟨p, h1, h2⟩ := C109_bits_change_places_only sh
  obtain ⟨w, e, c, b, _⟩ := h2 ops hsh
  obtain ⟨w', e', c', b', _⟩ := h2 ops' (hf ▸ hsh)
  rw [e, e'] at hd hr
  simp only at hd hr
  rw [hd, hr, c'] at c
  refine WriteOp.of_content ops ops' hf hp ?_
  have hn := WriteOp.contents_length sh ops hsh
  have hn' := WriteOp.contents_length sh ops' (hf ▸ hsh)
  have hall := List.map_inj_left.1 c
  apply List.ext_getElem (hn.trans hn'.symm)
  intro i hi hi'
  have := hall i (h1.mem_iff.2 (by simp; omega))
  rw [List.getD_eq_getElem?_getD, List.getD_eq_getElem?_getD, List.getElem?_eq_getElem hi, List.getElem?_eq_getElem hi'] at this
  exact this.symm

/-- **C109.** Nor are different writes mixed up by `finalize`: with the same sizes and bit orders, different bits give different
bytes. There are as many bytes as it takes. -/
theorem C109_different_bits_give_different_bytes (ops ops' : List WriteOp) (hp : ∀ op ∈ ops, op.Public)
    (hf : ops.map WriteOp.form = ops'.map WriteOp.form) :
    (∃ out, toBytes (runWrites ops) = .ok out ∧ out.length = ((ops.map WriteOp.content).flatten.length + 7) / 8) ∧
      (toBytes (runWrites ops) = toBytes (runWrites ops') → ops = ops') := by
  obtain ⟨sh, hsh⟩ := WriteOp.forms ops hp
  have hrun : ∀ ops : List WriteOp, ops.map WriteOp.form = sh.map some → ∃ w w' : Writer, runWrites ops (Writer.new {}) = (.ok (), w) ∧
      toBytes (runWrites ops) = .ok w'.inner.data ∧ w.rest.length < 8 ∧ 8 * w.inner.data.length + w.rest.length = (sh.map Prod.fst).sum ∧
      w.tag = (steps ([], .msb0) sh (List.replicate (sh.map Prod.fst).sum ())).2 ∧
      orderBits w.tag w.inner.data ++ present w.tag w.rest ++ List.replicate ((8 - w.rest.length) % 8) false = orderBits w.tag w'.inner.data ∧
      8 * w'.inner.data.length = (sh.map Prod.fst).sum + (8 - w.rest.length) % 8 := by
    intro ops h
    obtain ⟨w, h1, h2, h3⟩ := runWrites_lays sh ops h (Writer.new {}) new_writer_wf new_writer_healthy
    have hq : ∀ {n : Nat} {w : Writer}, Grew n (Writer.new {}) w → w.inner.pos = w.inner.data.length := by
      intro n w h2
      have ha := h2.wf.1.1
      have hb := congrArg List.length h2.tail
      simp [Writer.new] at hb
      omega
    obtain ⟨w', h4, h5, h6⟩ := (finalize_done h2.wf).ok (h2.healthy new_writer_healthy)
    have hg := h2.trans (h5.grew h2.wf)
    have hl := h2.len
    have hl' := hg.len
    rw [hq h2] at hl
    rw [hq hg] at hl'
    have h8 := h2.wf.2
    have h8' := h5.wf.2
    simp [Writer.new] at hl hl'
    have hr' : w'.leftover = [] := List.length_eq_zero_iff.1 (by omega)
    refine ⟨w, w', h1, ?_, h8, by rw [Writer.rest]; omega, ?_, ?_, by rw [hr'] at hl'; simp at hl'; rw [Writer.rest]; omega⟩
    · rw [toBytes, show (do runWrites ops; Writer.finalize : M Writer Unit) = (runWrites ops >>= fun _ => Writer.finalize) from rfl, M.bind_ok h1, h4]
    · have := congrArg Prod.snd (steps_map (fun _ => ()) sh (([] : List Bool), Order.msb0) (ops.map WriteOp.content).flatten)
      rw [List.map_const' (l := (ops.map WriteOp.content).flatten), WriteOp.contents_length sh ops h] at this
      have ht := congrArg Prod.snd h3
      exact ht.trans this.symm
    · have := h5.produced
      simp only [produced, Sink.written, hq h2, hq hg, List.take_length, Writer.rest, hr'] at this
      rw [Writer.rest, ← this]
      cases w.tag <;> simp [present]
  obtain ⟨w, w', r1, r2, r3, r4, r5, r6, r7⟩ := hrun ops hsh
  refine ⟨⟨_, r2, by rw [WriteOp.contents_length sh ops hsh]; omega⟩, fun he => ?_⟩
  obtain ⟨v, v', s1, s2, s3, s4, s5, s6, s7⟩ := hrun ops' (hf ▸ hsh)
  rw [r2, s2] at he
  have hd : w'.inner.data = v'.inner.data := by simpa using he
  have ht : v.tag = w.tag := s5.trans r5.symm
  rw [ht, ← hd, ← r6] at s6
  have hlr : v.rest.length = w.rest.length := by omega
  obtain ⟨e1, _⟩ := List.append_inj' s6 (by simp [hlr])
  obtain ⟨e2, e3⟩ := List.append_inj' e1 (by cases w.tag <;> simp [present, hlr])
  have hdata : v.inner.data = w.inner.data := by
    cases hw : w.tag <;> rw [hw] at e2
    · exact bytesBits_inj e2
    · exact bytesBitsLsb_inj e2
  have hrest : v.rest = w.rest := by
    cases hw : w.tag <;> rw [hw] at e3 <;> simpa [present] using e3
  exact C109_no_bit_is_lost ops ops' hp hf (by rw [r1, s1, hdata]) (by rw [r1, s1, hrest])

/-! ### a case that meets the hypotheses: both orders, bytes between, sizes that end in the middle -/

/-- Five bits Lsb0, eleven Msb0, a byte, three bits Lsb0. -/
def someMixed (a b : List Bool) (c : Byte) (d : List Bool) : List WriteOp := [.bits a .lsb0, .bits b .msb0, .bytes [c], .bits d .lsb0]

example (a b : List Bool) (c : Byte) (d : List Bool) (ha : a.length = 5) (hb : b.length = 11) (hd : d.length = 3) :
    (someMixed a b c d).map WriteOp.form = [(5, some Order.lsb0), (11, some .msb0), (8, none), (3, some .lsb0)].map some := by
  simp [someMixed, WriteOp.form, ha, hb, hd]

example (a b : List Bool) (c : Byte) (d : List Bool) : ∀ op ∈ someMixed a b c d, op.Public := by simp [someMixed, WriteOp.Public]

example : ({ inner := { data := [1#8], pos := 1 }, leftover := [true], tag := .lsb0, bitsWritten := 8 } : Writer).WF ∧
    ({ inner := { data := [1#8], pos := 1 }, leftover := [true], tag := .lsb0, bitsWritten := 8 } : Writer).Healthy :=
  ⟨⟨⟨Nat.le_refl _, by simp⟩, by decide⟩, rfl, rfl⟩

/-! ### what goes wrong -/

/-- A write of no bits is not nothing: between two halves of an Lsb0 byte, it makes them change places if it is an Msb0 write or a
write of no bytes. -/
theorem C109_an_empty_write_moves_bits (a b : List Bool) (ha : a.length = 4) (hb : b.length = 4) :
    toBytes (runWrites [.bits a .lsb0, .bits b .lsb0]) = .ok [byteOf (b ++ a)] ∧
    toBytes (runWrites [.bits a .lsb0, .bits [] .msb0, .bits b .lsb0]) = .ok [byteOf (a ++ b)] ∧
    toBytes (runWrites [.bits a .lsb0, .bytes [], .bits b .lsb0]) = .ok [byteOf (a ++ b)] := by
  match a, ha with
  | [a1, a2, a3, a4], _ =>
    match b, hb with
    | [b1, b2, b3, b4], _ => revert a1 a2 a3 a4 b1 b2 b3 b4; decide +kernel

end Deku
