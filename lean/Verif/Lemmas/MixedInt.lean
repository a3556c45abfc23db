import Verif.Lemmas.Mixed
import Verif.Lemmas.IntCodec
import Verif.Props.Writer

/-!
# Integers in both bit orders on one writer
-/

namespace Deku

open Writer Mixed

/-- The computation writes the bits `c`, in calls of sizes and bit orders `sh`. -/
def Shifts (sh : List (Nat × Option Order)) (c : List Bool) (f : M Writer Unit) : Prop :=
  ∀ w : Writer, w.WF → w.Healthy → ∃ w', f w = (.ok (), w') ∧ Grew (sh.map Prod.fst).sum w w' ∧
    (w'.laid, w'.tag) = steps (w.laid, w.tag) sh c

theorem Mixed.steps_append {α : Type} : ∀ (sh sh' : List (Nat × Option Order)) (x : List α × Order) (c c' : List α),
    c.length = (sh.map Prod.fst).sum → steps x (sh ++ sh') (c ++ c') = steps (steps x sh c) sh' c'
  | [], sh', x, c, c', h => by
    simp at h; simp [h, steps]
  | (n, o) :: sh, sh', x, c, c', h => by
    simp at h
    rw [List.cons_append, steps, steps, List.take_append_of_le_length (by omega), List.drop_append_of_le_length (by omega),
      steps_append sh sh' _ _ _ (by simp; omega)]

namespace Shifts

theorem nil : Shifts [] [] (pure ()) := fun w hw _ => ⟨w, rfl, Grew.refl hw, rfl⟩

theorem bits (l : List Bool) (o : Order) : Shifts [(l.length, some o)] l (writeBitsOrder l o) := by
  intro w hw hh
  obtain ⟨w', h1, h2, h3, h4⟩ := (writeBitsOrder_lays hw o l).ok (writeBitsOrder_took hw o l) hh
  exact ⟨w', h1, by simpa using h2, by simp [steps, step, h3, h4]⟩

theorem bytes (bs : List Byte) : Shifts [(8 * bs.length, none)] (bytesBits bs) (Writer.writeBytes bs) := by
  intro w hw hh
  obtain ⟨w', h1, h2, h3, h4⟩ := (writeBytes_lays hw bs).ok (writeBytes_took hw bs) hh
  refine ⟨w', h1, by simpa using h2, ?_⟩
  have e : w.laid.length % 8 = 0 ↔ w.leftover = [] := by
    have := hw.2
    rw [laid, List.length_append, length_bytesBits, Writer.rest, ← List.length_eq_zero_iff]
    omega
  rw [h3, h4, steps, steps, List.take_of_length_le (by simp)]
  by_cases hl : w.leftover = []
  · simp [step, hl, e]
  · simp [step, hl, e]

theorem bind {sh sh' : List (Nat × Option Order)} {c c' : List Bool} {f g : M Writer Unit} (hf : Shifts sh c f) (hg : Shifts sh' c' g)
    (hc : c.length = (sh.map Prod.fst).sum) : Shifts (sh ++ sh') (c ++ c') (f >>= fun _ => g) := by
  intro w hw hh
  obtain ⟨w1, e1, g1, s1⟩ := hf w hw hh
  obtain ⟨w2, e2, g2, s2⟩ := hg w1 g1.wf (g1.healthy hh)
  refine ⟨w2, by rw [M.bind_ok e1]; exact e2, by simpa using g1.trans g2, ?_⟩
  rw [s2, s1, steps_append _ _ _ _ _ hc]

theorem congr {sh : List (Nat × Option Order)} {c : List Bool} {f g : M Writer Unit} (h : Shifts sh c f) (he : ∀ w, g w = f w) :
    Shifts sh c g := fun w hw hh => by rw [he]; exact h w hw hh

/-- The accumulator path, where it is taken. -/
theorem uint {w : Writer} (hw : w.WF) (hh : w.Healthy) (ht : w.tag = .msb0) (v n : Nat) (h1 : 1 ≤ n) (h64 : n ≤ 64) :
    ∃ w', writeBitsUintMsb0 v n w = (.ok (), w') ∧ Grew ([(n, some Order.msb0)].map Prod.fst).sum w w' ∧
      (w'.laid, w'.tag) = steps (w.laid, w.tag) [(n, some .msb0)] (bitsBE n v) := by
  obtain ⟨w', e, s, t⟩ := (writeBitsUintMsb0_done hw ht v n h1 h64).ok hh
  refine ⟨w', e, by simpa using s.grew hw, ?_⟩
  have hp := s.produced
  rw [t, steps, steps, step, List.take_of_length_le (by simp), ht, lay]
  simp only [Prod.mk.injEq, and_true]
  exact hp

/-- What two computations write with the same sizes and bit orders, they write the same only if it is the same. -/
theorem inj {sh : List (Nat × Option Order)} {c c' : List Bool} {f f' : M Writer Unit} (hf : Shifts sh c f) (hf' : Shifts sh c' f')
    (hc : c.length = (sh.map Prod.fst).sum) (hc' : c'.length = (sh.map Prod.fst).sum) :
    (∃ out, toBytes f = .ok out ∧ out.length = (c.length + 7) / 8) ∧ (toBytes f = toBytes f' → c = c') := by
  have hrun : ∀ (f : M Writer Unit) (c : List Bool), Shifts sh c f → c.length = (sh.map Prod.fst).sum → ∃ w w' : Writer,
      w.laid = (steps ([], .msb0) sh c).1 ∧ w.laid = bytesBits w.inner.data ++ w.rest ∧
      toBytes f = .ok w'.inner.data ∧ w.rest.length < 8 ∧ 8 * w.inner.data.length + w.rest.length = (sh.map Prod.fst).sum ∧
      w.tag = (steps ([], .msb0) sh (List.replicate (sh.map Prod.fst).sum ())).2 ∧
      orderBits w.tag w.inner.data ++ present w.tag w.rest ++ List.replicate ((8 - w.rest.length) % 8) false = orderBits w.tag w'.inner.data ∧
      8 * w'.inner.data.length = (sh.map Prod.fst).sum + (8 - w.rest.length) % 8 := by
    intro f c h hc
    obtain ⟨w, h1, h2, h3⟩ := h (Writer.new {}) new_writer_wf new_writer_healthy
    have hq : ∀ {n : Nat} {w : Writer}, Grew n (Writer.new {}) w → w.inner.pos = w.inner.data.length := by
      intro n w h2
      have ha := h2.wf.1.1
      have hb := congrArg List.length h2.tail
      simp [Writer.new] at hb
      omega
    obtain ⟨w', h4, h5, h6⟩ := (finalize_done h2.wf).ok (h2.healthy new_writer_healthy)
    have hg := h2.trans (h5.grew h2.wf)
    have hl := h2.len
    have hl' := hg.len
    rw [hq h2] at hl
    rw [hq hg] at hl'
    have h8 := h2.wf.2
    have h8' := h5.wf.2
    simp [Writer.new] at hl hl'
    have hr' : w'.leftover = [] := List.length_eq_zero_iff.1 (by omega)
    refine ⟨w, w', congrArg Prod.fst h3, by simp [laid, Sink.written, hq h2], ?_, h8, by rw [Writer.rest]; omega, ?_, ?_,
      by rw [hr'] at hl'; simp at hl'; rw [Writer.rest]; omega⟩
    · rw [toBytes, show (do f; Writer.finalize : M Writer Unit) = (f >>= fun _ => Writer.finalize) from rfl, M.bind_ok h1, h4]
    · have := congrArg Prod.snd (steps_map (fun _ => ()) sh (([] : List Bool), Order.msb0) c)
      rw [List.map_const' (l := c), hc] at this
      exact (congrArg Prod.snd h3).trans this.symm
    · have := h5.produced
      simp only [produced, Sink.written, hq h2, hq hg, List.take_length, Writer.rest, hr'] at this
      rw [Writer.rest, ← this]
      cases w.tag <;> simp [present]
  obtain ⟨w, w', q1, q2, r2, r3, r4, r5, r6, r7⟩ := hrun f c hf hc
  refine ⟨⟨_, r2, by omega⟩, fun he => ?_⟩
  obtain ⟨v, v', p1, p2, s2, s3, s4, s5, s6, s7⟩ := hrun f' c' hf' hc'
  rw [r2, s2] at he
  have hd : w'.inner.data = v'.inner.data := by simpa using he
  have ht : v.tag = w.tag := s5.trans r5.symm
  rw [ht, ← hd, ← r6] at s6
  have hlr : v.rest.length = w.rest.length := by omega
  obtain ⟨e1, _⟩ := List.append_inj' s6 (by simp [hlr])
  obtain ⟨e2, e3⟩ := List.append_inj' e1 (by cases w.tag <;> simp [present, hlr])
  have hdata : v.inner.data = w.inner.data := by
    cases hw : w.tag <;> rw [hw] at e2
    · exact bytesBits_inj e2
    · exact bytesBitsLsb_inj e2
  have hrest : v.rest = w.rest := by
    cases hw : w.tag <;> rw [hw] at e3 <;> simpa [present] using e3
  have hs : (steps ([], .msb0) sh c).1 = (steps ([], .msb0) sh c').1 := by
    rw [← q1, ← p1, q2, p2, hdata, hrest]
  have hidx : ∀ c : List Bool, c.length = (sh.map Prod.fst).sum →
      (steps ([], .msb0) sh c).1 = (steps ([], .msb0) sh (List.range (sh.map Prod.fst).sum)).1.map (c.getD · false) := by
    intro c hc
    have := congrArg Prod.fst (steps_map (fun i => c.getD i false) sh (([] : List Nat), Order.msb0) (List.range c.length))
    rw [range_getD, hc] at this
    exact this
  rw [hidx c hc, hidx c' hc'] at hs
  have hperm := steps_perm sh (([] : List Nat), Order.msb0) (List.range (sh.map Prod.fst).sum) (by simp)
  have hall := List.map_inj_left.1 hs
  apply List.ext_getElem (hc.trans hc'.symm)
  intro i hi hi'
  have := hall i (hperm.mem_iff.2 (by simp; omega))
  rw [List.getD_eq_getElem?_getD, List.getD_eq_getElem?_getD, List.getElem?_eq_getElem hi, List.getElem?_eq_getElem hi'] at this
  exact this

end Shifts

namespace Prim

/-- The calls of `writeLoop` over `k` bytes. -/
def loopForm (o : Order) : Nat → Nat → List (Nat × Option Order)
  | 0, _ => []
  | k + 1, n => if n < 8 then [(n, some o)] else (8, some o) :: loopForm o k (n - 8)

theorem loopForm_sum (o : Order) : ∀ k n : Nat, n ≤ 8 * k → ((loopForm o k n).map Prod.fst).sum = n
  | 0, n, h => by simp [loopForm]; omega
  | k + 1, n, h => by
    rw [loopForm]
    by_cases h8 : n < 8
    · rw [if_pos h8]; simp
    · rw [if_neg h8, List.map_cons, List.sum_cons, loopForm_sum o k (n - 8) (by omega)]
      omega

theorem loopForm_small (o : Order) {W n : Nat} (h1 : 1 ≤ n) (hW : n ≤ 8 * W) (h : n < 8) : loopForm o W n = [(n, some o)] := by
  cases W with
  | zero => omega
  | succ W => rw [loopForm, if_pos h]

theorem writeLoop_moves (o : Order) : ∀ (bs : List Byte) (n : Nat), Shifts (loopForm o bs.length n) (loopBits .msb0 bs n) (writeLoop o bs n)
  | [], _ => Shifts.nil
  | c :: cs, n => by
    simp only [List.length_cons, loopForm, loopBits, writeLoop, present, gt_iff_lt]
    by_cases h : n < 8
    · rw [if_pos h, if_pos h, if_pos h]
      have := Shifts.bits ((byteBits c).drop (8 - n)) o
      rwa [show ((byteBits c).drop (8 - n)).length = n by simp; omega] at this
    · rw [if_neg h, if_neg h, if_neg h]
      have h1 := Shifts.bits (byteBits c) o
      rw [length_byteBits] at h1
      exact h1.bind (writeLoop_moves o cs (n - 8)) (by simp)

/-- `(Endian, BitSize, Order)` of all unsigned types but `u8`. -/
theorem writeBitsOrd_moves {W n : Nat} {e : Endian} {o : Order} (h1 : 1 ≤ n) (hW : n ≤ 8 * W) (hs : Sound W e n o) :
    ∃ sh : List (Nat × Option Order), (sh.map Prod.fst).sum = n ∧ (n < 8 → sh = [(n, some o)]) ∧ ∀ v, v < 2 ^ n → Shifts sh (fieldBits e .msb0 n v) (writeBitsOrd W e n o v) := by
  have hlen : ∀ v, (bytesBits (endianBytes W e v)).length = 8 * W := fun v => by
    cases e <;> simp [endianBytes]
  have hvW : ∀ {v}, v < 2 ^ n → v < 256 ^ W := fun hv => Nat.lt_of_lt_of_le hv (two_pow_le_pow hW)
  cases e
  · refine ⟨loopForm o W n, loopForm_sum _ _ _ hW, loopForm_small o h1 hW, fun v hv w hw hh => ?_⟩
    simp only [writeBitsOrd, hlen]
    rw [if_neg (by omega)]
    simp only [endianBytes]
    rw [lastCheck_run hW (hvW hv), if_pos hv, ← loopBits_le .msb0 v hW]
    have := writeLoop_moves o (toLE W v) n
    rw [length_toLE] at this
    exact this w hw hh
  · cases o
    · refine ⟨[(n, some .msb0)], by simp, fun _ => rfl, fun v hv w hw hh => ?_⟩
      simp only [writeBitsOrd, hlen]
      rw [if_neg (by omega)]
      simp only [M.get_bind_run, fieldBits]
      rw [show endianBytes W .big v = toBE W v from rfl]
      by_cases hf : n ≤ 64 ∧ w.tag = .msb0
      · rw [if_pos hf, if_neg (fun h => by
          have := (significant_check _ _).1 h
          rw [beNat_toBE, Nat.mod_eq_of_lt (hvW hv)] at this; omega)]
        have := Shifts.uint hw hh hf.2 (beNat ((toBE W v).drop ((toBE W v).length - 8))) n h1 hf.1
        rw [length_toBE, beNat_drop_toBE] at this
        rw [length_toBE, beNat_drop_toBE]
        have he : v % 256 ^ min 8 W = v := by
          apply Nat.mod_eq_of_lt
          refine Nat.lt_of_lt_of_le hv (two_pow_le_pow ?_)
          omega
        rw [he] at this ⊢
        exact this
      · rw [if_neg hf, bytesBits_toBE, firstCheck_run hW (by rw [← pow256]; exact hvW hv), if_pos hv,
          drop_bitsBE, show 8 * W - (8 * W - n) = n by omega]
        have := Shifts.bits (bitsBE n v) .msb0
        rw [length_bitsBE] at this
        exact this w hw hh
    · by_cases h8 : n ≤ 8
      · refine ⟨[(n, some .lsb0)], by simp, fun _ => rfl, fun v hv w hw hh => ?_⟩
        simp only [writeBitsOrd, hlen]
        rw [if_neg (by omega)]
        simp only [endianBytes, bytesBits_toBE, fieldBits]
        rw [firstCheck_run hW (by rw [← pow256]; exact hvW hv), if_pos hv, if_pos h8, drop_bitsBE, show 8 * W - (8 * W - n) = n by omega]
        have := Shifts.bits (bitsBE n v) .lsb0
        rw [length_bitsBE] at this
        exact this w hw hh
      · have hn : n = 8 * W := (hs rfl rfl).resolve_left h8
        subst hn
        refine ⟨loopForm .lsb0 W (8 * W), loopForm_sum _ _ _ hW, fun h => absurd h (by omega), fun v hv w hw hh => ?_⟩
        simp only [writeBitsOrd, hlen]
        rw [if_neg (by omega)]
        simp only [endianBytes, bytesBits_toBE, fieldBits]
        rw [firstCheck_run hW (by rw [← pow256]; exact hvW hv), if_pos hv, if_neg h8]
        have := writeLoop_moves .lsb0 (toBE W v) (8 * W)
        rw [show loopBits .msb0 (toBE W v) (8 * W) = bitsBE (8 * W) v by
          have := loopBits_full .msb0 (toBE W v)
          rw [length_toBE] at this
          rw [this, orderBits, bytesBits_toBE], length_toBE] at this
        exact this w hw hh

/-- `(Endian, BitSize, Order)` of `u8`. -/
theorem writeU8BitsOrd_moves {n : Nat} (e : Endian) (o : Order) (h1 : 1 ≤ n) (h8 : n ≤ 8) :
    ∃ sh : List (Nat × Option Order), (sh.map Prod.fst).sum = n ∧ (n < 8 → sh = [(n, some o)]) ∧ ∀ v, v < 2 ^ n → Shifts sh (fieldBits e .msb0 n v) (writeU8BitsOrd n o v) := by
  refine ⟨[(n, some o)], by simp, fun _ => rfl, fun v hv w hw hh => ?_⟩
  have hv8 : v < 2 ^ 8 := Nat.lt_of_lt_of_le hv (Nat.pow_le_pow_right (by omega) h8)
  have hfb : fieldBits e .msb0 n v = bitsBE n v := by
    have := fieldBits_small (e := e) (v := v) .msb0 h8
    simpa [present] using this
  rw [hfb]
  simp only [writeU8BitsOrd, M.get_bind_run]
  by_cases hf : o = .msb0 ∧ w.tag = .msb0 ∧ n ≤ 8
  · obtain ⟨rfl, ht, _⟩ := hf
    rw [if_pos ⟨rfl, ht, h8⟩, if_neg (fun h => h.2 (Nat.div_eq_of_lt hv))]
    exact Shifts.uint hw hh ht v n h1 (by omega)
  · rw [if_neg hf, bytesBits_toLE1, length_bitsBE, if_neg (by omega),
      firstCheck_run h8 hv8, if_pos hv, drop_bitsBE, show 8 - (8 - n) = n by omega]
    have := Shifts.bits (bitsBE n v) o
    rw [length_bitsBE] at this
    exact this w hw hh

/-- `(Endian, BitSize)` of all unsigned types but `u8`. -/
theorem writeBits_moves {W n : Nat} (e : Endian) (h1 : 1 ≤ n) (hW : n ≤ 8 * W) :
    ∃ sh : List (Nat × Option Order), (sh.map Prod.fst).sum = n ∧ (n < 8 → sh = [(n, some .msb0)]) ∧ ∀ v, v < 2 ^ n → Shifts sh (fieldBits e .msb0 n v) (writeBits W e n v) := by
  have hlen : ∀ v, (bytesBits (endianBytes W e v)).length = 8 * W := fun v => by
    cases e <;> simp [endianBytes]
  have hvW : ∀ {v}, v < 2 ^ n → v < 256 ^ W := fun hv => Nat.lt_of_lt_of_le hv (two_pow_le_pow hW)
  cases e
  · refine ⟨loopForm .msb0 W n, loopForm_sum _ _ _ hW, loopForm_small .msb0 h1 hW, fun v hv w hw hh => ?_⟩
    simp only [writeBits, hlen]
    rw [if_neg (by omega)]
    simp only [endianBytes]
    rw [lastCheck_run hW (hvW hv), if_pos hv, ← loopBits_le .msb0 v hW]
    have := writeLoop_moves .msb0 (toLE W v) n
    rw [length_toLE] at this
    exact this w hw hh
  · refine ⟨[(n, some .msb0)], by simp, fun _ => rfl, fun v hv w hw hh => ?_⟩
    simp only [writeBits, hlen]
    rw [if_neg (by omega)]
    simp only [endianBytes, bytesBits_toBE, fieldBits]
    rw [firstCheck_run hW (by rw [← pow256]; exact hvW hv), if_pos hv, drop_bitsBE,
      show 8 * W - (8 * W - n) = n by omega]
    have := Shifts.bits (bitsBE n v) .msb0
    rw [length_bitsBE] at this
    exact this w hw hh

theorem bytes_moves (k : Nat) (e : Endian) :
    ∃ sh : List (Nat × Option Order), (sh.map Prod.fst).sum = 8 * k ∧ ∀ v, v < 2 ^ (8 * k) → Shifts sh (fieldBits e .msb0 (8 * k) v) (Writer.writeBytes (endianBytes k e v)) := by
  refine ⟨[(8 * k, none)], by simp, fun v _ => ?_⟩
  have := Shifts.bytes (endianBytes k e v)
  rw [show (endianBytes k e v).length = k by cases e <;> simp [endianBytes]] at this
  rw [← orderBits_endianBytes]
  exact this

/-- Every unsigned integer with every attribute. -/
theorem writeUnsigned_moves (native : Endian) {W : Nat} (hW1 : 1 ≤ W) (ctx : IntCtx) (h1 : 1 ≤ (ctx.shape native W).2.1)
    (hW : (ctx.shape native W).2.1 ≤ 8 * W)
    (hs : ctx.isBits = true → Sound W (ctx.shape native W).1 (ctx.shape native W).2.1 (ctx.shape native W).2.2) :
    ∃ sh : List (Nat × Option Order), (sh.map Prod.fst).sum = (ctx.shape native W).2.1 ∧
      (ctx.isBits = true → (ctx.shape native W).2.1 < 8 → sh = [((ctx.shape native W).2.1, some (ctx.shape native W).2.2)]) ∧ ∀ v, v < 2 ^ (ctx.shape native W).2.1 →
      Shifts sh (fieldBits (ctx.shape native W).1 .msb0 (ctx.shape native W).2.1 v) (writeUnsigned native W ctx v) := by
  have hbytes : ∀ (e : Endian) (k : Nat), (if W = 1 then 8 else 8 * k) ≤ 8 * W →
      ∃ sh : List (Nat × Option Order), (sh.map Prod.fst).sum = (if W = 1 then 8 else 8 * k) ∧ ∀ v, v < 2 ^ (if W = 1 then 8 else 8 * k) →
        Shifts sh (fieldBits e .msb0 (if W = 1 then 8 else 8 * k) v) (writeUBytes W e k v) := by
    intro e k hk
    by_cases hw : W = 1
    · simp only [if_pos hw, writeUBytes, writeU8Bytes]
      obtain ⟨sh, hsum, h⟩ := bytes_moves 1 e
      refine ⟨sh, hsum, fun v hv => ?_⟩
      have := h v hv
      rwa [show endianBytes 1 e v = toLE 1 v by cases e <;> simp [endianBytes, toBE, toLE]] at this
    · simp only [if_neg hw, writeUBytes] at hk ⊢
      obtain ⟨sh, hsum, h⟩ := bytes_moves k e
      refine ⟨sh, hsum, fun v hv => ?_⟩
      rw [writeBytes_eq e v (by omega)]
      exact h v hv
  have hbits : ∀ (e : Endian) (n : Nat), 1 ≤ n → n ≤ 8 * W → ∃ sh : List (Nat × Option Order), (sh.map Prod.fst).sum = n ∧
      (n < 8 → sh = [(n, some .msb0)]) ∧ ∀ v, v < 2 ^ n → Shifts sh (fieldBits e .msb0 n v) (writeUBits W e n v) := by
    intro e n h1 hn
    by_cases hw : W = 1
    · simp only [if_pos hw, writeUBits]
      exact writeU8BitsOrd_moves e .msb0 h1 (by omega)
    · simp only [if_neg hw, writeUBits]
      exact writeBits_moves e h1 hn
  have hord : ∀ (e : Endian) (n : Nat) (o : Order), 1 ≤ n → n ≤ 8 * W → Sound W e n o → ∃ sh : List (Nat × Option Order),
      (sh.map Prod.fst).sum = n ∧ (n < 8 → sh = [(n, some o)]) ∧ ∀ v, v < 2 ^ n → Shifts sh (fieldBits e .msb0 n v) (writeUBitsOrd W e n o v) := by
    intro e n o h1 hn hs
    by_cases hw : W = 1
    · simp only [if_pos hw, writeUBitsOrd]
      exact writeU8BitsOrd_moves e o h1 (by omega)
    · simp only [if_neg hw, writeUBitsOrd]
      exact writeBitsOrd_moves h1 hn hs
  have hno : ∀ {P : List (Nat × Option Order) → Prop} {e : Endian} {n : Nat} {f : Nat → M Writer Unit}, (∃ sh : List (Nat × Option Order), (sh.map Prod.fst).sum = n ∧
      ∀ v, v < 2 ^ n → Shifts sh (fieldBits e .msb0 n v) (f v)) → ∃ sh : List (Nat × Option Order), (sh.map Prod.fst).sum = n ∧
      (False → n < 8 → P sh) ∧ ∀ v, v < 2 ^ n → Shifts sh (fieldBits e .msb0 n v) (f v) :=
    fun ⟨sh, a, b⟩ => ⟨sh, a, fun h => h.elim, b⟩
  cases ctx <;> simp only [IntCtx.shape, writeUnsigned, IntCtx.isBits, true_implies, Bool.false_eq_true] at *
  · exact hno (bytes_moves W native)
  · exact hno (bytes_moves W _)
  · exact hbits _ _ h1 hW
  · exact hno (hbytes _ _ hW)
  · have := hbytes native W (by split <;> omega)
    simp only [show (if W = 1 then 8 else 8 * W) = 8 * W by split <;> omega] at this
    exact hno this
  · rename_i e _
    have := hbytes e W (by split <;> omega)
    simp only [show (if W = 1 then 8 else 8 * W) = 8 * W by split <;> omega] at this
    exact hno this
  · exact hbits _ _ h1 hW
  · exact hno (hbytes _ _ hW)
  · exact hord _ _ _ h1 hW hs
  · exact hord _ _ _ h1 hW hs
  · exact hno (hbytes _ _ hW)

end Prim

end Deku
