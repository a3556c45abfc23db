import Verif.Lemmas.Bits
import Verif.Lemmas.Monad
import Verif.Spec.Bounded

/-!
# The reader and writer with storage do what those with lists do
-/

namespace Deku

variable {σ τ α β γ δ : Type}

/-- Outcomes of the same kind, with related values. -/
def Res.Rel (R : α → β → Prop) : Res α → Res β → Prop
  | .ok a, .ok b => R a b
  | .err e, .err e' => e = e'
  | .panic, .panic => True
  | _, _ => False

/-- `f` keeps the invariant `ok`, and seen through `view` it does what `g` does. -/
def Sim (view : σ → τ) (ok : σ → Prop) (R : α → β → Prop) (f : M σ α) (g : M τ β) : Prop :=
  ∀ s, ok s → ok (f s).2 ∧ view (f s).2 = (g (view s)).2 ∧ (f s).1.Rel R (g (view s)).1

namespace Sim

variable {view : σ → τ} {ok : σ → Prop} {R : α → β → Prop} {S : γ → δ → Prop}

theorem pure {a : α} {b : β} (h : R a b) : Sim view ok R (Pure.pure a) (Pure.pure b) :=
  fun _ hs => ⟨hs, rfl, h⟩

theorem throw (e : DekuError) : Sim view ok R (M.throw e) (M.throw e) := fun _ hs => ⟨hs, rfl, rfl⟩

theorem panic : Sim view ok R M.panic M.panic := fun _ hs => ⟨hs, rfl, trivial⟩

theorem bind {f : M σ α} {g : M τ β} {f' : α → M σ γ} {g' : β → M τ δ} (h : Sim view ok R f g)
    (h' : ∀ a b, R a b → Sim view ok S (f' a) (g' b)) : Sim view ok S (f >>= f') (g >>= g') := fun s hs => by
  have h := h s hs
  rcases e : f s with ⟨_ | _ | _, s'⟩ <;> rcases e' : g (view s) with ⟨_ | _ | _, t'⟩ <;>
    simp only [e, e', Res.Rel, and_false, and_true] at h
  · rw [M.bind_ok e, M.bind_ok e', ← h.2.1]
    exact h' _ _ h.2.2 s' h.1
  · rw [M.bind_err e, M.bind_err e']
    exact ⟨h.1, h.2.1, h.2.2⟩
  · rw [M.bind_panic e, M.bind_panic e']
    exact ⟨h.1, h.2, trivial⟩

theorem mono {R' : α → β → Prop} {f : M σ α} {g : M τ β} (h : Sim view ok R f g) (hR : ∀ a b, R a b → R' a b) :
    Sim view ok R' f g := fun s hs => by
  have h := h s hs
  refine ⟨h.1, h.2.1, ?_⟩
  rcases e : (f s).1 with _ | _ | _ <;> rcases e' : (g (view s)).1 with _ | _ | _ <;>
    simp only [e, e', Res.Rel, and_false, and_true] at h ⊢
  · exact hR _ _ h.2.2
  · exact h.2.2

theorem get : Sim view ok (fun s t => ok s ∧ view s = t) M.get M.get := fun _ hs => ⟨hs, rfl, hs, rfl⟩

theorem modify {f : σ → σ} {g : τ → τ} (h : ∀ s, ok s → ok (f s) ∧ view (f s) = g (view s)) :
    Sim view ok (fun _ _ => True) (M.modify f) (M.modify g) := fun s hs => ⟨(h s hs).1, (h s hs).2, trivial⟩

theorem assert {a b : Bool} (h : a = b) : Sim view ok (fun _ _ => a = true) (M.assert a) (M.assert b) := by
  subst h
  cases a
  · exact panic
  · exact pure rfl

theorem ite {p q : Prop} [Decidable p] [Decidable q] (hpq : p ↔ q) {f f' : M σ α} {g g' : M τ β}
    (h : p → Sim view ok R f g) (h' : ¬p → Sim view ok R f' g') :
    Sim view ok R (if p then f else f') (if q then g else g') := by
  by_cases hp : p
  · rw [if_pos hp, if_pos (hpq.1 hp)]; exact h hp
  · rw [if_neg hp, if_neg fun hq => hp (hpq.2 hq)]; exact h' hp

/-- A step that only the concrete side has, and that does not fail. -/
theorem unwrap_left {a : α} {f' : α → M σ γ} {g' : M τ δ} {o : Option α} (ho : o = some a)
    (h : Sim view ok S (f' a) g') : Sim view ok S (M.unwrap o >>= f') g' := by
  subst ho; exact h

end Sim

/-! ### The storage -/

namespace BBV

theorem ok_new (cap : Nat) : (new cap).Ok cap := by simp [Ok, new]

theorem bits_new (cap : Nat) : (new cap).bits = [] := by simp [bits, new]

theorem Ok.length {cap : Nat} {b : BBV} (h : b.Ok cap) : b.bits.length = b.size := by
  simp [bits, h.1, h.2]

theorem Ok.asBitslice {cap : Nat} {b : BBV} (h : b.Ok cap) : b.asBitslice = some b.bits := by
  simp [BBV.asBitslice, bits, h.1, h.2]

theorem Ok.extend {cap : Nat} {b : BBV} (h : b.Ok cap) {l : List Bool} (hl : b.bits.length + l.length ≤ cap) :
    ∃ b', b.extend l = some b' ∧ b'.Ok cap ∧ b'.bits = b.bits ++ l := by
  obtain ⟨hc, hs⟩ := h
  rw [Ok.length ⟨hc, hs⟩] at hl
  refine ⟨_, if_pos (by omega), ⟨?_, hl⟩, ?_⟩
  · simp [overwrite]; omega
  · have h1 : (b.store.take b.size).length = b.size := by simp; omega
    simp only [bits, overwrite]
    rw [List.take_left' (by rw [List.length_append, h1])]

theorem Ok.extend_none {cap : Nat} {b : BBV} (h : b.Ok cap) {l : List Bool} (hl : ¬b.bits.length + l.length ≤ cap) :
    b.extend l = none := by
  rw [h.length] at hl
  exact if_neg (by rw [h.1]; exact hl)

theorem Ok.splitOff {cap : Nat} {b : BBV} (h : b.Ok cap) {i : Nat} (hi : i < b.bits.length) :
    ∃ l r, b.splitOff i = some (l, r) ∧ l.Ok cap ∧ r.Ok cap ∧ l.bits = b.bits.take i ∧ r.bits = b.bits.drop i := by
  have hl := h.length
  obtain ⟨r, hr, hrok, hrb⟩ := (ok_new b.store.length).extend (l := (b.store.take b.size).drop i) (by
    rw [bits_new]; simp; omega)
  refine ⟨{ b with size := i }, r, ?_, ⟨h.1, ?_⟩, h.1 ▸ hrok, ?_, ?_⟩
  · rw [BBV.splitOff, if_pos ⟨by omega, by rw [h.1]; exact h.2⟩, hr]; rfl
  · have := h.2; show i ≤ cap; omega
  · simp only [bits]; rw [List.take_take]; congr 1; omega
  · rw [hrb, bits_new]; rfl

theorem Ok.insert {cap : Nat} {b : BBV} (h : b.Ok cap) {i : Nat} (v : Bool) (hi : i < b.bits.length) (hc : b.bits.length < cap) :
    ∃ b', b.insert i v = some b' ∧ b'.Ok cap ∧ b'.bits = b.bits.take i ++ v :: b.bits.drop i := by
  rw [h.length] at hi hc
  obtain ⟨h1, h2⟩ := h
  refine ⟨_, if_pos ⟨by omega, hi⟩, ⟨?_, ?_⟩, ?_⟩
  · simp; omega
  · show b.size + 1 ≤ cap; omega
  · have h3 : (b.store.take i).length = i := by simp; omega
    simp only [bits]
    rw [List.take_append, h3, List.take_of_length_le (by omega), show b.size + 1 - i = (b.size - i) + 1 by omega,
      List.take_succ_cons, List.dropLast_eq_take, List.take_take, List.take_take, List.drop_take]
    simp only [List.length_drop]
    rw [show min (b.size - i) (b.store.length - i - 1) = b.size - i by omega, show min i b.size = i by omega]

theorem Ok.push {cap : Nat} {b : BBV} (h : b.Ok cap) (v : Bool) (hc : b.bits.length < cap) :
    ∃ b', b.push v = some b' ∧ b'.Ok cap ∧ b'.bits = b.bits ++ [v] := by
  obtain ⟨b', h1, h2⟩ := h.extend (l := [v]) (by simpa [Nat.lt_iff_add_one_le] using hc)
  refine ⟨b', ?_, h2⟩
  rw [← h1, BBV.push, BBV.extend]
  rfl

theorem Ok.asRawSlice {b : BBV} (h : b.Ok 8) : b.asRawSlice = [byteOf b.store] := by
  simp [BBV.asRawSlice, h.1, chunks8, List.take_of_length_le]

theorem Ok.asMsb0Byte {b : BBV} (h : b.Ok 8) : b.asMsb0Byte = (byteOf b.store, b.size) := by
  simp [BBV.asMsb0Byte, h.asRawSlice]

theorem Ok.clear {cap : Nat} {b : BBV} (h : b.Ok cap) : b.clear.Ok cap ∧ b.clear.bits = [] :=
  ⟨⟨h.1, Nat.zero_le _⟩, by simp [BBV.clear, bits]⟩

theorem ok_ofByte (b : Byte) : (ofByte b).Ok 8 := ⟨length_byteBits b, Nat.le_refl _⟩

theorem bits_ofByte (b : Byte) : (ofByte b).bits = byteBits b :=
  List.take_of_length_le (by simp [ofByte])

theorem ok_ofSlice {l : List Bool} (h : l.length ≤ 8) : ∃ b, ofSlice l = some b ∧ b.Ok 8 ∧ b.bits = l := by
  obtain ⟨b, h1, h2, h3⟩ := (ok_new 8).extend (l := l) (by rw [bits_new]; simpa using h)
  exact ⟨b, h1, h2, by simpa [bits_new] using h3⟩

/-- The byte of a storage shifted down to the bits in use. -/
theorem Ok.shifted {b : BBV} (h : b.Ok 8) : (byteOf b.store >>> (8 - b.size)).toNat = Deku.ofBits b.bits := by
  rw [BitVec.toNat_ushiftRight, toNat_byteOf _ h.1, Nat.shiftRight_eq_div_pow, bits]
  have := ofBits_append (b.store.take b.size) (b.store.drop b.size)
  rw [List.take_append_drop] at this
  rw [this]
  simp only [List.length_drop, h.1]
  have hlt := ofBits_lt (b.store.drop b.size)
  simp only [List.length_drop, h.1] at hlt
  rw [Nat.mul_comm, Nat.mul_add_div (Nat.two_pow_pos _), Nat.div_eq_of_lt hlt, Nat.add_zero]

/-- The low `n` bits of an accumulator kept at the high end of a byte. -/
theorem ok_fromMsb0Byte (acc : BitVec 128) {n : Nat} (h0 : n ≠ 0) (hn : n < 8) :
    ∃ one byte b, RawReader.shl (1 : BitVec 128) n = some one ∧
      RawReader.shl ((acc &&& (one - 1)).setWidth 8 : BitVec 8) (8 - n) = some byte ∧
      fromMsb0Byte byte n = some b ∧ b.Ok 8 ∧ b.bits = bitsBE n acc.toNat := by
  refine ⟨_, _, _, if_pos (by omega), if_pos (by omega), if_pos (by omega), ⟨length_byteBits _, by show n ≤ 8; omega⟩, ?_⟩
  simp only [bits, byteBits]
  rw [take_bitsBE _ _ _ (by omega)]
  apply bitsBE_congr
  have h1 : (1 : BitVec 128) <<< n - 1 = BitVec.ofNat 128 (2 ^ n - 1) := by
    apply BitVec.eq_of_toNat_eq
    have h2 : (2 : Nat) ^ n < 2 ^ 128 := Nat.pow_lt_pow_right (by omega) (by omega)
    have h3 : 1 ≤ 2 ^ n := Nat.one_le_two_pow
    rw [BitVec.toNat_sub, BitVec.toNat_shiftLeft]
    simp only [BitVec.toNat_ofNat, Nat.shiftLeft_eq]
    rw [show BitVec.toNat (1 : BitVec 128) = 1 from rfl, Nat.one_mul, Nat.mod_eq_of_lt h2, Nat.mod_eq_of_lt (a := 2 ^ n - 1) (by omega)]
    omega
  rw [h1, BitVec.toNat_shiftLeft, BitVec.toNat_setWidth, BitVec.toNat_and, BitVec.toNat_ofNat,
    Nat.mod_eq_of_lt (a := 2 ^ n - 1) (Nat.lt_of_le_of_lt (Nat.sub_le _ _) (Nat.pow_lt_pow_right (by omega) (by omega))),
    Nat.and_two_pow_sub_one_eq_mod, Nat.shiftLeft_eq]
  have h4 : acc.toNat % 2 ^ n < 2 ^ n := Nat.mod_lt _ (Nat.two_pow_pos _)
  have h5 : (2 : Nat) ^ n ≤ 2 ^ 8 := Nat.pow_le_pow_right (by omega) (by omega)
  rw [Nat.mod_eq_of_lt (a := acc.toNat % 2 ^ n) (by omega)]
  have h6 : acc.toNat % 2 ^ n * 2 ^ (8 - n) < 2 ^ 8 := by
    calc acc.toNat % 2 ^ n * 2 ^ (8 - n) < 2 ^ n * 2 ^ (8 - n) := Nat.mul_lt_mul_of_pos_right h4 (Nat.two_pow_pos _)
      _ = 2 ^ 8 := by rw [← Nat.pow_add]; congr 1; omega
  rw [Nat.mod_eq_of_lt h6, Nat.mul_div_cancel _ (Nat.two_pow_pos _), Nat.mod_mod]

end BBV

/-! ### The reader -/

/-- `Sim` for readers. -/
abbrev SimR (R : α → β → Prop) (f : M RawReader α) (g : M Reader β) : Prop := Sim RawReader.view RawReader.Ok R f g

namespace RawReader

theorem ok_of {r : RawReader} (h : r.Ok) (s : Src) (n : Nat) : Ok { r with inner := s, bitsRead := n } := h

theorem sim_ioRead (n : Nat) : SimR Eq (ioRead n) (Reader.ioRead n) := fun _ hr => ⟨hr, rfl, rfl⟩

theorem sim_seek (p : SeekFrom) : SimR Eq (RawReader.seek p) (Reader.seek p) := fun r _ => by
  simp only [RawReader.seek, Reader.seek, view]
  rcases e : r.inner.seek p with ⟨x | n, s⟩ <;> exact ⟨nofun, rfl, rfl⟩

theorem sim_forget : SimR (fun _ _ => True) (M.modify fun r => { r with leftover := none })
    (M.modify fun r => { r with leftover := none }) := .modify fun _ _ => ⟨nofun, rfl⟩

theorem sim_count (n : Nat) : SimR (fun _ _ => True) (M.modify fun r => { r with bitsRead := r.bitsRead + n })
    (M.modify fun r => { r with bitsRead := r.bitsRead + n }) := .modify fun _ h => ⟨h, rfl⟩

theorem sim_keepByte (b : Byte) : SimR (fun _ _ => True) (M.modify fun r => { r with leftover := some (.byte b) })
    (M.modify fun r => { r with leftover := some (.byte b) }) := .modify fun _ _ => ⟨nofun, rfl⟩

theorem sim_keep {b : BBV} (h : b.Ok 8) {l : List Bool} (hl : b.bits = l) :
    SimR (fun _ _ => True) (keep b) (M.modify fun r => { r with leftover := some (.bits l) }) := .modify fun r _ => by
  subst hl
  refine ⟨fun b' hb' => ?_, rfl⟩
  cases hb'
  exact h

theorem sim_rest : SimR Eq rest (do let r ← M.get; pure r.rest) := by
  refine .bind .get fun r t ⟨hr, ht⟩ => ?_
  subst ht
  rcases r with ⟨i, _ | ⟨b | b⟩, n⟩
  · exact .pure rfl
  · exact .pure rfl
  · have hb : b.Ok 8 := hr b rfl
    intro s hs
    simp only [Reader.rest, Reader.leftoverBits, view, Option.map, RawLeftover.view]
    rw [decide_eq_true hb.2, hb.asBitslice]
    exact ⟨hs, rfl, rfl⟩

theorem sim_end : SimR Eq RawReader.end Reader.end := by
  refine .bind .get fun r t ⟨hr, ht⟩ => ?_
  subst ht
  refine .ite (by cases h : r.leftover <;> simp [view, h]) (fun _ => .pure rfl) fun _ => ?_
  refine .bind (sim_ioRead 1) fun x _ hx => ?_
  subst hx
  rcases x with (_ | _ | _ | _) | bs
  · exact .pure rfl
  all_goals exact .bind (sim_keepByte _) fun _ _ _ => .pure rfl

theorem sim_readSlots (d k : Nat) : SimR Eq (readSlots d k) (Reader.readSlots d k) := by
  induction k with
  | zero => exact .pure rfl
  | succ k ih =>
    refine .bind (R := Eq) (.bind (sim_ioRead 1) fun x _ hx => ?_) fun b _ hb => ?_
    · subst hx
      rcases x with (_ | _ | _ | _) | bs
      · exact .throw _
      all_goals exact .pure rfl
    · subst hb
      exact .bind ih fun bs _ hbs => .pure (hbs ▸ rfl)

theorem sim_readPartial (d : Nat) : SimR Eq (readPartial d) (Reader.readPartial d) := by
  refine .bind (sim_ioRead 1) fun x _ hx => ?_
  subst hx
  rcases x with (_ | _ | _ | _) | bs
  all_goals first | exact .throw _ | exact .pure rfl

/-- The pending bits are those of the view. -/
theorem pending_bits {r : RawReader} (hr : r.Ok) :
    (pending r.leftover = none ∧ Reader.leftoverBits r.view.leftover = []) ∨
    ∃ b, pending r.leftover = some b ∧ b.Ok 8 ∧ Reader.leftoverBits r.view.leftover = b.bits := by
  rcases r with ⟨i, _ | ⟨b | b⟩, n⟩
  · exact .inl ⟨rfl, rfl⟩
  · exact .inr ⟨_, rfl, BBV.ok_ofByte b, (BBV.bits_ofByte b).symm⟩
  · exact .inr ⟨_, rfl, hr b rfl, rfl⟩

theorem sim_readBitsInto (n : Nat) (o : Order) : SimR Eq (readBitsInto n o) (Reader.readBitsInto n o) := by
  unfold readBitsInto Reader.readBitsInto
  refine .ite .rfl (fun _ => .pure rfl) fun hn => ?_
  refine .bind .get fun r t ⟨hr, ht⟩ => ?_
  subst ht
  refine .bind sim_forget fun _ _ _ => ?_
  have done {l l' : List Bool} (h : l = l') :
      SimR Eq (do let x ← pure l; M.modify fun r => { r with bitsRead := r.bitsRead + n }; pure x)
        (do let x ← pure l'; M.modify fun r => { r with bitsRead := r.bitsRead + n }; pure x) :=
    .bind (R := Eq) (.pure h) fun _ _ h => .bind (sim_count n) fun _ _ _ => .pure h
  have hp := pending_bits hr
  generalize pending r.leftover = p at hp
  generalize Reader.leftoverBits r.view.leftover = lo at hp
  rcases hp with ⟨rfl, rfl⟩ | ⟨b, rfl, hb, rfl⟩
  · simp only [Option.map, Option.getD, List.length_nil, Nat.not_lt_zero, if_false, if_neg hn, Nat.sub_zero]
    cases o
    · refine .unwrap_left (o := some []) rfl ?_
      refine .bind (sim_readSlots n _) fun bs _ h => ?_
      subst h
      refine .ite .rfl (fun _ => done (by simp)) fun _ => ?_
      refine .bind (sim_readPartial n) fun b _ h => ?_
      subst h
      obtain ⟨c, h1, h2, h3⟩ := BBV.ok_ofSlice (l := (byteBits b).drop (n % 8)) (by simp)
      exact .unwrap_left h1 (.bind (sim_keep h2 h3) fun _ _ _ => done (by simp))
    · refine .bind (sim_readSlots n _) fun bs _ h => ?_
      subst h
      refine .ite .rfl (fun _ => done (by simp)) fun _ => ?_
      refine .bind (sim_readPartial n) fun b _ h => ?_
      subst h
      obtain ⟨c, h1, h2, h3⟩ := BBV.ok_ofSlice (l := (byteBits b).take (8 - n % 8)) (by simp)
      exact .unwrap_left h1 (.bind (sim_keep h2 h3) fun _ _ _ => done (by simp))
  · have hl := hb.length
    have h8 := hb.2
    simp only [Option.map, Option.getD, hl]
    have has : (M.assert (decide (b.size ≤ 8)) : M RawReader Unit) = pure () := by rw [decide_eq_true h8]; rfl
    refine .ite .rfl (fun hlt => ?_) fun hlt => .ite .rfl (fun heq => ?_) fun heq => ?_
    · refine .unwrap_left rfl ?_
      rw [has]
      cases o
      · obtain ⟨l, u, h1, h2, h3, h4, h5⟩ := hb.splitOff (i := n) (by omega)
        refine Sim.unwrap_left h1 (.unwrap_left h2.asBitslice ?_)
        exact .bind (sim_keep h3 h5) fun _ _ _ => done h4
      · obtain ⟨l, u, h1, h2, h3, h4, h5⟩ := hb.splitOff (i := b.size - n) (by omega)
        refine Sim.unwrap_left h1 (.unwrap_left h3.asBitslice ?_)
        exact .bind (sim_keep h2 h4) fun _ _ _ => done h5
    · refine .unwrap_left rfl ?_
      rw [has]
      rw [hb.asBitslice]
      exact done rfl
    · cases o
      · refine Sim.unwrap_left hb.asBitslice ?_
        refine .bind (sim_readSlots n _) fun bs _ h => ?_
        subst h
        refine .ite .rfl (fun _ => done rfl) fun _ => ?_
        refine .bind (sim_readPartial n) fun x _ h => ?_
        subst h
        obtain ⟨c, h1, h2, h3⟩ := BBV.ok_ofSlice (l := (byteBits x).drop ((n - b.size) % 8)) (by simp)
        exact .unwrap_left h1 (.bind (sim_keep h2 h3) fun _ _ _ => done rfl)
      · refine .bind (sim_readSlots n _) fun bs _ h => ?_
        subst h
        refine .ite .rfl (fun _ => Sim.unwrap_left hb.asBitslice (done rfl)) fun _ => ?_
        refine .bind (sim_readPartial n) fun x _ h => ?_
        subst h
        obtain ⟨c, h1, h2, h3⟩ := BBV.ok_ofSlice (l := (byteBits x).take (8 - (n - b.size) % 8)) (by simp)
        exact .unwrap_left h1 (.bind (sim_keep h2 h3) fun _ _ _ => Sim.unwrap_left hb.asBitslice (done rfl))

theorem mask_toNat {n : Nat} (h : n ≤ 64) : (BitVec.allOnes 64 >>> (64 - n)).toNat = 2 ^ n - 1 := by
  rw [BitVec.toNat_ushiftRight, BitVec.toNat_allOnes, Nat.shiftRight_eq_div_pow]
  have h1 : 2 ^ 64 = 2 ^ n * 2 ^ (64 - n) := by rw [← Nat.pow_add]; congr 1; omega
  have h2 := Nat.two_pow_pos n
  have h3 := Nat.two_pow_pos (64 - n)
  rw [h1]
  have h4 : 2 ^ n * 2 ^ (64 - n) - 1 = 2 ^ (64 - n) * (2 ^ n - 1) + (2 ^ (64 - n) - 1) := by
    rw [Nat.mul_sub_one, Nat.mul_comm]
    have : 2 ^ (64 - n) ≤ 2 ^ (64 - n) * 2 ^ n := Nat.le_mul_of_pos_right _ h2
    omega
  rw [h4, Nat.mul_add_div h3, Nat.div_eq_of_lt (by omega), Nat.add_zero]

theorem low_toNat (x : BitVec 64) {n : Nat} (h : n ≤ 64) :
    (x &&& BitVec.allOnes 64 >>> (64 - n)).toNat = x.toNat % 2 ^ n := by
  rw [BitVec.toNat_and, mask_toNat h, Nat.and_two_pow_sub_one_eq_mod]

theorem value_toNat (x : BitVec 128) {n : Nat} (h : n ≤ 64) :
    (x.setWidth 64 &&& BitVec.allOnes 64 >>> (64 - n)).toNat = x.toNat % 2 ^ n := by
  rw [low_toNat _ h, BitVec.toNat_setWidth, Nat.mod_mod_of_dvd _ (Nat.pow_dvd_pow 2 h)]

/-- A shift that loses nothing, and bits put into the free place. -/
theorem shift_or_toNat (x : BitVec 128) {n k : Nat} (y : BitVec 128) (hx : x.toNat < 2 ^ k) (hk : k + n ≤ 128) (hy : y.toNat < 2 ^ n) :
    (x <<< n ||| y).toNat = x.toNat * 2 ^ n + y.toNat := by
  have h1 : x.toNat * 2 ^ n < 2 ^ 128 := by
    calc x.toNat * 2 ^ n < 2 ^ k * 2 ^ n := Nat.mul_lt_mul_of_pos_right hx (Nat.two_pow_pos n)
      _ = 2 ^ (k + n) := (Nat.pow_add 2 k n).symm
      _ ≤ 2 ^ 128 := Nat.pow_le_pow_right (by omega) hk
  rw [BitVec.toNat_or, BitVec.toNat_shiftLeft, Nat.mod_eq_of_lt (by rw [Nat.shiftLeft_eq]; exact h1),
    ← Nat.shiftLeft_add_eq_or_of_lt hy, Nat.shiftLeft_eq]

theorem lead_spec {r : RawReader} (hr : r.Ok) : ∃ acc, lead r.leftover = some (acc, (Reader.leftoverBits r.view.leftover).length) ∧
    acc.toNat = ofBits (Reader.leftoverBits r.view.leftover) ∧ (Reader.leftoverBits r.view.leftover).length ≤ 8 := by
  rcases r with ⟨i, _ | ⟨b | b⟩, n⟩
  · exact ⟨0, rfl, rfl, Nat.zero_le _⟩
  · refine ⟨b.setWidth 128, by simp [lead, Reader.leftoverBits, view, RawLeftover.view], ?_, by
      simp [Reader.leftoverBits, view, RawLeftover.view]⟩
    simp only [Reader.leftoverBits, view, Option.map, RawLeftover.view, ofBits_byteBits, BitVec.toNat_setWidth]
    have := b.isLt
    omega
  · have hb : b.Ok 8 := hr b rfl
    have h8 := hb.2
    simp only [Reader.leftoverBits, view, Option.map, RawLeftover.view, hb.length, lead, hb.asMsb0Byte]
    by_cases h0 : b.size = 0
    · refine ⟨0, by simp [h0], ?_, h8⟩
      rw [List.length_eq_zero_iff.1 (hb.length.trans h0)]; rfl
    · refine ⟨(byteOf b.store >>> (8 - b.size)).setWidth 128, ?_, ?_, h8⟩
      · rw [if_pos h0, sub, if_pos h8]
        show (shr (byteOf b.store) (8 - b.size) >>= _) = _
        rw [shr, if_pos (by omega)]; rfl
      · rw [← hb.shifted, BitVec.toNat_setWidth]
        have := (byteOf b.store >>> (8 - b.size)).isLt
        exact Nat.mod_eq_of_lt (by omega)

theorem sim_uintLoop {amt : Nat} (hamt : amt ≤ 64) (fuel : Nat) (acc : BitVec 128) (have_ : Nat)
    (hlt : acc.toNat < 2 ^ have_) (hle : have_ ≤ amt + 7) (hf : amt ≤ have_ + 8 * fuel) :
    SimR (fun x y => x.1.toNat = y.1 ∧ x.2 = y.2 ∧ amt ≤ y.2 ∧ y.2 ≤ amt + 7) (uintLoop amt fuel acc have_)
      (Reader.uintLoop amt fuel acc.toNat have_) := by
  induction fuel generalizing acc have_ with
  | zero => exact .pure ⟨rfl, rfl, by omega, hle⟩
  | succ fuel ih =>
    refine .ite .rfl (fun h => ?_) fun h => .pure ⟨rfl, rfl, by omega, hle⟩
    refine .bind (sim_ioRead 1) fun x _ hx => ?_
    subst hx
    rcases x with (_ | _ | _ | _) | bs
    case succ.ok =>
      have hb := (bs.headD 0).isLt
      have e : ((bs.headD 0).setWidth 128 : BitVec 128).toNat = (bs.headD 0).toNat := by
        rw [BitVec.toNat_setWidth]; exact Nat.mod_eq_of_lt (by omega)
      have h1 := shift_or_toNat acc (n := 8) (y := (bs.headD 0).setWidth 128) hlt (by omega) (by rw [e]; exact hb)
      rw [e] at h1
      have := ih (acc <<< 8 ||| (bs.headD 0).setWidth 128) (have_ + 8) (by
        rw [h1, Nat.pow_add]; omega) (by omega) (by omega)
      rw [h1] at this
      exact this
    all_goals exact .throw _

theorem sim_readBitsUintMsb0 (amt : Nat) : SimR (fun x n => x.toNat = n) (readBitsUintMsb0 amt) (Reader.readBitsUintMsb0 amt) := by
  unfold readBitsUintMsb0 Reader.readBitsUintMsb0
  refine .bind (.assert rfl) fun _ _ hamt => ?_
  simp only [Bool.and_eq_true, decide_eq_true_eq] at hamt
  refine .bind .get fun r t ⟨hr, ht⟩ => ?_
  subst ht
  refine .bind sim_forget fun _ _ _ => ?_
  obtain ⟨acc, h1, h2, h3⟩ := lead_spec hr
  refine .unwrap_left h1 ?_
  simp only [← h2]
  refine .bind (sim_uintLoop hamt.2 amt acc _ (h2 ▸ ofBits_lt _) (by omega) (by omega)) fun x y hxy => ?_
  obtain ⟨x, have_⟩ := x
  obtain ⟨y, have'⟩ := y
  obtain ⟨hx, hh, hge, hle⟩ := hxy
  simp only at hx hh hge hle
  subst hx hh
  refine .unwrap_left (if_pos hge) ?_
  refine .unwrap_left (if_pos (by omega)) ?_
  refine .unwrap_left (if_pos (by omega)) ?_
  have fin : SimR (fun (x : BitVec 64) n => x.toNat = n)
      (do M.modify fun r => { r with bitsRead := r.bitsRead + amt }
          pure ((x >>> (have_ - amt)).setWidth 64 &&& BitVec.allOnes 64 >>> (64 - amt)))
      (do M.modify fun r => { r with bitsRead := r.bitsRead + amt }
          pure (x.toNat / 2 ^ (have_ - amt) % 2 ^ amt)) := by
    refine .bind (sim_count amt) fun _ _ _ => .pure ?_
    rw [value_toNat _ hamt.2, BitVec.toNat_ushiftRight, Nat.shiftRight_eq_div_pow]
  refine .ite .rfl (fun h0 => ?_) fun _ => fin
  obtain ⟨one, byte, b, h4, h5, h6, h7, h8⟩ := BBV.ok_fromMsb0Byte x h0 (n := have_ - amt) (by omega)
  exact .unwrap_left h4 (.unwrap_left h5 (.unwrap_left h6 (.bind (sim_keep h7 h8) fun _ _ _ => fin)))

theorem sim_readBytesLeftover (b : Byte) (n : Nat) : SimR Eq (readBytesLeftover b n) (Reader.readBytesLeftover b n) := by
  refine .ite .rfl (fun _ => .panic) fun _ => .bind sim_forget fun _ _ _ => ?_
  refine .ite .rfl (fun _ => .bind (sim_count _) fun _ _ _ => .pure rfl) fun _ => ?_
  refine .bind (sim_ioRead _) fun x _ hx => ?_
  subst hx
  rcases x with (_ | _ | _ | _) | bs
  case ok => exact .bind (sim_count _) fun _ _ _ => .pure rfl
  all_goals exact .throw _

theorem sim_readBytes (n : Nat) (o : Order) : SimR Eq (readBytes n o) (Reader.readBytes n o) := by
  refine .bind .get fun r t ⟨hr, ht⟩ => ?_
  subst ht
  rcases r with ⟨i, _ | ⟨b | b⟩, k⟩
  · refine .bind (sim_ioRead _) fun x _ hx => ?_
    subst hx
    rcases x with (_ | _ | _ | _) | bs
    case none.ok => exact .bind (sim_count _) fun _ _ _ => .pure rfl
    all_goals exact .throw _
  · exact sim_readBytesLeftover b n
  · refine .bind (sim_readBitsInto _ o) fun l _ hl => ?_
    subst hl
    cases o <;> exact .pure rfl

theorem sim_skipBits (n : Nat) (o : Order) : SimR Eq (skipBits n o) (Reader.skipBits n o) := by
  have tail (n : Nat) : SimR Eq (do
      if n / 8 ≠ 0 then
        let r ← M.get
        M.assert (decide (r.bitsRead % 8 = 0))
        match ← RawReader.seek (.current ↑(n / 8)) with
        | .error e => M.throw (.io e)
        | .ok _ => pure ()
      let _ ← readBitsInto (n % 8) o
      pure ()) (do
      if n / 8 ≠ 0 then
        let r ← M.get
        M.assert (decide (r.bitsRead % 8 = 0))
        match ← Reader.seek (.current ↑(n / 8)) with
        | .error e => M.throw (.io e)
        | .ok _ => pure ()
      let _ ← Reader.readBitsInto (n % 8) o
      pure ()) := by
    have fin : SimR Eq (do let _ ← readBitsInto (n % 8) o; pure ()) (do let _ ← Reader.readBitsInto (n % 8) o; pure ()) :=
      .bind (sim_readBitsInto _ o) fun _ _ _ => .pure rfl
    refine .ite .rfl (fun _ => ?_) fun _ => fin
    refine .bind .get fun r t ⟨hr, ht⟩ => ?_
    subst ht
    refine .bind (.assert rfl) fun _ _ _ => .bind (sim_seek _) fun x _ hx => ?_
    subst hx
    cases x
    · exact .bind (R := Eq) (.throw _) fun _ _ _ => fin
    · exact fin
  refine .bind .get fun r t ⟨hr, ht⟩ => ?_
  subst ht
  rcases r with ⟨i, _ | ⟨b | b⟩, k⟩
  · exact tail n
  · exact tail n
  · have hb : b.Ok 8 := hr b rfl
    simp only [view, Option.map, RawLeftover.view, hb.length]
    exact .bind (sim_readBitsInto _ o) fun _ _ _ => tail _

end RawReader

/-! ### The writer -/

/-- `Sim` for writers. -/
abbrev SimW (R : α → β → Prop) (f : M RawWriter α) (g : M Writer β) : Prop := Sim RawWriter.view RawWriter.Ok R f g

namespace RawWriter

theorem sim_rest : SimW Eq rest (do let w ← M.get; pure w.rest) := by
  refine .bind .get fun w t ⟨hw, ht⟩ => ?_
  subst ht
  intro s hs
  rw [BBV.Ok.asBitslice hw]
  exact ⟨hs, rfl, rfl⟩

theorem sim_writeAll (bs : List Byte) : SimW Eq (writeAll bs) (Writer.writeAll bs) := fun w hw => by
  simp only [writeAll, Writer.writeAll, view]
  rcases e : w.inner.writeAll bs with ⟨x | x, s⟩ <;> exact ⟨hw, rfl, rfl⟩

theorem sim_extend (l : List Bool) : SimW Eq (extend l) (Writer.extend l) := fun w hw => by
  have hw' : w.leftover.Ok 8 := hw
  simp only [extend, Writer.extend, M.get_bind_run]
  by_cases h : w.leftover.bits.length + l.length ≤ 8
  · obtain ⟨b, h1, h2, h3⟩ := hw'.extend h
    rw [h1, show decide (w.view.leftover.length + l.length ≤ 8) = true from decide_eq_true h]
    refine ⟨h2, ?_, rfl⟩
    show Writer.mk w.inner b.bits w.tag w.bitsWritten = Writer.mk w.inner (w.leftover.bits ++ l) w.tag w.bitsWritten
    rw [h3]
  · rw [hw'.extend_none h, show decide (w.view.leftover.length + l.length ≤ 8) = false from decide_eq_false h]
    exact ⟨hw, rfl, trivial⟩

theorem bits_full {b : BBV} (h : b.Ok 8) (hf : b.size = 8) : b.bits = b.store := by
  rw [BBV.bits, hf, List.take_of_length_le (Nat.le_of_eq h.1)]

theorem sim_count (n : Nat) : SimW Eq (M.modify fun w => { w with bitsWritten := w.bitsWritten + n })
    (M.modify fun w => { w with bitsWritten := w.bitsWritten + n }) := fun _ h => ⟨h, rfl, rfl⟩

theorem sim_tag (o : Order) : SimW Eq (M.modify fun w => { w with tag := o }) (M.modify fun w => { w with tag := o }) :=
  fun _ h => ⟨h, rfl, rfl⟩

theorem sim_flushFull : SimW Eq flushFull Writer.flushFull := by
  refine .bind .get fun w t ⟨hw, ht⟩ => ?_
  subst ht
  have hw' : w.leftover.Ok 8 := hw
  refine .ite (by rw [hw'.1]; show _ ↔ w.leftover.bits.length = 8; rw [hw'.length]) (fun hf => ?_) fun _ => .pure rfl
  rw [hw'.asRawSlice, ← bits_full hw' (hf.trans hw'.1)]
  refine .bind (sim_writeAll _) fun _ _ _ s hs => ⟨BBV.ok_new 8, ?_, rfl⟩
  have hs' : s.leftover.Ok 8 := hs
  simp only [M.modify_run, view, hs'.length, BBV.bits_new]

theorem sim_writeChunks (cs : List (List Bool)) : SimW Eq (writeChunks cs) (Writer.writeChunks cs) := by
  induction cs with
  | nil => exact .pure rfl
  | cons c cs ih => exact .bind (sim_writeAll _) fun _ _ _ => ih

theorem sim_writeBulk (cs : List (List Bool)) (n : Nat) : SimW Eq (writeBulk cs n) (Writer.writeBulk cs n) :=
  .bind (sim_writeChunks cs) fun _ _ _ => sim_count n

/-- The first steps of the four functions together. -/
theorem sim_takeLeftover : SimW Eq takeLeftover (do
    let w ← M.get
    M.assert (decide (w.leftover.length < 8))
    Writer.takeLeftover) := fun w hw => by
  have hw' : w.leftover.Ok 8 := hw
  have e : w.view.leftover.length = w.leftover.size := hw'.length
  simp only [takeLeftover, M.get_bind_run, e, hw'.1]
  cases h : decide (w.leftover.size < 8)
  · exact ⟨hw, rfl, trivial⟩
  · rw [hw'.asBitslice]
    refine ⟨BBV.ok_new 8, ?_, rfl⟩
    show Writer.mk w.inner (BBV.new 8).bits .msb0 w.bitsWritten = Writer.mk w.inner [] .msb0 w.bitsWritten
    rw [BBV.bits_new]

theorem sim_assertFull (rest : List Bool) : SimW Eq (assertFull rest) (do
    let w ← M.get
    M.assert (decide (w.leftover.length = 8) || rest.isEmpty)) := fun w hw => by
  have hw' : w.leftover.Ok 8 := hw
  have e : w.view.leftover.length = w.leftover.size := hw'.length
  simp only [assertFull, M.get_bind_run, e, hw'.1]
  cases decide (w.leftover.size = 8) || rest.isEmpty
  · exact ⟨hw, rfl, trivial⟩
  · exact ⟨hw, rfl, rfl⟩

theorem sim_assertRoom (r : List Bool) : SimW Eq (assertRoom r) (do
    let w ← M.get
    M.assert (decide (w.leftover.length + r.length ≤ 8))) := fun w hw => by
  have hw' : w.leftover.Ok 8 := hw
  have e : w.view.leftover.length = w.leftover.size := hw'.length
  simp only [assertRoom, M.get_bind_run, e, hw'.1]
  cases decide (w.leftover.size + r.length ≤ 8)
  · exact ⟨hw, rfl, trivial⟩
  · exact ⟨hw, rfl, rfl⟩

/-- A check at the start of a longer computation. -/
theorem check_assoc (p : Writer → Bool) (g : M Writer α) (h : α → M Writer β) :
    ((M.get >>= fun w => M.assert (p w) >>= fun _ => g) >>= h) = (M.get >>= fun w => M.assert (p w) >>= fun _ => g >>= h) := by
  funext w
  rw [M.bind_assoc_run]
  simp only [M.get_bind_run]
  cases p w <;> rfl

theorem check_assoc' (p : Writer → Bool) (h : Unit → M Writer β) :
    ((M.get >>= fun w => M.assert (p w)) >>= h) = (M.get >>= fun w => M.assert (p w) >>= h) := by
  funext w
  rw [M.bind_assoc_run]

theorem sim_take {f : List Bool → M RawWriter α} {g : List Bool → M Writer α} (h : ∀ l, SimW Eq (f l) (g l)) :
    SimW Eq (takeLeftover >>= f)
      (M.get >>= fun w => M.assert (decide (w.leftover.length < 8)) >>= fun _ => Writer.takeLeftover >>= g) := by
  rw [← check_assoc fun w => decide (w.leftover.length < 8)]
  exact .bind sim_takeLeftover fun l _ hl => hl ▸ h l

theorem sim_full (r : List Bool) {f : M RawWriter α} {g : M Writer α} (h : SimW Eq f g) :
    SimW Eq (assertFull r >>= fun _ => f)
      (M.get >>= fun w => M.assert (decide (w.leftover.length = 8) || r.isEmpty) >>= fun _ => g) := by
  rw [← check_assoc' fun w => decide (w.leftover.length = 8) || r.isEmpty]
  exact .bind (sim_assertFull r) fun _ _ _ => h

theorem sim_room (r : List Bool) {f : M RawWriter α} {g : M Writer α} (h : SimW Eq f g) :
    SimW Eq (assertRoom r >>= fun _ => f)
      (M.get >>= fun w => M.assert (decide (w.leftover.length + r.length ≤ 8)) >>= fun _ => g) := by
  rw [← check_assoc' fun w => decide (w.leftover.length + r.length ≤ 8)]
  exact .bind (sim_assertRoom r) fun _ _ _ => h

theorem sim_msbMsb (bits : List Bool) : SimW Eq (msbMsb bits) (Writer.msbMsb bits) := by
  have tail (rest : List Bool) : SimW Eq (do
      writeBulk (chunks8 (rest.length / 8) rest) (rest.length - (Writer.fwdRemainder rest).length)
      extend (Writer.fwdRemainder rest)
      M.modify (fun w => { w with tag := .msb0 })) (do
      Writer.writeBulk (chunks8 (rest.length / 8) rest) (rest.length - (Writer.fwdRemainder rest).length)
      Writer.extend (Writer.fwdRemainder rest)
      M.modify (fun w => { w with tag := .msb0 })) :=
    .bind (sim_writeBulk _ _) fun _ _ _ => .bind (sim_extend _) fun _ _ _ => sim_tag _
  refine sim_take fun lo => .ite .rfl (fun _ => tail bits) fun _ => ?_
  refine .bind (sim_extend _) fun _ _ _ => .bind (sim_extend _) fun _ _ _ => sim_full _ ?_
  exact .bind sim_flushFull fun _ _ _ => tail _

theorem sim_lsbLsb (bits : List Bool) : SimW Eq (lsbLsb bits) (Writer.lsbLsb bits) := by
  have tail (rest : List Bool) : SimW Eq (do
      writeBulk (rchunks8 (rest.length / 8) rest) (rest.length - (Writer.bwdRemainder rest).length)
      extend (Writer.bwdRemainder rest)
      M.modify (fun w => { w with tag := .lsb0 })) (do
      Writer.writeBulk (rchunks8 (rest.length / 8) rest) (rest.length - (Writer.bwdRemainder rest).length)
      Writer.extend (Writer.bwdRemainder rest)
      M.modify (fun w => { w with tag := .lsb0 })) :=
    .bind (sim_writeBulk _ _) fun _ _ _ => .bind (sim_extend _) fun _ _ _ => sim_tag _
  refine sim_take fun lo => .ite .rfl (fun _ => tail bits) fun _ => ?_
  refine .bind (sim_extend _) fun _ _ _ => .bind (sim_extend _) fun _ _ _ => sim_full _ ?_
  exact .bind sim_flushFull fun _ _ _ => tail _

theorem sim_lsbMsb (bits : List Bool) : SimW Eq (lsbMsb bits) (Writer.lsbMsb bits) := by
  refine sim_take fun lo => ?_
  refine .bind (sim_writeBulk _ _) fun _ _ _ => .bind (sim_extend _) fun _ _ _ => .bind (sim_extend _) fun _ _ _ => ?_
  refine .bind (sim_tag _) fun _ _ _ => sim_full _ ?_
  exact .bind sim_flushFull fun _ _ _ => sim_extend _

theorem sim_msbLsb (bits : List Bool) : SimW Eq (msbLsb bits) (Writer.msbLsb bits) := by
  refine sim_take fun lo => ?_
  refine .bind (sim_extend _) fun _ _ _ => .bind (sim_extend _) fun _ _ _ => ?_
  refine .bind sim_flushFull fun _ _ _ => .bind (sim_writeBulk _ _) fun _ _ _ => sim_room _ ?_
  refine .bind (sim_extend _) fun _ _ _ => .bind (sim_extend _) fun _ _ _ => sim_full _ ?_
  exact .bind sim_flushFull fun _ _ _ => .bind (sim_extend _) fun _ _ _ => sim_tag _

theorem sim_writeBitsOrder (bits : List Bool) (o : Order) : SimW Eq (writeBitsOrder bits o) (Writer.writeBitsOrder bits o) := by
  refine .bind .get fun w t ⟨hw, ht⟩ => ?_
  subst ht
  show SimW Eq _ (match w.tag, o with
    | .msb0, .msb0 => Writer.msbMsb bits
    | .msb0, .lsb0 => Writer.msbLsb bits
    | .lsb0, .msb0 => Writer.lsbMsb bits
    | .lsb0, .lsb0 => Writer.lsbLsb bits)
  cases w.tag <;> cases o
  · exact sim_msbMsb bits
  · exact sim_msbLsb bits
  · exact sim_lsbMsb bits
  · exact sim_lsbLsb bits

theorem sim_writeBytes (bs : List Byte) : SimW Eq (writeBytes bs) (Writer.writeBytes bs) := by
  refine .bind .get fun w t ⟨hw, ht⟩ => ?_
  subst ht
  have hw' : w.leftover.Ok 8 := hw
  refine .ite ?_ (fun _ => .bind (sim_writeAll _) fun _ _ _ => sim_count _) fun _ => sim_writeBitsOrder _ _
  rw [← hw'.length, List.length_eq_zero_iff]
  show _ ↔ w.leftover.bits.isEmpty = true
  rw [List.isEmpty_iff]

theorem sim_finalize : SimW Eq finalize Writer.finalize := by
  refine .bind .get fun w t ⟨hw, ht⟩ => ?_
  subst ht
  have e : w.view.leftover.length = w.leftover.size := BBV.Ok.length hw
  simp only [e]
  exact .bind (.assert rfl) fun _ _ _ => sim_writeBitsOrder _ _

theorem sim_seek (p : SeekFrom) : SimW Eq (RawWriter.seek p) (Writer.seek p) := fun w hw => by
  have hw' : w.leftover.Ok 8 := hw
  refine ⟨hw'.clear.1, ?_, rfl⟩
  show Writer.mk _ w.leftover.clear.bits .msb0 w.bitsWritten = Writer.mk _ [] .msb0 w.bitsWritten
  rw [hw'.clear.2]
  rfl

theorem toLE_getElem (w v i : Nat) (h : i < (toLE w v).length) : (toLE w v)[i] = BitVec.ofNat 8 (v / 256 ^ i) := by
  induction w generalizing v i with
  | zero => exact absurd h (Nat.not_lt_zero i)
  | succ w ih =>
    cases i with
    | zero => simp [toLE]
    | succ i =>
      have := ih (v / 256) i (by simpa [toLE] using h)
      simp only [toLE, List.getElem_cons_succ, this, Nat.div_div_eq_div_mul, Nat.pow_succ, Nat.mul_comm]

theorem fill_spec (x : BitVec 128) {k : Nat} (h : k ≤ 9) : fill x k = some (toBE k x.toNat) := by
  rw [fill, if_pos h]
  have e : (fun i => (RawReader.shr x ((k - 1 - i) * 8) >>= fun x => some (x.setWidth 8) : Option Byte)) =
      fun i => pure ((x >>> ((k - 1 - i) * 8)).setWidth 8) := by
    funext i
    rw [RawReader.shr, if_pos (by omega)]; rfl
  rw [e, List.mapM_pure]
  show some _ = some _
  congr 1
  refine List.ext_getElem (by simp) fun i h1 h2 => ?_
  have h3 : i < k := by simpa using h1
  simp only [List.getElem_map, List.getElem_range, toBE, List.getElem_reverse, toLE_getElem, length_toLE]
  apply BitVec.eq_of_toNat_eq
  rw [BitVec.toNat_setWidth, BitVec.toNat_ushiftRight, BitVec.toNat_ofNat, Nat.shiftRight_eq_div_pow, Nat.mul_comm,
    Nat.pow_mul]

theorem sim_writeBitsUintMsb0 (v : BitVec 64) (amt : Nat) :
    SimW Eq (writeBitsUintMsb0 v amt) (Writer.writeBitsUintMsb0 v.toNat amt) := by
  unfold writeBitsUintMsb0 Writer.writeBitsUintMsb0
  refine .bind .get fun w t ⟨hw, ht⟩ => ?_
  subst ht
  have hw' : w.leftover.Ok 8 := hw
  have h8 := hw'.2
  have e' : w.view.leftover = w.leftover.bits := rfl
  refine .bind (.assert rfl) fun _ _ hamt => .bind (.assert rfl) fun _ _ _ => ?_
  simp only [Bool.and_eq_true, decide_eq_true_eq] at hamt
  simp only [hw'.asMsb0Byte, e', hw'.length]
  -- the pending bits at the low end of the accumulator
  have tail (acc0 : BitVec 128) (h0 : acc0.toNat = ofBits w.leftover.bits) : SimW Eq (do
      let hi ← M.unwrap (RawReader.shl acc0 amt)
      let mask ← M.unwrap (RawReader.shr (BitVec.allOnes 64) (64 - amt))
      let acc := hi ||| (v &&& mask).setWidth 128
      let whole := (w.leftover.size + amt) / 8
      let rest := (w.leftover.size + amt) % 8
      if whole ≠ 0 then
        let aligned ← M.unwrap (RawReader.shr acc rest)
        let buf ← M.unwrap (fill aligned whole)
        writeAll buf
        M.modify (fun w => { w with bitsWritten := w.bitsWritten + whole * 8 })
      if rest = 0 then
        M.modify (fun w => { w with leftover := w.leftover.clear })
      else
        let one ← M.unwrap (RawReader.shl (1 : BitVec 128) rest)
        let tail := (acc &&& (one - 1)).setWidth 8
        let byte ← M.unwrap (RawReader.shl tail (8 - rest))
        let b ← M.unwrap (BBV.fromMsb0Byte byte rest)
        M.modify (fun w => { w with leftover := b })
      M.modify (fun w => { w with tag := .msb0 })) (do
      let acc := ofBits w.leftover.bits * 2 ^ amt + v.toNat % 2 ^ amt
      let have_ := w.leftover.size + amt
      let whole := have_ / 8
      let rest := have_ % 8
      if whole ≠ 0 then
        Writer.writeAll (toBE whole (acc / 2 ^ rest))
        M.modify (fun w => { w with bitsWritten := w.bitsWritten + whole * 8 })
      M.modify (fun w => { w with leftover := bitsBE rest acc, tag := .msb0 })) := by
    refine .unwrap_left (if_pos (by omega)) (.unwrap_left (if_pos (by omega)) ?_)
    have hy : ((v &&& BitVec.allOnes 64 >>> (64 - amt)).setWidth 128 : BitVec 128).toNat = v.toNat % 2 ^ amt := by
      rw [BitVec.toNat_setWidth, RawReader.low_toNat _ hamt.2]
      have := (v &&& BitVec.allOnes 64 >>> (64 - amt)).isLt
      rw [RawReader.low_toNat _ hamt.2] at this
      exact Nat.mod_eq_of_lt (by omega)
    have hacc := RawReader.shift_or_toNat acc0 (n := amt) (k := w.leftover.size)
      ((v &&& BitVec.allOnes 64 >>> (64 - amt)).setWidth 128) (by rw [h0, ← hw'.length]; exact ofBits_lt _) (by omega)
      (by rw [hy]; exact Nat.mod_lt _ (Nat.two_pow_pos _))
    rw [hy, h0] at hacc
    generalize acc0 <<< amt ||| (v &&& BitVec.allOnes 64 >>> (64 - amt)).setWidth 128 = acc at hacc
    simp only [← hacc]
    have fin : SimW Eq (do
        if (w.leftover.size + amt) % 8 = 0 then
          M.modify (fun w => { w with leftover := w.leftover.clear })
        else
          let one ← M.unwrap (RawReader.shl (1 : BitVec 128) ((w.leftover.size + amt) % 8))
          let tail := (acc &&& (one - 1)).setWidth 8
          let byte ← M.unwrap (RawReader.shl tail (8 - (w.leftover.size + amt) % 8))
          let b ← M.unwrap (BBV.fromMsb0Byte byte ((w.leftover.size + amt) % 8))
          M.modify (fun w => { w with leftover := b })
        M.modify (fun w => { w with tag := .msb0 }))
        (M.modify (fun t => { t with leftover := bitsBE ((w.leftover.size + amt) % 8) acc.toNat, tag := .msb0 })) := by
      by_cases hr : (w.leftover.size + amt) % 8 = 0
      · rw [if_pos hr, hr]
        intro s hs
        have hs' : s.leftover.Ok 8 := hs
        refine ⟨hs'.clear.1, ?_, rfl⟩
        show Writer.mk s.inner s.leftover.clear.bits .msb0 s.bitsWritten = Writer.mk s.inner [] .msb0 s.bitsWritten
        rw [hs'.clear.2]
      · rw [if_neg hr]
        obtain ⟨one, byte, b, h4, h5, h6, h7, h8⟩ := BBV.ok_fromMsb0Byte acc hr (by omega)
        refine .unwrap_left h4 (.unwrap_left h5 (.unwrap_left h6 ?_))
        intro s hs
        refine ⟨h7, ?_, rfl⟩
        show Writer.mk s.inner b.bits .msb0 s.bitsWritten = Writer.mk s.inner _ .msb0 s.bitsWritten
        rw [h8]
    refine .ite .rfl (fun _ => ?_) fun _ => fin
    refine .unwrap_left (if_pos (by omega)) (.unwrap_left (fill_spec _ (by omega)) ?_)
    rw [BitVec.toNat_ushiftRight, Nat.shiftRight_eq_div_pow]
    exact .bind (sim_writeAll _) fun _ _ _ => .bind (sim_count _) fun _ _ _ => fin
  by_cases h0 : w.leftover.size = 0
  · rw [if_pos h0]
    refine tail 0 ?_
    rw [List.length_eq_zero_iff.1 (hw'.length.trans h0)]; rfl
  · rw [if_neg h0]
    have hs : RawReader.sub 8 w.leftover.size = some (8 - w.leftover.size) := if_pos h8
    have hr : RawReader.shr (byteOf w.leftover.store) (8 - w.leftover.size) = some (byteOf w.leftover.store >>> (8 - w.leftover.size)) :=
      if_pos (by omega)
    rw [hs]
    show SimW Eq ((M.unwrap (RawReader.shr (byteOf w.leftover.store) (8 - w.leftover.size)) >>= _) >>= _) _
    rw [hr]
    refine tail _ ?_
    rw [← hw'.shifted, BitVec.toNat_setWidth]
    have := (byteOf w.leftover.store >>> (8 - w.leftover.size)).isLt
    exact Nat.mod_eq_of_lt (by omega)

end RawWriter

/-! ### Sequences of calls -/

theorem Res.Rel.eq {x y : Res α} (h : x.Rel Eq y) : x = y := by
  cases x <;> cases y <;> simp_all [Res.Rel]

theorem answers_sim {view : σ → τ} {ok : σ → Prop} {ι : Type} {f : ι → M σ α} {g : ι → M τ α} (h : ∀ c, Sim view ok Eq (f c) (g c))
    (cs : List ι) (s : σ) (hs : ok s) :
    (answers (cs.map f) s).1 = (answers (cs.map g) (view s)).1 ∧ view (answers (cs.map f) s).2 = (answers (cs.map g) (view s)).2 ∧
    ok (answers (cs.map f) s).2 := by
  induction cs generalizing s with
  | nil => exact ⟨rfl, rfl, hs⟩
  | cons c cs ih =>
    obtain ⟨h1, h2, h3⟩ := h c s hs
    have := ih (f c s).2 h1
    simp only [answers, List.map_cons]
    rw [← h3.eq, ← h2]
    exact ⟨by rw [this.1], this.2⟩

theorem ReaderCall.sim (c : ReaderCall) : SimR Eq c.raw c.model := by
  cases c
  · exact .bind (RawReader.sim_readBitsInto _ _) fun _ _ h => .pure (congrArg _ h)
  · exact .bind (RawReader.sim_readBitsUintMsb0 _) fun _ _ h => .pure (congrArg _ h)
  · exact .bind (RawReader.sim_readBytes _ _) fun _ _ h => .pure (congrArg _ h)
  · exact .bind (RawReader.sim_skipBits _ _) fun _ _ _ => .pure rfl
  · exact .bind (RawReader.sim_seek _) fun _ _ h => .pure (congrArg _ h)
  · exact .bind RawReader.sim_end fun _ _ h => .pure (congrArg _ h)
  · intro s hs
    exact Sim.bind RawReader.sim_rest (g' := fun l => pure (Answer.bits l)) (fun _ _ h => .pure (congrArg Answer.bits h)) s hs

theorem WriterCall.sim (c : WriterCall) : SimW Eq c.raw c.model := by
  cases c
  · exact .bind (RawWriter.sim_writeBitsOrder _ _) fun _ _ _ => .pure rfl
  · exact .bind (RawWriter.sim_writeBitsUintMsb0 _ _) fun _ _ _ => .pure rfl
  · exact .bind (RawWriter.sim_writeBytes _) fun _ _ _ => .pure rfl
  · exact .bind RawWriter.sim_finalize fun _ _ _ => .pure rfl
  · exact .bind (RawWriter.sim_seek _) fun _ _ h => .pure (congrArg _ h)
  · intro s hs
    exact Sim.bind RawWriter.sim_rest (g' := fun l => pure (Answer.bits l)) (fun _ _ h => .pure (congrArg Answer.bits h)) s hs

end Deku
