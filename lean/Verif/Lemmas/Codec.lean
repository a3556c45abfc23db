import Verif.Spec.Codec
import Verif.Model.Toplevel
import Verif.Lemmas.IntRound

/-! # Composing reads and writes -/

namespace Deku

open Reader Writer

theorem Reader.At.step {o : Order} {p n : Nat} {r r' : Reader} (h : r.At p) (hs : Step o n r r') :
    r'.At (p + n) where
  healthy := hs.healthy
  wf := hs.wf
  noPeek := hs.noPeek (.inl h.noPeek)
  sync := hs.synced h.sync
  bound := by rw [hs.data]; exact hs.bound h.bound
  phase := by have := h.phase; rw [hs.bitsRead]; omega

theorem Reader.At.congr {p q : Nat} {r : Reader} (h : r.At p) (hq : p % 8 = q % 8) : r.At q :=
  { h with phase := by rw [h.phase, hq] }

theorem Writer.At.wrote {o : Order} {p : Nat} {bits : List Bool} {w w' : Writer} (h : w.At o p)
    (hs : Wrote o bits w w') (hr : w'.Ready o) : w'.At o (p + bits.length) where
  wf := hs.wf
  healthy := hs.healthy h.healthy
  ready := hr
  phase := by
    have := h.phase; have := hs.len; have := hs.wf.2; have := h.wf.2
    omega

theorem Writer.At.congr {o : Order} {p q : Nat} {w : Writer} (h : w.At o p) (hq : p % 8 = q % 8) :
    w.At o q := { h with phase := by rw [h.phase, hq] }

theorem Reader.new_at (bs : List Byte) : (Reader.new { data := bs }).At 0 :=
  ⟨rfl, by intro l h; simp [Reader.new] at h, by intro b h; simp [Reader.new] at h,
    by simp [Synced, Reader.new, rest, leftoverBits], by simp [Reader.new], rfl⟩

theorem Reader.new_unread (o : Order) (bs : List Byte) :
    (Reader.new { data := bs }).unread o = orderBits o bs := by
  rw [unread_none _ _ rfl]; simp [Reader.new, avail]

theorem Writer.new_at (o : Order) : (Writer.new {}).At o 0 :=
  ⟨⟨⟨Nat.le_refl _, by simp [Writer.new]⟩, by simp [Writer.new]⟩, ⟨rfl, rfl⟩,
    by cases o <;> simp [Ready, Writer.new], rfl⟩

theorem Reads.pure {α : Type} (o : Order) (p : Nat) (a : α) : Reads o p (pure a) [] a := by
  intro r rest h _
  exact ⟨r, rfl, Step.refl o h.healthy h.wf⟩

theorem Reads.bind {α β : Type} {o : Order} {p : Nat} {f : M Reader α} {g : α → M Reader β}
    {x y : List Bool} {a : α} {b : β} (hf : Reads o p f x a) (hg : Reads o (p + x.length) (g a) y b) :
    Reads o p (f >>= g) (x ++ y) b := by
  intro r rest h hu
  obtain ⟨r1, e1, s1⟩ := hf r (y ++ rest) h (by rw [hu, List.append_assoc])
  obtain ⟨r2, e2, s2⟩ := hg r1 rest (h.step s1) (by
    rw [s1.unread, hu, List.append_assoc, List.drop_left])
  exact ⟨r2, by rw [M.bind_ok e1, e2], by rw [List.length_append]; exact s1.trans s2⟩

theorem Reads.congr {α : Type} {o : Order} {p q : Nat} {f : M Reader α} {x : List Bool} {a : α}
    (h : Reads o p f x a) (hq : q % 8 = p % 8) : Reads o q f x a :=
  fun r rest hr hu => h r rest (hr.congr hq) hu

theorem Reads.map {α β : Type} {o : Order} {p : Nat} {f : M Reader α} {x : List Bool} {a : α}
    (hf : Reads o p f x a) (k : α → β) : Reads o p (f >>= fun a => Pure.pure (k a)) x (k a) := by
  have := hf.bind (g := fun a => Pure.pure (k a)) (y := []) (Reads.pure o _ (k a))
  rwa [List.append_nil] at this

theorem Writes.pure (o : Order) (p : Nat) : Writes o p (Pure.pure ()) [] :=
  fun w h => ⟨w, rfl, Wrote.refl o h.wf, h.ready⟩

theorem Writes.bind {o : Order} {p : Nat} {f g : M Writer Unit} {x y : List Bool}
    (hf : Writes o p f x) (hg : Writes o (p + x.length) g y) :
    Writes o p (f >>= fun _ => g) (x ++ y) := by
  intro w h
  obtain ⟨w1, e1, s1, r1⟩ := hf w h
  obtain ⟨w2, e2, s2, r2⟩ := hg w1 (h.wrote s1 r1)
  exact ⟨w2, by rw [M.bind_ok e1, e2], s1.trans s2, r2⟩

theorem Writes.congr {o : Order} {p q : Nat} {f : M Writer Unit} {x : List Bool}
    (h : Writes o p f x) (hq : q % 8 = p % 8) : Writes o q f x :=
  fun w hw => h w (hw.congr hq)

/-- `to_bytes`: the bits written, filled up with zeros to whole bytes. -/
theorem toBytes_of_wrote {o : Order} {g : M Writer Unit} {bits : List Bool} {w : Writer}
    (e : g (Writer.new {}) = (.ok (), w)) (s : Wrote o bits (Writer.new {}) w) (hr : w.Ready o) :
    ∃ out, toBytes g = .ok out ∧
      orderBits o out = bits ++ List.replicate ((8 - bits.length % 8) % 8) false := by
  have hat := (Writer.new_at o).wrote s hr
  have hfin : ∃ w', finalize w = (.ok (), w') ∧
      Wrote o (List.replicate ((8 - w.leftover.length) % 8) false) w w' := by
    by_cases ht : w.tag = o
    · obtain ⟨w', e', s', _⟩ := (finalize_done hat.wf).ok hat.healthy
      rw [ht] at s'
      exact ⟨w', e', s'⟩
    · have hl : w.leftover = [] := by
        cases o
        · exact (ht hr).elim
        · exact hr.resolve_left ht
      obtain ⟨w', e', s', _⟩ := (writeBitsOrder_done hat.wf w.tag [] (.inl rfl)).ok hat.healthy
      have hrep : List.replicate ((8 - w.leftover.length) % 8) false = [] := by rw [hl]; rfl
      rw [hrep]
      refine ⟨w', ?_, ?_⟩
      · simp only [finalize, M.get_bind_run, hl, List.length_nil]
        exact e'
      · have hp : present w.tag [] = [] := by cases w.tag <;> rfl
        rw [hp] at s'
        refine ⟨?_, s'.len, s'.wf, s'.counted, s'.tail, s'.cap, s'.faults, s'.calls, s'.quiet⟩
        have hlen := s'.len
        have hwf := s'.wf.2
        rw [hl] at hlen
        simp at hlen
        have hl' : w'.leftover = [] := List.eq_nil_of_length_eq_zero (by omega)
        have hpr := s'.produced
        have hpp : ∀ t : Order, present t [] = [] := by intro t; cases t <;> rfl
        simp only [produced, Writer.rest, hl, hl', hpp, List.append_nil] at hpr ⊢
        exact congrArg _ (orderBits_inj _ hpr)
  obtain ⟨w', e', s'⟩ := hfin
  have s2 := s.trans s'
  have hpos : w'.leftover = [] := by
    have hl := s'.len; have := s'.wf.2; have := hat.wf.2
    rw [List.length_replicate] at hl
    exact List.eq_nil_of_length_eq_zero (by omega)
  have hw' : w'.inner.pos = w'.inner.data.length := by
    have h1 := s2.wf.1.1
    have h2 := congrArg List.length s2.tail
    simp [Writer.new] at h2
    omega
  refine ⟨w'.inner.data, ?_, ?_⟩
  · simp only [Deku.toBytes]
    rw [M.bind_ok e, e']
  · have hp := s2.produced
    have hpp : ∀ t : Order, present t [] = [] := by intro t; cases t <;> rfl
    have hpo : ∀ t : Order, orderBits t [] = [] := by intro t; cases t <;> rfl
    simp only [produced, Sink.written, Writer.rest, hpos, hw', List.take_length, hpp,
      List.append_nil, Writer.new, List.take_nil, hpo, List.nil_append] at hp
    rw [hp]
    congr 2
    have := hat.phase
    simp at this
    rw [this]

theorem Writes.toBytes {o : Order} {g : M Writer Unit} {bits : List Bool} (h : Writes o 0 g bits) :
    ∃ out, toBytes g = .ok out ∧
      orderBits o out = bits ++ List.replicate ((8 - bits.length % 8) % 8) false := by
  obtain ⟨w, e, s, hr⟩ := h _ (Writer.new_at o)
  exact toBytes_of_wrote e s hr

/-- Reading from the start of a byte string. -/
theorem Reads.fromBytes {α : Type} {o : Order} {f : M Reader α} {bits rest : List Bool} {a : α}
    {out : List Byte} (h : Reads o 0 f bits a) (ho : orderBits o out = bits ++ rest) :
    ∃ r', f (Reader.new { data := out }) = (.ok a, r') ∧ r'.bitsRead = bits.length ∧
      r'.unread o = rest := by
  obtain ⟨r', e, s⟩ := h _ rest (Reader.new_at out) (by rw [Reader.new_unread, ho])
  refine ⟨r', e, by rw [s.bitsRead]; simp [Reader.new], ?_⟩
  rw [s.unread, Reader.new_unread, ho, List.drop_left]

/-! ### integers -/

theorem Prim.Delivers.reads {α : Type} {o : Order} {n : Nat} {f : M Reader α}
    {val : List Bool → α} (h : Prim.Delivers o n f val) {bits : List Bool} (hb : bits.length = n)
    (p : Nat) : Reads o p f bits (val bits) := by
  intro r rest hr hu
  obtain ⟨r', e, s⟩ := (h r hr.healthy hr.wf).1 (by rw [hu]; simp; omega)
  subst hb
  rw [hu, List.take_left] at e
  exact ⟨r', e, s⟩

theorem Writer.Done.writes {o t : Order} {p : Nat} {g : M Writer Unit} {bits : List Bool}
    (h : ∀ w, w.At o p → Done o bits t w (g w)) (ht : t = o) : Writes o p g bits := by
  intro w hw
  obtain ⟨w', e, s, h2⟩ := (h w hw).ok hw.healthy
  refine ⟨w', e, s, ?_⟩
  subst ht
  cases t
  · exact h2
  · exact .inl h2

theorem writeBytes_writes_msb (p : Nat) (bs : List Byte) :
    Writes .msb0 p (Writer.writeBytes bs) (bytesBits bs) :=
  Writer.Done.writes (fun _ hw => writeBytes_done_msb hw.wf bs hw.ready) rfl

/-- Bytes written at a byte boundary, in either bit order. -/
theorem writeBytes_writes {o : Order} {p : Nat} (bs : List Byte) (h : o = .lsb0 → p % 8 = 0) :
    Writes o p (Writer.writeBytes bs) (orderBits o bs) := by
  cases o
  · exact writeBytes_writes_msb p bs
  · intro w hw
    have hl : w.leftover = [] := List.eq_nil_of_length_eq_zero (by rw [hw.phase, h rfl])
    obtain ⟨w', e, s, h2⟩ := (writeBytes_done_aligned hw.wf .lsb0 bs hl).ok hw.healthy
    refine ⟨w', e, s, .inr ?_⟩
    have h3 := s.len; have := s.wf.2
    rw [hl, length_orderBits] at h3
    simp at h3
    exact List.eq_nil_of_length_eq_zero (by omega)

theorem writeBits_writes {o : Order} (p : Nat) (bits : List Bool) (h : o = .msb0 ∨ bits.length ≤ 8) :
    Writes o p (Writer.writeBitsOrder bits o) (present o bits) := by
  refine Writer.Done.writes (t := o) (fun w hw => writeBitsOrder_done hw.wf o bits ?_) rfl
  rcases h with h | h
  · subst h; exact .inl hw.ready
  · exact Ready.start hw.ready bits h

theorem Writer.chunks8_zeros (k n : Nat) (h : 8 * k ≤ n) :
    bytesBitsLsb ((chunks8 k (List.replicate n false)).map byteOf) = List.replicate (8 * k) false := by
  induction k generalizing n with
  | zero => rfl
  | succ k ih =>
    simp only [chunks8, List.map_cons, bytesBitsLsb_cons]
    rw [List.take_replicate, List.drop_replicate, ih _ (by omega), show min 8 n = 8 by omega,
      show (byteBits (byteOf (List.replicate 8 false))).reverse = List.replicate 8 false by decide,
      List.replicate_append_replicate]
    congr 1; omega

/-- Zeros are the same in every order. -/
theorem Writer.msbLsb_zeros {w : Writer} (hw : w.WF) (hlo : w.leftover = []) (n : Nat) :
    Done .lsb0 (List.replicate n false) .lsb0 w (msbLsb (List.replicate n false) w) := by
  have hW := hw.1
  simp only [msbLsb, M.get_bind_run, hlo, List.length_nil, Nat.zero_lt_succ, decide_true,
    M.assert_true_bind_run, takeLeftover_bind_run, List.isEmpty_nil, if_true]
  rw [extend_bind_run _ _ _ (by simp), extend_bind_run _ _ _ (by simp)]
  simp only [List.append_nil]
  rw [M.bind_ok (flushFull_not (by simp))]
  rcases writeBulk_cases (w := { w with leftover := [], tag := .msb0 }) hW
      (chunks8 ((List.replicate n false).length / 8) (List.replicate n false))
      ((List.replicate n false).length - (fwdRemainder (List.replicate n false)).length) with
      ⟨s, h, hp⟩ | ⟨e, s, h, hp⟩
  · rw [M.bind_ok h]
    simp only [M.get_bind_run, List.length_nil, length_fwdRemainder, List.length_replicate]
    rw [show (decide (0 + n % 8 ≤ 8)) = true by simp; omega, M.assert_true_bind_run,
      extend_bind_run _ _ _ (by simp; omega), extend_bind_run _ _ _ (by simp; omega)]
    simp only [M.get_bind_run, List.drop_nil, List.isEmpty_nil, Bool.or_true,
      M.assert_true_bind_run, List.take_nil, List.append_nil, List.nil_append]
    rw [M.bind_ok (flushFull_not (by simp; omega)), extend_bind_run _ _ _ (by simp; omega)]
    refine .inl ⟨_, rfl, Wrote.mk' hp (by simp; omega) ?_ (by simp; omega), rfl⟩
    simp only [orderBits, present, hlo, List.nil_append, List.reverse_nil, List.append_nil]
    rw [List.length_replicate, chunks8_zeros _ n (by omega)]
    simp [fwdRemainder, List.replicate_append_replicate]
    omega
  · rw [M.bind_err h]
    exact .inr ⟨e, _, rfl, Broke.mk' hp (by simp; omega)⟩
/-- Zeros are written in order `o` after anything that is in order `o`. -/
theorem zeros_writes {o : Order} (p n : Nat) :
    Writes o p (Writer.writeBitsOrder (List.replicate n false) o) (List.replicate n false) := by
  refine Writer.Done.writes (t := o) (fun w hw => ?_) rfl
  cases o with
  | msb0 => exact writeBitsOrder_done hw.wf .msb0 _ (.inl hw.ready)
  | lsb0 =>
    by_cases ht : w.tag = .lsb0
    · have := writeBitsOrder_done hw.wf .lsb0 (List.replicate n false) (.inl ht)
      rwa [present, List.reverse_replicate] at this
    · have hl : w.leftover = [] := hw.ready.resolve_left ht
      have ht : w.tag = .msb0 := by cases h : w.tag <;> simp_all
      simp only [writeBitsOrder, M.get_bind_run, ht]
      exact Writer.msbLsb_zeros hw.wf hl n

end Deku
