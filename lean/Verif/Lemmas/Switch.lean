import Verif.Lemmas.IntCodec

/-! # Switching the bit order at byte boundaries -/

namespace Deku

open Writer Reader Prim

/-- A writer on a healthy sink between two bytes, whatever order it was last used in. -/
structure Writer.Clean (w : Writer) : Prop where
  wf : w.WF
  healthy : w.Healthy
  empty : w.leftover = []

theorem Writer.Clean.atLsb {w : Writer} (h : w.Clean) : w.At .lsb0 0 :=
  ⟨h.wf, h.healthy, .inr h.empty, by rw [h.empty]; rfl⟩

/-- Writing a Msb0 field first thing after a byte boundary, whatever the order before: the writer
ends up in Msb0, or (if this is not a bit field) between bytes. -/
def Enters (b : Bool) (g : M Writer Unit) (bits : List Bool) : Prop :=
  ∀ w, w.Clean → ∃ w', g w = (.ok (), w') ∧ Wrote .msb0 bits w w' ∧
    (w'.tag = .msb0 ∨ (b = false ∧ w'.leftover = []))

/-- Bit fields that may come first after a switch to Msb0. -/
def MayEnter (native : Endian) (W : Nat) (ctx : IntCtx) : Prop :=
  ctx.isBits = true → (ctx.shape native W).1 = .little ∨ (ctx.shape native W).2.1 ≤ 8

theorem Writer.Done.enters {b : Bool} {g : M Writer Unit} {bits : List Bool}
    (h : ∀ w, w.Clean → ∃ t, Done .msb0 bits t w (g w) ∧ (t = .msb0 ∨ (b = false ∧ 8 ∣ bits.length))) :
    Enters b g bits := by
  intro w hw
  obtain ⟨t, hd, ht⟩ := h w hw
  obtain ⟨w', e, s, h2⟩ := hd.ok hw.healthy
  refine ⟨w', e, s, ?_⟩
  rcases ht with rfl | ⟨hb, h8⟩
  · exact .inl h2
  · have h3 := s.len; have := s.wf.2
    rw [hw.empty] at h3
    simp at h3
    exact .inr ⟨hb, List.eq_nil_of_length_eq_zero (by omega)⟩

theorem writeBytes_enters (bs : List Byte) : Enters false (Writer.writeBytes bs) (bytesBits bs) :=
  Writer.Done.enters fun w hw => ⟨w.tag, writeBytes_done_aligned hw.wf .msb0 bs hw.empty,
    .inr ⟨rfl, bs.length, by simp⟩⟩

theorem writeBitsOrd_enters {W n v : Nat} {e : Endian} (h1 : 1 ≤ n) (hW : n ≤ 8 * W)
    (hv : v < 2 ^ n) (he : e = .little ∨ n ≤ 8) :
    Enters true (writeBitsOrd W e n .msb0 v) (fieldBits e .msb0 n v) := by
  refine Writer.Done.enters fun w hw => ⟨.msb0, ?_, .inl rfl⟩
  by_cases ht : w.tag = .msb0
  · exact writeBitsOrd_done hw.wf ht h1 hW hv (by intro h; simp at h)
  have hlen : (bytesBits (endianBytes W e v)).length = 8 * W := by
    cases e <;> simp [endianBytes]
  have hvW : v < 256 ^ W := Nat.lt_of_lt_of_le hv (two_pow_le_pow hW)
  simp only [writeBitsOrd, hlen]
  rw [if_neg (by omega)]
  cases e
  · simp only [endianBytes]
    rw [lastCheck_run hW hvW, if_pos hv, ← loopBits_le .msb0 v hW]
    exact writeLoop_done hw.wf _ _ (.inr ⟨hw.empty, toLE_ne_nil (by omega)⟩)
  · simp only [M.get_bind_run]
    rw [show endianBytes W .big v = toBE W v from rfl]
    rw [if_neg (fun h => ht h.2), bytesBits_toBE, firstCheck_run hW (by rwa [← pow256]), if_pos hv,
      drop_bitsBE, show 8 * W - (8 * W - n) = n by omega]
    exact writeBitsOrder_done hw.wf .msb0 _ (.inr ⟨hw.empty, by simpa using he⟩)

theorem writeU8BitsOrd_enters {n v : Nat} (e : Endian) (h1 : 1 ≤ n) (h8 : n ≤ 8) (hv : v < 2 ^ n) :
    Enters true (writeU8BitsOrd n .msb0 v) (fieldBits e .msb0 n v) := by
  refine Writer.Done.enters fun w hw => ⟨.msb0, ?_, .inl rfl⟩
  by_cases ht : w.tag = .msb0
  · exact writeU8BitsOrd_done e hw.wf ht h1 h8 hv
  have hv8 : v < 2 ^ 8 := Nat.lt_of_lt_of_le hv (Nat.pow_le_pow_right (by omega) h8)
  simp only [writeU8BitsOrd, M.get_bind_run]
  rw [fieldBits_small .msb0 h8, if_neg (fun h => ht h.2.1), bytesBits_toLE1, length_bitsBE,
    if_neg (by omega), firstCheck_run h8 hv8, if_pos hv, drop_bitsBE, show 8 - (8 - n) = n by omega]
  exact writeBitsOrder_done hw.wf .msb0 _ (.inr ⟨hw.empty, by simpa using h8⟩)

theorem writeBits_enters {W n v : Nat} {e : Endian} (h1 : 1 ≤ n) (hW : n ≤ 8 * W)
    (hv : v < 2 ^ n) (he : e = .little ∨ n ≤ 8) :
    Enters true (Prim.writeBits W e n v) (fieldBits e .msb0 n v) := by
  refine Writer.Done.enters fun w hw => ⟨.msb0, ?_, .inl rfl⟩
  have hlen : (bytesBits (endianBytes W e v)).length = 8 * W := by
    cases e <;> simp [endianBytes]
  have hvW : v < 256 ^ W := Nat.lt_of_lt_of_le hv (two_pow_le_pow hW)
  simp only [Prim.writeBits, hlen]
  rw [if_neg (by omega)]
  cases e
  · simp only [endianBytes]
    rw [lastCheck_run hW hvW, if_pos hv, ← loopBits_le .msb0 v hW]
    exact writeLoop_done hw.wf _ _ (.inr ⟨hw.empty, toLE_ne_nil (by omega)⟩)
  · simp only [endianBytes, bytesBits_toBE]
    rw [firstCheck_run hW (by rwa [← pow256]), if_pos hv, drop_bitsBE,
      show 8 * W - (8 * W - n) = n by omega]
    exact writeBitsOrder_done hw.wf .msb0 _ (.inr ⟨hw.empty, by simpa using he⟩)

/-- Every Msb0 field that may come first after a switch. -/
theorem writeUnsigned_enters (native : Endian) {W : Nat} (ctx : IntCtx) {e : Endian} {n v : Nat}
    (hs : ctx.shape native W = (e, n, .msb0)) (h1 : 1 ≤ n) (hn : n ≤ 8 * W) (hv : v < 2 ^ n)
    (hm : MayEnter native W ctx) :
    Enters ctx.isBits (writeUnsigned native W ctx v) (fieldBits e .msb0 n v) := by
  have hwhole : ∀ e, Enters false (writeWhole W e v) (fieldBits e .msb0 (8 * W) v) := by
    intro e
    have := writeBytes_enters (endianBytes W e v)
    rwa [show bytesBits (endianBytes W e v) = orderBits .msb0 (endianBytes W e v) from rfl,
      orderBits_endianBytes] at this
  have hby : ∀ e k, (W ≠ 1 → k ≤ W) →
      Enters false (writeUBytes W e k v) (fieldBits e .msb0 (if W = 1 then 8 else 8 * k) v) := by
    intro e k hk
    unfold writeUBytes
    by_cases hW : W = 1
    · rw [if_pos hW, if_pos hW, writeU8Bytes]
      have := writeBytes_enters (toLE 1 v)
      rwa [bytesBits_toLE1, ← show present .msb0 (bitsBE 8 v) = bitsBE 8 v from rfl,
        ← fieldBits_small (e := e) .msb0 (by omega)] at this
    · rw [if_neg hW, if_neg hW, writeBytes_eq e v (hk hW)]
      have := writeBytes_enters (endianBytes k e v)
      rwa [show bytesBits (endianBytes k e v) = orderBits .msb0 (endianBytes k e v) from rfl,
        orderBits_endianBytes] at this
  have hfull : ∀ e, Enters false (writeUBytes W e W v) (fieldBits e .msb0 (8 * W) v) := by
    intro e
    have := hby e W (fun _ => Nat.le_refl _)
    rwa [show (if W = 1 then 8 else 8 * W) = 8 * W by split <;> omega] at this
  have hbits : ∀ e n, 1 ≤ n → n ≤ 8 * W → v < 2 ^ n → (e = .little ∨ n ≤ 8) →
      Enters true (writeUBits W e n v) (fieldBits e .msb0 n v) := by
    intro e n h1 h2 h3 h4
    unfold writeUBits
    by_cases hW : W = 1
    · rw [if_pos hW]; exact writeU8BitsOrd_enters e h1 (by omega) h3
    · rw [if_neg hW]; exact writeBits_enters h1 h2 h3 h4
  have hord : ∀ e n, 1 ≤ n → n ≤ 8 * W → v < 2 ^ n → (e = .little ∨ n ≤ 8) →
      Enters true (writeUBitsOrd W e n .msb0 v) (fieldBits e .msb0 n v) := by
    intro e n h1 h2 h3 h4
    unfold writeUBitsOrd
    by_cases hW : W = 1
    · rw [if_pos hW]; exact writeU8BitsOrd_enters e h1 (by omega) h3
    · rw [if_neg hW]; exact writeBitsOrd_enters h1 h2 h3 h4
  cases ctx <;> simp only [IntCtx.shape, Prod.mk.injEq] at hs <;> obtain ⟨rfl, rfl, hs⟩ := hs
  case unit => exact hwhole _
  case endian => exact hwhole _
  case bits => exact hbits _ _ h1 hn hv (hm rfl)
  case bytes k => exact hby _ _ (fun h => by simp only [if_neg h] at hn; omega)
  case order => exact hfull _
  case endianOrder => exact hfull _
  case endianBits => exact hbits _ _ h1 hn hv (hm rfl)
  case endianBytes => exact hby _ _ (fun h => by simp only [if_neg h] at hn; omega)
  case bitsOrder => subst hs; exact hord _ _ h1 hn hv (hm rfl)
  case endianBitsOrder => subst hs; exact hord _ _ h1 hn hv (hm rfl)
  case endianBytesOrder => exact hby _ _ (fun h => by simp only [if_neg h] at hn; omega)

/-! ### whole bytes -/

/-- Between bytes, the computation writes exactly these bytes and ends between bytes. -/
def WritesBytes (g : M Writer Unit) (bs : List Byte) : Prop :=
  ∀ w, w.Clean → ∃ w', g w = (.ok (), w') ∧ w'.Clean ∧ w'.inner.written = w.inner.written ++ bs ∧
    w'.inner.data.drop w'.inner.pos = w.inner.data.drop w'.inner.pos

/-- Between bytes, the computation reads exactly these bytes and ends between bytes. -/
def ReadsBytes {α : Type} (f : M Reader α) (bs : List Byte) (a : α) : Prop :=
  ∀ r rest, r.At 0 → r.inner.data.drop r.inner.pos = bs ++ rest →
    ∃ r', f r = (.ok a, r') ∧ r'.At 0 ∧ r'.inner.data.drop r'.inner.pos = rest ∧
      r'.bitsRead = r.bitsRead + 8 * bs.length

theorem WritesBytes.pure : WritesBytes (Pure.pure ()) [] :=
  fun w h => ⟨w, rfl, h, by simp, rfl⟩

theorem ReadsBytes.pure {α : Type} (a : α) : ReadsBytes (Pure.pure a) [] a :=
  fun r rest h hr => ⟨r, rfl, h, hr, by simp⟩

theorem Sink.drop_trans {d d' d'' : List Byte} {p' p'' : Nat} (h : d'.drop p' = d.drop p')
    (h' : d''.drop p'' = d'.drop p'') (hp : p' ≤ p'') : d''.drop p'' = d.drop p'' := by
  rw [h', show p'' = p' + (p'' - p') by omega, ← List.drop_drop, ← List.drop_drop, h]

theorem WritesBytes.bind {f g : M Writer Unit} {a b : List Byte} (hf : WritesBytes f a)
    (hg : WritesBytes g b) : WritesBytes (f >>= fun _ => g) (a ++ b) := by
  intro w h
  obtain ⟨w1, e1, c1, p1, t1⟩ := hf w h
  obtain ⟨w2, e2, c2, p2, t2⟩ := hg w1 c1
  refine ⟨w2, by rw [M.bind_ok e1, e2], c2, by rw [p2, p1, List.append_assoc], ?_⟩
  refine Sink.drop_trans t1 t2 ?_
  have := congrArg List.length p2
  have h1 := c1.wf.1.1
  have h2 := c2.wf.1.1
  simp [Sink.written] at this
  omega

theorem ReadsBytes.bind {α β : Type} {f : M Reader α} {g : α → M Reader β} {x y : List Byte} {a : α}
    {b : β} (hf : ReadsBytes f x a) (hg : ReadsBytes (g a) y b) :
    ReadsBytes (f >>= g) (x ++ y) b := by
  intro r rest h hu
  obtain ⟨r1, e1, a1, u1, c1⟩ := hf r (y ++ rest) h (by rw [hu, List.append_assoc])
  obtain ⟨r2, e2, a2, u2, c2⟩ := hg r1 rest a1 u1
  exact ⟨r2, by rw [M.bind_ok e1, e2], a2, u2, by rw [c2, c1, List.length_append]; omega⟩

theorem Reader.At.aligned {r : Reader} (h : r.At 0) : r.rest = [] := by
  have h1 := h.sync
  have h2 := h.phase
  apply List.eq_nil_of_length_eq_zero
  have h3 : r.rest.length < 8 := by
    cases hl : r.leftover with
    | none => simp [Reader.rest, leftoverBits, hl]
    | some l =>
      cases l with
      | byte b => exact (h.noPeek b hl).elim
      | bits l => have := h.wf l hl; simp [Reader.rest, leftoverBits, hl]; omega
  unfold Synced at h1
  omega

theorem Reader.At.unread_aligned {r : Reader} (h : r.At 0) (o : Order) :
    r.unread o = orderBits o (r.inner.data.drop r.inner.pos) := by
  have := h.aligned
  cases o <;> simp [Reader.unread, unreadMsb, unreadLsb, this, orderBits]

theorem orderBits_append (o : Order) (a b : List Byte) :
    orderBits o (a ++ b) = orderBits o a ++ orderBits o b := by
  cases o <;> simp [orderBits]

theorem Reads.bytes {α : Type} {o : Order} {f : M Reader α} {bs : List Byte} {a : α}
    (h : Reads o 0 f (orderBits o bs) a) : ReadsBytes f bs a := by
  intro r rest hr hu
  obtain ⟨r', e, s⟩ := h r (orderBits o rest) hr (by rw [hr.unread_aligned, hu, orderBits_append])
  have ha : r'.At 0 := (hr.step s).congr (by rw [length_orderBits]; omega)
  refine ⟨r', e, ha, ?_, by rw [s.bitsRead, length_orderBits]⟩
  have := s.unread
  rw [ha.unread_aligned, hr.unread_aligned, hu, orderBits_append, List.drop_left] at this
  exact orderBits_inj o this

theorem Wrote.bytes {o : Order} {bs : List Byte} {w w' : Writer} (hw : w.Clean)
    (s : Wrote o (orderBits o bs) w w') : w'.Clean ∧ w'.inner.written = w.inner.written ++ bs ∧
      w'.inner.data.drop w'.inner.pos = w.inner.data.drop w'.inner.pos := by
  have hl : w'.leftover = [] := by
    have h3 := s.len; have := s.wf.2
    rw [hw.empty, length_orderBits] at h3
    simp at h3
    exact List.eq_nil_of_length_eq_zero (by omega)
  refine ⟨⟨s.wf, s.healthy hw.healthy, hl⟩, ?_, s.tail⟩
  have hp := s.produced
  have hpp : present o [] = [] := by cases o <;> rfl
  simp only [produced, Writer.rest, hl, hw.empty, hpp, List.append_nil] at hp
  rw [← orderBits_append] at hp
  exact orderBits_inj o hp

theorem WritesBytes.toBytes {g : M Writer Unit} {bs : List Byte}
    (h : WritesBytes (do g; finalize) bs) : toBytes g = .ok bs := by
  obtain ⟨w, e, c, p, t⟩ := h (Writer.new {}) ⟨(Writer.new_at .msb0).wf, (Writer.new_at .msb0).healthy, rfl⟩
  simp only [Deku.toBytes, e]
  have h1 := c.wf.1.1
  have h2 := congrArg List.length t
  simp [Writer.new] at h2
  have h3 : w.inner.pos = w.inner.data.length := by omega
  simp only [Sink.written, h3, List.take_length, Writer.new, List.take_nil, List.nil_append] at p
  rw [p]

/-- Filling up the last byte with zeros. -/
theorem finalize_wrote {o : Order} {p : Nat} {w : Writer} (hat : w.At o p) :
    ∃ w', finalize w = (.ok (), w') ∧
      Wrote o (List.replicate ((8 - w.leftover.length) % 8) false) w w' := by
  by_cases ht : w.tag = o
  · obtain ⟨w', e', s', _⟩ := (finalize_done hat.wf).ok hat.healthy
    rw [ht] at s'
    exact ⟨w', e', s'⟩
  · have hl : w.leftover = [] := by
      have hr := hat.ready
      cases o
      · exact (ht hr).elim
      · exact hr.resolve_left ht
    obtain ⟨w', e', s', _⟩ := (finalize_done hat.wf).ok hat.healthy
    refine ⟨w', e', ?_⟩
    rw [hl] at s' ⊢
    have hz : List.replicate ((8 - ([] : List Bool).length) % 8) false = orderBits o [] := by
      cases o <;> rfl
    have hz' : List.replicate ((8 - ([] : List Bool).length) % 8) false = orderBits w.tag [] := by
      cases w.tag <;> rfl
    rw [hz'] at s'
    have hc := Wrote.bytes ⟨hat.wf, hat.healthy, hl⟩ s'
    rw [hz]
    refine ⟨?_, by simpa [length_orderBits] using s'.len, s'.wf, s'.counted, s'.tail, s'.cap, s'.faults, s'.calls, s'.quiet⟩
    have hpp : present o [] = [] := by cases o <;> rfl
    simp only [produced, Writer.rest, hc.1.empty, hl, hpp, hc.2.1, List.append_nil]
    rw [← orderBits_append, List.append_nil]

end Deku
