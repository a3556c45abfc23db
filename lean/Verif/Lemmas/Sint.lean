import Verif.Lemmas.Conv

/-! # Signed integers as the types of fields -/

namespace Deku

namespace Prim

variable {native e : Endian} {W n : Nat} {ctx : IntCtx} {o : Order} {p : Nat}

theorem sshape_order (hs : ctx.sshape native W = (e, n, o)) : (ctx.shape native W).2.2 = o := by
  cases ctx <;> simp [IntCtx.sshape, IntCtx.shape] at hs ⊢ <;> simp [hs]

theorem sshape_bits (hb : ctx.isBits = true) (hs : ctx.sshape native W = (e, n, o)) :
    ctx.shape native W = (e, n, o) := by
  cases ctx <;> simp [IntCtx.isBits] at hb <;> exact hs

/-- Every way of reading a signed integer. -/
theorem readSigned_delivers (hW : 1 ≤ W) (hs : ctx.sshape native W = (e, n, o)) (h1 : 1 ≤ n)
    (hn : n ≤ 8 * W) : Delivers o n (readSigned native W ctx)
      (fun l => if ctx.extends then twosComplement n (fieldValue e o l % 2 ^ n)
        else twosComplement (8 * W) (fieldValue e o l)) := by
  cases ctx <;> simp only [IntCtx.sshape, IntCtx.shape, Prod.mk.injEq] at hs <;> obtain ⟨rfl, rfl, rfl⟩ := hs <;>
    simp only [readSigned, IntCtx.extends, Bool.false_eq_true, if_false, if_true, readSignedBits]
  case unit => exact readSignedWhole_delivers _ hW
  case endian => exact readSignedWhole_delivers _ hW
  case bits m =>
    by_cases h : m % 8 = 0
    · have := readSignedBytesOrd_delivers (W := W) (k := m / 8) native .msb0 (by omega) (by omega)
      rw [show 8 * (m / 8) = m by omega] at this
      simpa [h] using this
    · have := readSignedBitsOrd_delivers (W := W) native .msb0 h1 hn
      simpa [h] using this
  case bytes => exact readSignedBytesOrd_delivers _ _ (by omega) (by omega)
  case order => exact readSignedBytesOrd_delivers _ _ (by omega) (by omega)
  case endianOrder => exact readSignedBytesOrd_delivers _ _ (by omega) (by omega)
  case endianBits => exact readSignedBitsOrd_delivers _ _ h1 hn
  case endianBytes => exact readSignedBytesOrd_delivers _ _ (by omega) (by omega)
  case bitsOrder m o =>
    by_cases h : m % 8 = 0
    · have := readSignedBytesOrd_delivers (W := W) (k := m / 8) native o (by omega) (by omega)
      rw [show 8 * (m / 8) = m by omega] at this
      simpa [h] using this
    · have := readSignedBitsOrd_delivers (W := W) native o h1 hn
      simpa [h] using this
  case endianBitsOrder => exact readSignedBitsOrd_delivers _ _ h1 hn
  case endianBytesOrder => exact readSignedBytesOrd_delivers _ _ (by omega) (by omega)

/-- Every way of writing a signed integer that is accepted. -/
theorem writeSigned_writes (hs : ctx.sshape native W = (e, n, o)) (h1 : 1 ≤ n) (hn : n ≤ 8 * W) {v : Int}
    (hv : InRange (8 * W) v) (ha : ctx.Accepts W n v) (hc : Compatible native W ctx p) :
    Writes o p (writeSigned native W ctx v) (fieldBits e o n (pattern W v)) := by
  cases ctx <;> simp only [IntCtx.sshape, IntCtx.shape, Prod.mk.injEq] at hs <;> obtain ⟨rfl, rfl, rfl⟩ := hs <;>
    simp only [writeSigned]
  case unit => exact writeWhole_writes _ p
  case endian => exact writeWhole_writes _ p
  case bits => exact writeSignedBits_writes _ p h1 hn hv (ha rfl)
  case bytes => exact writeBytesInt_writes _ (by omega) (by simp)
  case order => exact writeBytesInt_writes _ (Nat.le_refl _) hc
  case endianOrder => exact writeBytesInt_writes _ (Nat.le_refl _) hc
  case endianBits => exact writeSignedBits_writes _ p h1 hn hv (ha rfl)
  case endianBytes => exact writeBytesInt_writes _ (by omega) (by simp)
  case bitsOrder => exact Writer.Done.writes (fun w hw => writeBitsOrd_done hw.wf hw.ready h1 hn (ha rfl) hc) rfl
  case endianBitsOrder =>
    exact Writer.Done.writes (fun w hw => writeBitsOrd_done hw.wf hw.ready h1 hn (ha rfl) hc) rfl
  case endianBytesOrder => exact writeBytesInt_writes _ (by omega) hc

theorem writeBytesInt_took {k v : Nat} {w : Writer} (hw : w.WF) (hk : k ≤ W) :
    Writer.Took (8 * k) w (writeBytes W e k v w) := by
  rw [writeBytes_eq e v hk]
  have := Writer.writeBytes_took hw (endianBytes k e v)
  rwa [show (endianBytes k e v).length = k by cases e <;> simp [endianBytes]] at this

theorem writeWhole_took {v : Nat} {w : Writer} (hw : w.WF) : Writer.Took (8 * W) w (writeWhole W e v w) := by
  have := Writer.writeBytes_took hw (endianBytes W e v)
  rwa [show (endianBytes W e v).length = W by cases e <;> simp [endianBytes]] at this

theorem writeSigned_took (hs : ctx.sshape native W = (e, n, o)) (h1 : 1 ≤ n) (hn : n ≤ 8 * W) {v : Int}
    (hv : InRange (8 * W) v) (ha : ctx.Accepts W n v) {w : Writer} (hw : w.WF) (hh : w.Healthy) :
    Writer.Took n w (writeSigned native W ctx v w) := by
  cases ctx <;> simp only [IntCtx.sshape, IntCtx.shape, Prod.mk.injEq] at hs <;> obtain ⟨rfl, rfl, rfl⟩ := hs <;>
    simp only [writeSigned]
  case unit => exact writeWhole_took hw
  case endian => exact writeWhole_took hw
  case bits => exact writeSignedBits_took _ hw hh h1 hn hv (ha rfl)
  case bytes => exact writeBytesInt_took hw (by omega)
  case order => exact writeBytesInt_took hw (Nat.le_refl _)
  case endianOrder => exact writeBytesInt_took hw (Nat.le_refl _)
  case endianBits => exact writeSignedBits_took _ hw hh h1 hn hv (ha rfl)
  case endianBytes => exact writeBytesInt_took hw (by omega)
  case bitsOrder => exact writeBitsOrd_took _ _ hw hh h1 hn (ha rfl)
  case endianBitsOrder => exact writeBitsOrd_took _ _ hw hh h1 hn (ha rfl)
  case endianBytesOrder => exact writeBytesInt_took hw (by omega)

theorem writeSigned_accepts (hs : ctx.sshape native W = (e, n, o)) (h1 : 1 ≤ n) {v : Int}
    (hv : InRange (8 * W) v) {w w' : Writer} (h : writeSigned native W ctx v w = (.ok (), w')) :
    ctx.Accepts W n v := by
  intro hb
  apply Classical.byContradiction
  intro hc
  have hp := pattern_lt W v
  cases ctx <;> simp only [IntCtx.isBits, Bool.false_eq_true] at hb <;>
    simp only [IntCtx.sshape, IntCtx.shape, Prod.mk.injEq] at hs <;> obtain ⟨rfl, rfl, rfl⟩ := hs <;>
    simp only [writeSigned] at h <;> simp only [IntCtx.noOrder, if_true, Bool.false_eq_true, if_false] at hc
  · rw [writeSignedBits_refuses _ w hv (.inr ⟨h1, hc⟩)] at h; simp at h
  · rw [writeSignedBits_refuses _ w hv (.inr ⟨h1, hc⟩)] at h; simp at h
  · rw [writeBitsOrd_refuses _ _ w hp (.inr (by omega))] at h; simp at h
  · rw [writeBitsOrd_refuses _ _ w hp (.inr (by omega))] at h; simp at h

theorem sshape_dense (hs : ctx.sshape native W = (e, n, o)) (hc : Compatible native W ctx p) : Dense e n o := by
  cases ctx <;> simp only [IntCtx.sshape, IntCtx.shape, Prod.mk.injEq] at hs <;> obtain ⟨rfl, rfl, rfl⟩ := hs
  case bits => exact dense_msb _ _
  case endianBits => exact dense_msb _ _
  case bitsOrder => exact Sound.dense hc
  case endianBitsOrder => exact Sound.dense hc
  all_goals
    intro _ _
    omega

end Prim

variable {native e : Endian} {W n : Nat} {ctx : IntCtx} {o : Order} {P : Nat → Prop}

theorem sint_delivers (hW : 1 ≤ W) (hs : ctx.sshape native W = (e, n, o)) (h1 : 1 ≤ n) (hn : n ≤ 8 * W) :
    Prim.Delivers o n (sintCodec native W ctx).read
      (fun l => .num (if ctx.extends then twosComplement n (fieldValue e o l % 2 ^ n)
        else twosComplement (8 * W) (fieldValue e o l))) :=
  (Prim.readSigned_delivers hW hs h1 hn).map fun _ _ _ => rfl

theorem inRange_width (hW : 1 ≤ W) (k : Int) :
    (-(256 ^ W) ≤ 2 * k ∧ 2 * k < 256 ^ W) ↔ InRange (8 * W) k := by
  rw [Prim.inRange_iff (by omega), ← Prim.pow256, pow256]

theorem sint_write_num (hW : 1 ≤ W) {k : Int} (hk : InRange (8 * W) k) :
    (sintCodec native W ctx).write (.num k) = Prim.writeSigned native W ctx k := by
  simp only [sintCodec]
  rw [if_pos ((inRange_width hW k).2 hk)]

theorem sint_accepted (hW : 1 ≤ W) {v : Val} {w w' : Writer}
    (h : (sintCodec native W ctx).write v w = (.ok (), w')) :
    ∃ k : Int, v = .num k ∧ InRange (8 * W) k ∧ Prim.writeSigned native W ctx k w = (.ok (), w') := by
  cases v with
  | num k =>
    simp only [sintCodec] at h
    by_cases hc : -(256 ^ W) ≤ 2 * k ∧ 2 * k < 256 ^ W
    · rw [if_pos hc] at h
      exact ⟨k, rfl, (inRange_width hW k).1 hc, h⟩
    · rw [if_neg hc] at h; simp [M.panic] at h
  | _ => simp [sintCodec, M.panic] at h

/-- A signed integer field that its reader gets back. `hf` says that the value is in the range the reader
can return; it is automatic if the reader extends the sign and no bit order is given. -/
theorem sint_sound {v : Val} (hW : 1 ≤ W) (hs : ctx.sshape native W = (e, n, o)) (h1 : 1 ≤ n) (hn : n ≤ 8 * W)
    (hf : ∀ k, v = .num k → ctx.Accepts W n k → InRange (8 * W) k → ctx.Returns W n k)
    (hc : ∀ p, P p → Prim.Compatible native W ctx p) :
    SoundOn o P (sintCodec native W ctx).read ((sintCodec native W ctx).write v) v (shift P n) := by
  intro p w w' hp hw he
  obtain ⟨k, rfl, hk, he⟩ := sint_accepted hW he
  have ha := Prim.writeSigned_accepts hs h1 hk he
  have hr := hf k rfl ha hk
  have hd := Prim.sshape_dense hs (hc p hp)
  refine ⟨fieldBits e o n (pattern W k), ?_, ?_, p, hp, by rw [Prim.length_fieldBits]⟩
  · rw [sint_write_num hW hk]
    exact Prim.writeSigned_writes hs h1 hn hk ha (hc p hp)
  · have := (sint_delivers hW hs h1 hn).reads (Prim.length_fieldBits e o n (pattern W k)) p
    rw [Prim.fieldValue_fieldBits hd] at this
    have hback : (if ctx.extends then twosComplement n (pattern W k % 2 ^ n % 2 ^ n)
        else twosComplement (8 * W) (pattern W k % 2 ^ n)) = k := by
      unfold IntCtx.Returns at hr
      split at hr
      · rw [if_pos ‹_›, Nat.mod_mod, Prim.twosComplement_pattern h1 hn hr]
      · rw [if_neg ‹_›, Nat.mod_eq_of_lt hr]
        have := Prim.twosComplement_pattern (W := W) (by omega) (Nat.le_refl _) hk
        rwa [Nat.mod_eq_of_lt (by rw [← Prim.pow256]; exact Prim.pattern_lt W k)] at this
    rwa [hback] at this

/-- What is read is written back as the same bits. -/
theorem sint_canon {pk : Bool} (hW : 1 ≤ W) (hs : ctx.sshape native W = (e, n, o)) (h1 : 1 ≤ n)
    (hn : n ≤ 8 * W) (hx : ctx.isBits = false ∨ n = 8 * W ∨ ctx.extends = ctx.noOrder)
    (hc : ∀ p, P p → Prim.Compatible native W ctx p) :
    CanonOn o pk P (sintCodec native W ctx).read (sintCodec native W ctx).write
      (fun v q => (∃ k : Int, v = .num k ∧ InRange (8 * W) k) ∧ shift P n q) := by
  refine (sint_delivers hW hs h1 hn).canonOn fun p bits hp hl => ?_
  have hd := Prim.sshape_dense hs (hc p hp)
  have hlt := Prim.fieldValue_dense_lt (e := e) (o := o) (l := bits) (by rw [hl]; exact hd)
  have hb := Prim.fieldBits_fieldValue (e := e) (o := o) (l := bits) (by rw [hl]; exact hd)
  rw [hl] at hlt hb
  rw [Nat.mod_eq_of_lt hlt]
  have hlt8 : fieldValue e o bits < 2 ^ (8 * W) :=
    Nat.lt_of_lt_of_le hlt (Nat.pow_le_pow_right (by omega) hn)
  generalize hx' : (if ctx.extends then twosComplement n (fieldValue e o bits)
    else twosComplement (8 * W) (fieldValue e o bits)) = x
  have hxr : InRange (8 * W) x := by
    subst hx'
    split
    · exact (Prim.twosComplement_inRange h1 hlt).mono hn
    · exact Prim.twosComplement_inRange (by omega) hlt8
  have hmod : pattern W x % 2 ^ n = fieldValue e o bits := by
    subst hx'
    split
    · exact Prim.pattern_twosComplement hn hlt
    · have := Prim.pattern_twosComplement (Nat.le_refl _) hlt8
      rw [Nat.mod_eq_of_lt (by rw [← Prim.pow256]; exact Prim.pattern_lt W _)] at this
      rw [this, Nat.mod_eq_of_lt hlt]
  have hacc : ctx.Accepts W n x := by
    intro hbits
    rcases hx with h | h | h
    · rw [h] at hbits; simp at hbits
    · subst h
      split
      · exact hxr
      · rw [← Prim.pow256]; exact Prim.pattern_lt W x
    · rw [← h]
      split
      · rename_i hext
        rw [if_pos hext] at hx'
        subst hx'
        exact Prim.twosComplement_inRange h1 hlt
      · rename_i hext
        rw [if_neg hext] at hx'
        subst hx'
        have := Prim.pattern_twosComplement (Nat.le_refl _) hlt8
        rw [Nat.mod_eq_of_lt (by rw [← Prim.pow256]; exact Prim.pattern_lt W _)] at this
        rw [this]; exact hlt
  refine ⟨?_, ⟨x, rfl, hxr⟩, p, hp, rfl⟩
  rw [sint_write_num hW hxr]
  have := Prim.writeSigned_writes hs h1 hn hxr hacc (hc p hp)
  rwa [← Prim.fieldBits_mod hd, hmod, hb] at this

theorem sint_measures (hW : 1 ≤ W) (hs : ctx.sshape native W = (e, n, o)) (h1 : 1 ≤ n) (hn : n ≤ 8 * W) :
    (sintCodec native W ctx).Measures n := by
  refine ⟨(sint_delivers hW hs h1 hn).uses, fun v w u w' hw he => ?_⟩
  obtain ⟨k, rfl, hk, he⟩ := sint_accepted hW he
  have ha := Prim.writeSigned_accepts hs h1 hk he
  obtain ⟨w1, e1, hg⟩ := (Prim.writeSigned_took hs h1 hn hk ha hw.wf hw.healthy).ok hw.healthy
  rw [he] at e1
  simp at e1
  subst e1
  exact ⟨hg.appending hw, n, rfl, hg.len⟩

theorem sint_tracks (hW : 1 ≤ W) (hs : ctx.sshape native W = (e, n, o)) (h1 : 1 ≤ n) (hn : n ≤ 8 * W)
    (v : Val) : Tracks ((sintCodec native W ctx).write v) := by
  intro w u w' hw he
  obtain ⟨k, rfl, hk, he⟩ := sint_accepted hW he
  have ha := Prim.writeSigned_accepts hs h1 hk he
  obtain ⟨w1, e1, hg⟩ := (Prim.writeSigned_took hs h1 hn hk ha hw.wf hw.healthy).ok hw.healthy
  rw [he] at e1
  simp at e1
  subst e1
  exact hw.grew hg

theorem sintCodec_quiet (hW : 1 ≤ W) (h : ctx.SomeBits) {k : Int} (hk : InRange (8 * W) k) :
    Quiet ((sintCodec native W ctx).write (.num k)) := by
  rw [sint_write_num hW hk]
  exact Prim.writeSigned_quiet native W h k

theorem sintCodec_notices {inside : Bool} : Notices inside (sintCodec native W ctx).read := by
  unfold sintCodec; notice [Prim.readSigned_notices]

theorem sintCodec_read_onSrc {ψ : Src → Src} (hψ : ReadsAlike ψ) :
    Commutes (Reader.onSrc ψ) (sintCodec native W ctx).read := by
  unfold sintCodec; commute [Prim.readSigned_onSrc hψ]

theorem sintCodec_write_onSink {ψ : Sink → Sink} (hψ : WritesAlike ψ) (v : Val) :
    Commutes (Writer.onSink ψ) ((sintCodec native W ctx).write v) := by
  unfold sintCodec; commute [Prim.writeSigned_onSink hψ]

end Deku
