import Verif.Spec.Stream
import Verif.Lemmas.Monad
import Verif.Lemmas.Bits

/-! # Reader lemmas: exact behaviour on a healthy source -/

namespace Deku
namespace Reader

/-- Reader after `c` calls that delivered `k` bytes. -/
def adv (c k : Nat) (r : Reader) : Reader :=
  { r with inner := { r.inner with calls := r.inner.calls + c, pos := r.inner.pos + k } }

/-- Bytes not delivered yet. -/
def avail (r : Reader) : List Byte := r.inner.data.drop r.inner.pos

@[simp] theorem adv_leftover (c k : Nat) (r : Reader) : (adv c k r).leftover = r.leftover := rfl
@[simp] theorem adv_bitsRead (c k : Nat) (r : Reader) : (adv c k r).bitsRead = r.bitsRead := rfl
@[simp] theorem adv_data (c k : Nat) (r : Reader) : (adv c k r).inner.data = r.inner.data := rfl
@[simp] theorem adv_pos (c k : Nat) (r : Reader) : (adv c k r).inner.pos = r.inner.pos + k := rfl
@[simp] theorem adv_faults (c k : Nat) (r : Reader) :
    (adv c k r).inner.faults = r.inner.faults := rfl
@[simp] theorem avail_adv (c k : Nat) (r : Reader) : avail (adv c k r) = (avail r).drop k := by
  simp [avail, List.drop_drop]
@[simp] theorem healthy_adv (c k : Nat) (r : Reader) : (adv c k r).Healthy ↔ r.Healthy := Iff.rfl
@[simp] theorem adv_adv (c k c' k' : Nat) (r : Reader) :
    adv c k (adv c' k' r) = adv (c' + c) (k' + k) r := by
  simp [adv, Nat.add_assoc]
@[simp] theorem adv_zero (r : Reader) : adv 0 0 r = r := rfl

theorem ioRead_ok {r : Reader} {n : Nat} (hf : r.Healthy) (h : n ≤ (avail r).length) :
    ioRead n r = (.ok (.ok ((avail r).take n)), adv 1 n r) := by
  simp only [avail, List.length_drop] at h
  simp only [Healthy] at hf
  simp [ioRead, Src.readExact, hf, noFaults, h, adv, avail]

theorem ioRead_eof {r : Reader} {n : Nat} (hf : r.Healthy) (h : ¬ n ≤ (avail r).length) :
    ∃ r', ioRead n r = (.ok (.error .unexpectedEof), r') ∧ r'.inner.data = r.inner.data ∧
      r'.Healthy ∧ r'.bitsRead = r.bitsRead ∧ r'.leftover = r.leftover ∧
      r.inner.pos ≤ r'.inner.pos := by
  simp only [avail, List.length_drop] at h
  simp only [Healthy] at hf
  refine ⟨{ r with inner := { r.inner with calls := r.inner.calls + 1,
                                           pos := max r.inner.pos r.inner.data.length } }, ?_⟩
  simp [ioRead, Src.readExact, hf, noFaults, h, Healthy]
  omega

theorem readSlots_ok {r : Reader} {d k : Nat} (hf : r.Healthy) (h : k ≤ (avail r).length) :
    readSlots d k r = (.ok ((avail r).take k), adv k k r) := by
  induction k generalizing r with
  | zero => simp [readSlots]
  | succ k ih =>
    have h1 := ioRead_ok (n := 1) hf (by omega)
    have h2 : k ≤ (avail (adv 1 1 r)).length := by simp; omega
    have h3 := ih (r := adv 1 1 r) hf h2
    rw [readSlots, M.bind_assoc_run, M.bind_ok h1]
    simp only
    rw [M.pure_bind_run, M.bind_ok h3]
    have h4 : avail r ≠ [] := by intro h0; simp [h0] at h
    obtain ⟨x, xs, hx⟩ := List.exists_cons_of_ne_nil h4
    simp [hx, Nat.add_comm]

theorem readSlots_short {r : Reader} {d k : Nat} (hf : r.Healthy) (h : ¬ k ≤ (avail r).length) :
    ∃ r', readSlots d k r = (.err (.incomplete d), r') ∧ r'.inner.data = r.inner.data ∧
      r'.Healthy ∧ r'.bitsRead = r.bitsRead ∧ r'.leftover = r.leftover := by
  induction k generalizing r with
  | zero => simp at h
  | succ k ih =>
    by_cases h1 : 1 ≤ (avail r).length
    · have h2 := ioRead_ok (n := 1) hf h1
      have h3 : ¬ k ≤ (avail (adv 1 1 r)).length := by simp; omega
      obtain ⟨r', hr, hd⟩ := ih (r := adv 1 1 r) hf h3
      refine ⟨r', ?_, hd⟩
      rw [readSlots, M.bind_assoc_run, M.bind_ok h2]
      simp only
      rw [M.pure_bind_run, M.bind_err hr]
    · obtain ⟨r', hr, hd⟩ := ioRead_eof hf h1
      refine ⟨r', ?_, hd.1, hd.2.1, hd.2.2.1, hd.2.2.2.1⟩
      rw [readSlots, M.bind_assoc_run, M.bind_ok hr]
      rfl

theorem readPartial_ok {r : Reader} {d : Nat} (hf : r.Healthy) {b : Byte} {bs : List Byte}
    (h : avail r = b :: bs) : readPartial d r = (.ok b, adv 1 1 r) := by
  have h1 := ioRead_ok (r := r) (n := 1) hf (by simp [h])
  rw [readPartial, M.bind_ok h1]
  simp [h]

theorem readPartial_short {r : Reader} {d : Nat} (hf : r.Healthy) (h : avail r = []) :
    ∃ r', readPartial d r = (.err (.incomplete d), r') ∧ r'.inner.data = r.inner.data ∧
      r'.Healthy ∧ r'.bitsRead = r.bitsRead ∧ r'.leftover = r.leftover := by
  obtain ⟨r', hr, hd⟩ := ioRead_eof (r := r) (n := 1) hf (by simp [h])
  refine ⟨r', ?_, hd.1, hd.2.1, hd.2.2.1, hd.2.2.2.1⟩
  rw [readPartial, M.bind_ok hr]; rfl

theorem unreadMsb_eq (r : Reader) : r.unreadMsb = leftoverBits r.leftover ++ bytesBits (avail r) :=
  rfl
theorem unreadLsb_eq (r : Reader) :
    r.unreadLsb = (leftoverBits r.leftover).reverse ++ bytesBitsLsb (avail r) := rfl

theorem WF.len_le {r : Reader} (h : r.WF) : (leftoverBits r.leftover).length ≤ 8 := by
  rcases hl : r.leftover with _ | (b | l)
  · simp [leftoverBits]
  · simp [leftoverBits]
  · have := h l hl
    simp [leftoverBits]; omega

theorem Step.refl (o : Order) {r : Reader} (hf : r.Healthy) (hw : r.WF) : Step o 0 r r :=
  ⟨by simp, rfl, rfl, hf, hw, by simp, rfl, id⟩

theorem Step.trans {o : Order} {m n : Nat} {r r' r'' : Reader} (h : Step o m r r')
    (h' : Step o n r' r'') : Step o (m + n) r r'' := by
  refine ⟨?_, ?_, h'.data.trans h.data, h'.healthy, h'.wf, ?_, ?_, ?_⟩
  · rw [h'.unread, h.unread, List.drop_drop]
  · rw [h'.bitsRead, h.bitsRead]; omega
  · intro hc
    by_cases hn : 0 < n
    · exact h'.noPeek (.inr hn)
    · exact h'.noPeek (.inl (h.noPeek (hc.imp id (by omega))))
  · have := h.sync; have := h'.sync; omega
  · intro hb
    have := h'.bound (by rw [h.data]; exact h.bound hb)
    rwa [h.data] at this

/-- What a failing read guarantees. -/
structure Fail (r r' : Reader) : Prop where
  data : r'.inner.data = r.inner.data
  healthy : r'.Healthy
  bitsRead : r'.bitsRead = r.bitsRead
  leftover : r'.leftover = none

theorem take_split {α : Type} (a b : List α) (n : Nat) (h : a.length ≤ n) :
    (a ++ b).take n = a ++ b.take (n - a.length) := by
  rw [List.take_append, List.take_of_length_le h]

theorem drop_split {α : Type} (a b : List α) (n : Nat) (h : a.length ≤ n) :
    (a ++ b).drop n = b.drop (n - a.length) := by
  rw [List.drop_append, List.drop_eq_nil_of_le h, List.nil_append]

theorem Step.mk_some {o : Order} {n : Nat} {r : Reader} {s : Src} {l : List Bool}
    (hd : s.data = r.inner.data) (hh : s.faults = noFaults) (hl : 1 ≤ l.length ∧ l.length ≤ 7)
    (hp : 8 * s.pos + r.rest.length = 8 * r.inner.pos + n + l.length)
    (hb : r.inner.pos ≤ r.inner.data.length → s.pos ≤ r.inner.data.length)
    (hu : ({ inner := s, leftover := some (.bits l), bitsRead := r.bitsRead + n } :
      Reader).unread o = (r.unread o).drop n) :
    Step o n r { inner := s, leftover := some (.bits l), bitsRead := r.bitsRead + n } where
  unread := hu
  bitsRead := rfl
  data := hd
  healthy := hh
  wf := by intro l' h; simp at h; subst h; exact hl
  noPeek := by intro _ b h; simp at h
  sync := by simp [Reader.rest, leftoverBits] at *; omega
  bound := hb

theorem Step.mk_none {o : Order} {n : Nat} {r : Reader} {s : Src}
    (hd : s.data = r.inner.data) (hh : s.faults = noFaults)
    (hp : 8 * s.pos + r.rest.length = 8 * r.inner.pos + n)
    (hb : r.inner.pos ≤ r.inner.data.length → s.pos ≤ r.inner.data.length)
    (hu : ({ inner := s, leftover := none, bitsRead := r.bitsRead + n } :
      Reader).unread o = (r.unread o).drop n) :
    Step o n r { inner := s, leftover := none, bitsRead := r.bitsRead + n } where
  unread := hu
  bitsRead := rfl
  data := hd
  healthy := hh
  wf := by intro l' h; simp at h
  noPeek := by intro _ b h; simp at h
  sync := by simp [Reader.rest, leftoverBits] at *; omega
  bound := hb

theorem readBitsInto_msb {n : Nat} {r : Reader} (hf : r.Healthy) (hw : r.WF) :
    (n ≤ r.unreadMsb.length → ∃ r', readBitsInto n .msb0 r = (.ok (r.unreadMsb.take n), r') ∧
      Step .msb0 n r r') ∧
    (¬ n ≤ r.unreadMsb.length → ∃ r', readBitsInto n .msb0 r = (.err (.incomplete n), r') ∧
      Fail r r') := by
  by_cases hn : n = 0
  · subst hn
    exact ⟨fun _ => ⟨r, by simp [readBitsInto], Step.refl _ hf hw⟩, by simp⟩
  have hlen8 := hw.len_le
  generalize hlo : leftoverBits r.leftover = lo at hlen8
  have hrest : r.rest = lo := by rw [← hlo]; rfl
  have hu : r.unreadMsb = lo ++ bytesBits (avail r) := by rw [unreadMsb_eq, hlo]
  have hf' : ({ r with leftover := none } : Reader).Healthy := hf
  have hav : avail ({ r with leftover := none } : Reader) = avail r := rfl
  rw [hu]
  simp only [readBitsInto, if_neg hn, M.get_bind_run, M.modify_bind_run, hlo]
  by_cases h1 : n < lo.length
  · refine ⟨fun _ => ?_, fun h => absurd h (by simp; omega)⟩
    simp only [if_pos h1, M.modify_bind_run, M.pure_bind_run]
    refine ⟨_, ?_, Step.mk_some (l := lo.drop n) (s := r.inner) rfl hf ?_ ?_ id ?_⟩
    · rw [List.take_append_of_le_length (by omega)]; rfl
    · simp; omega
    · rw [hrest]; simp; omega
    · show lo.drop n ++ bytesBits (avail r) = _
      rw [Reader.unread, hu, List.drop_append_of_le_length (by omega)]
  · simp only [if_neg h1]
    by_cases h2 : n = lo.length
    · refine ⟨fun _ => ?_, fun h => absurd h (by simp; omega)⟩
      simp only [if_pos h2, M.pure_bind_run, M.modify_bind_run]
      refine ⟨_, ?_, Step.mk_none (s := r.inner) rfl hf ?_ id ?_⟩
      · rw [h2, List.take_left]; rfl
      · rw [hrest]; omega
      · show [] ++ bytesBits (avail r) = _
        rw [Reader.unread, hu, h2, List.drop_left]; rfl
    · simp only [if_neg h2]
      have hlt : lo.length < n := by omega
      have hsplit : n - lo.length = 8 * ((n - lo.length) / 8) + (n - lo.length) % 8 := by omega
      have hm8 : (n - lo.length) % 8 < 8 := Nat.mod_lt _ (by omega)
      generalize (n - lo.length) / 8 = q at *
      generalize (n - lo.length) % 8 = m at *
      by_cases h3 : q ≤ (avail r).length
      · have hs := readSlots_ok (d := n) hf' h3
        rw [M.bind_ok hs]
        by_cases h4 : m = 0
        · have h5 : n - lo.length = 8 * q := by omega
          refine ⟨fun _ => ?_, fun h => absurd h (by simp; omega)⟩
          simp only [if_pos h4, M.pure_bind_run, M.modify_bind_run]
          refine ⟨_, ?_, Step.mk_none (s := (adv q q r).inner) rfl hf ?_ ?_ ?_⟩
          · rw [take_split _ _ _ (by omega), h5, take_bytesBits]; rfl
          · simp only [adv, hrest]; omega
          · intro hb
            simp only [avail, List.length_drop] at h3
            simp only [adv]; omega
          · show [] ++ bytesBits (avail (adv _ _ ({ r with leftover := none } : Reader))) = _
            rw [avail_adv, hav, Reader.unread, hu, drop_split _ _ _ (by omega), h5, drop_bytesBits]; rfl
        · rcases hrem : (avail r).drop q with _ | ⟨b, bs⟩
          · have h6 := congrArg List.length hrem
            simp only [List.length_drop, List.length_nil] at h6
            refine ⟨fun h => absurd h (by simp; omega), fun _ => ?_⟩
            obtain ⟨r', hr, hd⟩ := readPartial_short (d := n)
              (r := adv q q { r with leftover := none })
              hf (by rw [avail_adv, hav, hrem])
            simp only [if_neg h4]
            refine ⟨r', by rw [M.bind_err hr], hd.1, hd.2.1, hd.2.2.1, hd.2.2.2⟩
          · have h6 := congrArg List.length hrem
            simp only [List.length_drop, List.length_cons] at h6
            refine ⟨fun _ => ?_, fun h => absurd h (by simp; omega)⟩
            have hp := readPartial_ok (d := n)
              (r := adv q q { r with leftover := none })
              hf (by rw [avail_adv, hav, hrem])
            simp only [if_neg h4]
            rw [M.bind_ok hp]
            simp only [M.modify_bind_run, M.pure_bind_run, adv_adv]
            refine ⟨_, ?_, Step.mk_some (l := (byteBits b).drop m) (s := (adv (q + 1) (q + 1) r).inner) rfl hf
              ?_ ?_ ?_ ?_⟩
            · rw [take_split _ _ _ (by omega)]
              conv => rhs; rw [hsplit, List.take_add, take_bytesBits, drop_bytesBits, hrem,
                bytesBits_cons, List.take_append_of_le_length (by simp; omega)]
              rw [List.append_assoc]; rfl
            · simp; omega
            · simp only [adv, hrest]; simp; omega
            · intro hb
              simp only [avail, List.length_drop] at h6
              simp only [adv]; omega
            · show (byteBits b).drop _ ++
                bytesBits (avail (adv _ _ ({ r with leftover := none } : Reader))) = _
              rw [avail_adv, hav, Reader.unread, hu, drop_split _ _ _ (by omega)]
              conv => rhs; rw [hsplit, ← List.drop_drop, drop_bytesBits, hrem, bytesBits_cons,
                List.drop_append_of_le_length (by simp; omega)]
              rw [← List.drop_drop, hrem]; rfl
      · refine ⟨fun h => absurd h (by simp; omega), fun _ => ?_⟩
        obtain ⟨r', hr, hd⟩ := readSlots_short (d := n) hf' (k := q) h3
        refine ⟨r', by rw [M.bind_err hr], hd.1, hd.2.1, hd.2.2.1, hd.2.2.2⟩

theorem readBitsInto_lsb {n : Nat} {r : Reader} (hf : r.Healthy) (hw : r.WF) :
    (n ≤ r.unreadLsb.length → ∃ r', readBitsInto n .lsb0 r = (.ok (r.unreadLsb.take n).reverse, r') ∧
      Step .lsb0 n r r') ∧
    (¬ n ≤ r.unreadLsb.length → ∃ r', readBitsInto n .lsb0 r = (.err (.incomplete n), r') ∧
      Fail r r') := by
  by_cases hn : n = 0
  · subst hn
    exact ⟨fun _ => ⟨r, by simp [readBitsInto], Step.refl _ hf hw⟩, by simp⟩
  have hlen8 := hw.len_le
  generalize hlo : leftoverBits r.leftover = lo at hlen8
  have hrest : r.rest = lo := by rw [← hlo]; rfl
  have hu : r.unreadLsb = lo.reverse ++ bytesBitsLsb (avail r) := by rw [unreadLsb_eq, hlo]
  have hf' : ({ r with leftover := none } : Reader).Healthy := hf
  have hav : avail ({ r with leftover := none } : Reader) = avail r := rfl
  rw [hu]
  simp only [readBitsInto, if_neg hn, M.get_bind_run, M.modify_bind_run, hlo]
  by_cases h1 : n < lo.length
  · refine ⟨fun _ => ?_, fun h => absurd h (by simp; omega)⟩
    simp only [if_pos h1, M.modify_bind_run, M.pure_bind_run]
    refine ⟨_, ?_, Step.mk_some (l := lo.take (lo.length - n)) (s := r.inner) rfl hf ?_ ?_ id ?_⟩
    · rw [List.take_append_of_le_length (by simp; omega), List.take_reverse, List.reverse_reverse]
      rfl
    · simp; omega
    · rw [hrest]; simp; omega
    · show (lo.take (lo.length - n)).reverse ++ bytesBitsLsb (avail r) = _
      rw [Reader.unread, hu, List.drop_append_of_le_length (by simp; omega), List.drop_reverse]
  · simp only [if_neg h1]
    by_cases h2 : n = lo.length
    · refine ⟨fun _ => ?_, fun h => absurd h (by simp; omega)⟩
      simp only [if_pos h2, M.pure_bind_run, M.modify_bind_run]
      refine ⟨_, ?_, Step.mk_none (s := r.inner) rfl hf ?_ id ?_⟩
      · rw [h2, List.take_left' (by simp), List.reverse_reverse]; rfl
      · rw [hrest]; omega
      · show [].reverse ++ bytesBitsLsb (avail r) = _
        rw [Reader.unread, hu, h2, List.drop_left' (by simp)]; rfl
    · simp only [if_neg h2]
      have hlt : lo.length < n := by omega
      have hsplit : n - lo.length = 8 * ((n - lo.length) / 8) + (n - lo.length) % 8 := by omega
      have hm8 : (n - lo.length) % 8 < 8 := Nat.mod_lt _ (by omega)
      generalize (n - lo.length) / 8 = q at *
      generalize (n - lo.length) % 8 = m at *
      by_cases h3 : q ≤ (avail r).length
      · have hs := readSlots_ok (d := n) hf' h3
        rw [M.bind_ok hs]
        by_cases h4 : m = 0
        · have h5 : n - lo.length = 8 * q := by omega
          refine ⟨fun _ => ?_, fun h => absurd h (by simp; omega)⟩
          simp only [if_pos h4, M.pure_bind_run, M.modify_bind_run]
          refine ⟨_, ?_, Step.mk_none (s := (adv q q r).inner) rfl hf ?_ ?_ ?_⟩
          · rw [take_split _ _ _ (by simp; omega), List.length_reverse, h5, take_bytesBitsLsb,
              bytesBitsLsb_eq]
            simp only [List.reverse_append, List.reverse_reverse]; rfl
          · simp only [adv, hrest]; omega
          · intro hb
            simp only [avail, List.length_drop] at h3
            simp only [adv]; omega
          · show [].reverse ++ bytesBitsLsb (avail (adv _ _ ({ r with leftover := none } : Reader))) = _
            rw [avail_adv, hav, Reader.unread, hu, drop_split _ _ _ (by simp; omega),
              List.length_reverse, h5, drop_bytesBitsLsb]; rfl
        · rcases hrem : (avail r).drop q with _ | ⟨b, bs⟩
          · have h6 := congrArg List.length hrem
            simp only [List.length_drop, List.length_nil] at h6
            refine ⟨fun h => absurd h (by simp; omega), fun _ => ?_⟩
            obtain ⟨r', hr, hd⟩ := readPartial_short (d := n)
              (r := adv q q { r with leftover := none })
              hf (by rw [avail_adv, hav, hrem])
            simp only [if_neg h4]
            refine ⟨r', by rw [M.bind_err hr], hd.1, hd.2.1, hd.2.2.1, hd.2.2.2⟩
          · have h6 := congrArg List.length hrem
            simp only [List.length_drop, List.length_cons] at h6
            refine ⟨fun _ => ?_, fun h => absurd h (by simp; omega)⟩
            have hp := readPartial_ok (d := n)
              (r := adv q q { r with leftover := none })
              hf (by rw [avail_adv, hav, hrem])
            simp only [if_neg h4]
            rw [M.bind_ok hp]
            simp only [M.modify_bind_run, M.pure_bind_run, adv_adv]
            refine ⟨_, ?_, Step.mk_some (l := (byteBits b).take (8 - m)) (s := (adv (q + 1) (q + 1) r).inner) rfl hf
              ?_ ?_ ?_ ?_⟩
            · rw [take_split _ _ _ (by simp; omega), List.length_reverse]
              conv => rhs; rw [hsplit, List.take_add, take_bytesBitsLsb, drop_bytesBitsLsb, hrem,
                bytesBitsLsb_cons, List.take_append_of_le_length (by simp; omega),
                List.take_reverse, length_byteBits, bytesBitsLsb_eq]
              simp only [List.reverse_append, List.reverse_reverse, List.append_assoc]; rfl
            · simp; omega
            · simp only [adv, hrest]; simp; omega
            · intro hb
              simp only [avail, List.length_drop] at h6
              simp only [adv]; omega
            · show ((byteBits b).take _).reverse ++
                bytesBitsLsb (avail (adv _ _ ({ r with leftover := none } : Reader))) = _
              rw [avail_adv, hav, Reader.unread, hu, drop_split _ _ _ (by simp; omega),
                List.length_reverse]
              conv => rhs; rw [hsplit, ← List.drop_drop, drop_bytesBitsLsb, hrem, bytesBitsLsb_cons,
                List.drop_append_of_le_length (by simp; omega), List.drop_reverse, length_byteBits]
              rw [← List.drop_drop, hrem]; rfl
      · refine ⟨fun h => absurd h (by simp; omega), fun _ => ?_⟩
        obtain ⟨r', hr, hd⟩ := readSlots_short (d := n) hf' (k := q) h3
        refine ⟨r', by rw [M.bind_err hr], hd.1, hd.2.1, hd.2.2.1, hd.2.2.2⟩

theorem readBitsInto_ok (o : Order) {n : Nat} {r : Reader} (hf : r.Healthy) (hw : r.WF)
    (h : n ≤ (r.unread o).length) :
    ∃ r', readBitsInto n o r = (.ok (present o ((r.unread o).take n)), r') ∧ Step o n r r' := by
  cases o
  · exact (readBitsInto_msb hf hw).1 h
  · exact (readBitsInto_lsb hf hw).1 h

theorem readBitsInto_short (o : Order) {n : Nat} {r : Reader} (hf : r.Healthy) (hw : r.WF)
    (h : ¬ n ≤ (r.unread o).length) :
    ∃ r', readBitsInto n o r = (.err (.incomplete n), r') ∧ Fail r r' := by
  cases o
  · exact (readBitsInto_msb hf hw).2 h
  · exact (readBitsInto_lsb hf hw).2 h

/-! ### the 64-bit accumulator path -/

theorem ofBits_take (l : List Bool) (n : Nat) (h : n ≤ l.length) :
    ofBits (l.take n) = ofBits l / 2 ^ (l.length - n) := by
  conv => rhs; rw [← List.take_append_drop n l, ofBits_append]
  have h1 := ofBits_lt (l.drop n)
  simp only [List.length_append, List.length_drop, List.length_take] at *
  rw [show min n l.length + (l.length - n) - n = l.length - n by omega,
    Nat.mul_comm, Nat.mul_add_div (Nat.two_pow_pos _), Nat.div_eq_of_lt h1]
  omega

theorem bitsBE_drop (l : List Bool) (n : Nat) :
    bitsBE (l.length - n) (ofBits l) = l.drop n := by
  rw [← drop_bitsBE, bitsBE_ofBits]

theorem uintLoop_ok {amt : Nat} (fuel : Nat) {pre : List Bool} {r : Reader} (hf : r.Healthy)
    (hfuel : amt ≤ pre.length + 8 * fuel) (hav : amt ≤ pre.length + 8 * (avail r).length) :
    ∃ q, uintLoop amt fuel (ofBits pre) pre.length r =
        (.ok (ofBits (pre ++ bytesBits ((avail r).take q)), pre.length + 8 * q), adv q q r) ∧
      amt ≤ pre.length + 8 * q ∧ (pre.length + 8 * q < amt + 8 ∨ q = 0) ∧
      q ≤ (avail r).length := by
  induction fuel generalizing pre r with
  | zero => exact ⟨0, by simp [uintLoop], by omega, .inr rfl, by omega⟩
  | succ fuel ih =>
    rw [uintLoop]
    by_cases h : pre.length < amt
    · rw [if_pos h]
      rcases ha : avail r with _ | ⟨b, bs⟩
      · simp [ha] at hav; omega
      have h1 := ioRead_ok (r := r) (n := 1) hf (by simp [ha])
      rw [ha] at h1
      rw [M.bind_ok h1]
      have e1 : ofBits pre * 256 + b.toNat = ofBits (pre ++ byteBits b) := by
        rw [ofBits_append, ofBits_byteBits]; simp
      have e2 : pre.length + 8 = (pre ++ byteBits b).length := by simp
      simp only [List.take_succ_cons, List.take_zero, List.headD_cons, e1, e2]
      obtain ⟨q, hq, hq1, hq2, hq3⟩ := ih (pre := pre ++ byteBits b) (r := adv 1 1 r) hf
        (by simp; omega) (by simp [ha] at hav ⊢; omega)
      refine ⟨q + 1, ?_, ?_, ?_, ?_⟩
      · rw [hq]
        simp only [avail_adv, ha, List.drop_succ_cons, List.drop_zero, List.take_succ_cons,
          bytesBits_cons, List.append_assoc, adv_adv, List.length_append, length_byteBits,
          Nat.add_comm 1 q]
        congr 3; omega
      · simp at hq1; omega
      · simp at hq1 hq2
        left; omega
      · simp [ha] at hq3 ⊢; omega
    · rw [if_neg h]
      exact ⟨0, by simp, by omega, .inr rfl, by omega⟩

theorem uintLoop_short {amt : Nat} (fuel : Nat) {acc hv : Nat} {r : Reader} (hf : r.Healthy)
    (hfuel : amt ≤ hv + 8 * fuel) (hav : ¬ amt ≤ hv + 8 * (avail r).length) :
    ∃ r', uintLoop amt fuel acc hv r = (.err (.incomplete amt), r') ∧
      r'.inner.data = r.inner.data ∧ r'.Healthy ∧ r'.bitsRead = r.bitsRead ∧
      r'.leftover = r.leftover := by
  induction fuel generalizing acc hv r with
  | zero => omega
  | succ fuel ih =>
    rw [uintLoop, if_pos (by omega)]
    by_cases h1 : 1 ≤ (avail r).length
    · rw [M.bind_ok (ioRead_ok hf h1)]
      have := ih (acc := acc * 256 + (((avail r).take 1).headD 0).toNat) (hv := hv + 8)
        (r := adv 1 1 r) hf (by omega) (by simp; omega)
      exact this
    · obtain ⟨r', hr, hd⟩ := ioRead_eof hf h1
      rw [M.bind_ok hr]
      exact ⟨r', rfl, hd.1, hd.2.1, hd.2.2.1, hd.2.2.2.1⟩

theorem uint_ok {amt : Nat} {r : Reader} (hf : r.Healthy) (hw : r.WF) (h1 : 1 ≤ amt)
    (h64 : amt ≤ 64) (h : amt ≤ r.unreadMsb.length) :
    ∃ r', readBitsUintMsb0 amt r = (.ok (ofBits (r.unreadMsb.take amt)), r') ∧
      Step .msb0 amt r r' := by
  have hlen8 := hw.len_le
  generalize hlo : leftoverBits r.leftover = lo at hlen8
  have hrest : r.rest = lo := by rw [← hlo]; rfl
  have hu : r.unreadMsb = lo ++ bytesBits (avail r) := by rw [unreadMsb_eq, hlo]
  have hav : avail ({ r with leftover := none } : Reader) = avail r := rfl
  rw [hu] at h ⊢
  simp at h
  obtain ⟨q, hq, hq1, hq2, hq3⟩ := uintLoop_ok (amt := amt) amt (pre := lo)
    (r := { r with leftover := none }) hf (by omega) (by rw [hav]; omega)
  rw [hav] at hq hq3
  simp only [readBitsUintMsb0, h1, h64, decide_true, Bool.and_true, M.assert_true_bind_run,
    M.get_bind_run, hlo, M.modify_bind_run]
  rw [M.bind_ok hq]
  have hL : (lo ++ bytesBits ((avail r).take q)).length = lo.length + 8 * q := by
    simp; omega
  have hT : (lo ++ bytesBits (avail r)).take amt = (lo ++ bytesBits ((avail r).take q)).take amt := by
    rw [← take_bytesBits, List.take_append, List.take_append, List.take_take,
      show min (amt - lo.length) (8 * q) = amt - lo.length by omega]
  have hD : (lo ++ bytesBits (avail r)).drop amt =
      (lo ++ bytesBits ((avail r).take q)).drop amt ++ bytesBits ((avail r).drop q) := by
    rw [← List.drop_append_of_le_length (by omega), List.append_assoc, ← bytesBits_append,
      List.take_append_drop]
  have hV : ofBits (lo ++ bytesBits ((avail r).take q)) / 2 ^ (lo.length + 8 * q - amt) % 2 ^ amt =
      ofBits ((lo ++ bytesBits (avail r)).take amt) := by
    rw [hT, ofBits_take _ _ (by omega), hL, Nat.mod_eq_of_lt]
    have := ofBits_lt ((lo ++ bytesBits ((avail r).take q)).take amt)
    rw [ofBits_take _ _ (by omega), hL, List.length_take, hL, Nat.min_eq_left (by omega)] at this
    exact this
  simp only [hV]
  by_cases hz : lo.length + 8 * q - amt = 0
  · simp only [hz, ne_eq, not_true_eq_false, if_false, M.modify_bind_run]
    refine ⟨_, rfl, Step.mk_none (s := (adv q q r).inner) rfl hf ?_ ?_ ?_⟩
    · simp only [adv, hrest]; omega
    · intro hb
      simp only [avail, List.length_drop] at hq3
      simp only [adv]; omega
    · show [] ++ bytesBits (avail (adv q q r)) = _
      rw [Reader.unread, hu, hD, avail_adv,
        List.drop_eq_nil_of_le (as := lo ++ bytesBits ((avail r).take q)) (by omega)]
  · simp only [hz, ne_eq, not_false_eq_true, if_true, M.modify_bind_run]
    refine ⟨_, rfl, Step.mk_some (s := (adv q q r).inner) rfl hf ?_ ?_ ?_ ?_⟩
    · simp; omega
    · simp only [adv, hrest, length_bitsBE]; omega
    · intro hb
      simp only [avail, List.length_drop] at hq3
      simp only [adv]; omega
    · show bitsBE _ _ ++ bytesBits (avail (adv q q r)) = _
      rw [Reader.unread, hu, hD, avail_adv, ← hL, bitsBE_drop _ _]

theorem uint_short {amt : Nat} {r : Reader} (hf : r.Healthy) (h1 : 1 ≤ amt)
    (h64 : amt ≤ 64) (h : ¬ amt ≤ r.unreadMsb.length) :
    ∃ r', readBitsUintMsb0 amt r = (.err (.incomplete amt), r') ∧ Fail r r' := by
  have hav : avail ({ r with leftover := none } : Reader) = avail r := rfl
  rw [unreadMsb_eq] at h
  simp at h
  obtain ⟨r', hr, hd⟩ := uintLoop_short (amt := amt) amt
    (acc := ofBits (leftoverBits r.leftover)) (hv := (leftoverBits r.leftover).length)
    (r := { r with leftover := none }) hf (by omega) (by rw [hav]; omega)
  refine ⟨r', ?_, hd.1, hd.2.1, hd.2.2.1, hd.2.2.2⟩
  simp only [readBitsUintMsb0, h1, h64, decide_true, Bool.and_true, M.assert_true_bind_run,
    M.get_bind_run, M.modify_bind_run]
  rw [M.bind_err hr]

/-! ### byte reads -/

theorem length_unread (o : Order) (r : Reader) :
    (r.unread o).length = r.rest.length + 8 * (avail r).length := by
  cases o <;> simp [Reader.unread, unreadMsb_eq, unreadLsb_eq, Reader.rest]

theorem orderBits_append (o : Order) (a b : List Byte) :
    orderBits o (a ++ b) = orderBits o a ++ orderBits o b := by
  cases o <;> simp [orderBits]

@[simp] theorem length_orderBits (o : Order) (a : List Byte) :
    (orderBits o a).length = 8 * a.length := by
  cases o <;> simp [orderBits]

theorem orderBits_inj (o : Order) {a b : List Byte} (h : orderBits o a = orderBits o b) : a = b := by
  cases o
  · exact bytesBits_inj h
  · exact bytesBitsLsb_inj h

@[simp] theorem take_orderBits (o : Order) (k : Nat) (bs : List Byte) :
    (orderBits o bs).take (8 * k) = orderBits o (bs.take k) := by
  cases o <;> simp [orderBits, take_bytesBits, take_bytesBitsLsb]

@[simp] theorem drop_orderBits (o : Order) (k : Nat) (bs : List Byte) :
    (orderBits o bs).drop (8 * k) = orderBits o (bs.drop k) := by
  cases o <;> simp [orderBits, drop_bytesBits, drop_bytesBitsLsb]

theorem unread_none (o : Order) (r : Reader) (h : r.leftover = none) :
    r.unread o = orderBits o (avail r) := by
  cases o <;> simp [Reader.unread, unreadMsb_eq, unreadLsb_eq, orderBits, h, leftoverBits]

theorem unread_byte (o : Order) (r : Reader) (b : Byte) (h : r.leftover = some (.byte b)) :
    r.unread o = orderBits o (b :: avail r) := by
  cases o <;> simp [Reader.unread, unreadMsb_eq, unreadLsb_eq, orderBits, h, leftoverBits]

/-- Unpacking what `read_bytes` does to a mid-byte bit read. -/
theorem packed (o : Order) (n : Nat) (l : List Bool) (h : l.length = 8 * n) :
    orderBits o (match o with
      | .lsb0 => (packBytes n (present o l)).reverse
      | .msb0 => packBytes n (present o l)) = l := by
  cases o
  · simp only [present, orderBits, packBytes]
    rw [bytesBits_chunks8 _ _ (by omega), List.take_of_length_le (by omega)]
  · simp only [present, orderBits, packBytes]
    rw [bytesBitsLsb_eq, List.reverse_reverse, bytesBits_chunks8 _ _ (by simp; omega),
      List.take_of_length_le (by simp; omega), List.reverse_reverse]

theorem readBytesLeftover_ok (o : Order) {b : Byte} {n : Nat} {r : Reader} (hf : r.Healthy)
    (hl : r.leftover = some (.byte b)) (hn : 1 ≤ n) (h : n ≤ (avail r).length + 1) :
    ∃ r', readBytesLeftover b n r = (.ok ((b :: avail r).take n), r') ∧ Step o (8 * n) r r' := by
  obtain ⟨m, rfl⟩ : ∃ m, n = m + 1 := ⟨n - 1, by omega⟩
  have hrest : r.rest.length = 8 := by simp [Reader.rest, hl, leftoverBits]
  simp only [readBytesLeftover, Nat.add_one_ne_zero, if_false, M.modify_bind_run,
    Nat.add_sub_cancel]
  by_cases hm : m = 0
  · subst hm
    simp only [if_true, M.modify_bind_run]
    refine ⟨{ r with leftover := none, bitsRead := r.bitsRead + 8 * 1 }, by simp,
      Step.mk_none rfl hf (by omega) id ?_⟩
    show Reader.unread o { r with leftover := none, bitsRead := r.bitsRead + 8 * 1 } = _
    rw [unread_none _ _ rfl, unread_byte _ _ _ hl, drop_orderBits]; rfl
  · have h1 := ioRead_ok (r := { r with leftover := none }) (n := m) hf
      (show m ≤ (avail r).length by omega)
    rw [if_neg hm, M.bind_ok h1]
    simp only [M.modify_bind_run]
    refine ⟨{ (adv 1 m { r with leftover := none }) with bitsRead := r.bitsRead + 8 * (m + 1) },
      ?_, Step.mk_none (s := (adv 1 m r).inner) rfl hf ?_ ?_ ?_⟩
    · simp [Nat.mul_comm]; rfl
    · simp only [adv]; omega
    · intro hb
      simp only [avail, List.length_drop] at h
      simp only [adv]; omega
    · show Reader.unread o { (adv 1 m { r with leftover := none }) with
        bitsRead := r.bitsRead + 8 * (m + 1) } = _
      rw [unread_none _ _ rfl, unread_byte _ _ _ hl, drop_orderBits]
      congr 1
      show avail (adv 1 m r) = _
      rw [avail_adv]; rfl

theorem readBytesLeftover_short {b : Byte} {n : Nat} {r : Reader} (hf : r.Healthy)
    (h : ¬ n ≤ (avail r).length + 1) :
    ∃ r', readBytesLeftover b n r = (.err (.incomplete ((n - 1) * 8)), r') ∧ Fail r r' := by
  simp only [readBytesLeftover, if_neg (show ¬ n = 0 by omega), M.modify_bind_run,
    if_neg (show ¬ n - 1 = 0 by omega)]
  obtain ⟨r', hr, hd⟩ := ioRead_eof (r := { r with leftover := none }) (n := n - 1) hf
    (show ¬ n - 1 ≤ (avail r).length by omega)
  rw [M.bind_ok hr]
  exact ⟨r', rfl, hd.1, hd.2.1, hd.2.2.1, hd.2.2.2.1⟩

/-- The byte-read entry points on a source that has enough data. `n = 0` on a peeked byte is
excluded: there the code panics. -/
theorem readBytes_ok (o : Order) {n : Nat} {r : Reader} (hf : r.Healthy) (hw : r.WF)
    (hp : r.NoPeek ∨ 0 < n) (h : 8 * n ≤ (r.unread o).length) :
    ∃ bs r', readBytes n o r = (.ok bs, r') ∧ orderBits o bs = (r.unread o).take (8 * n) ∧
      Step o (8 * n) r r' := by
  rcases hl : r.leftover with _ | (b | l)
  · have hav : n ≤ (avail r).length := by
      rw [unread_none _ _ hl] at h; simp at h; omega
    have h1 := ioRead_ok hf hav
    have hrest : r.rest = [] := by simp [Reader.rest, hl, leftoverBits]
    refine ⟨(avail r).take n, { (adv 1 n r) with bitsRead := r.bitsRead + 8 * n }, ?_, ?_, ?_⟩
    · simp only [readBytes, M.get_bind_run, hl]
      rw [M.bind_ok h1]
      simp [Nat.mul_comm]
    · rw [unread_none _ _ hl]; simp
    · have : ({ (adv 1 n r) with bitsRead := r.bitsRead + 8 * n } : Reader) =
        { inner := (adv 1 n r).inner, leftover := none, bitsRead := r.bitsRead + 8 * n } := by
        simp [adv, hl]
      rw [this]
      refine Step.mk_none rfl hf ?_ ?_ ?_
      · simp [adv, hrest]; omega
      · intro hb
        simp only [avail, List.length_drop] at hav
        simp only [adv]; omega
      · rw [unread_none _ _ rfl, unread_none _ _ hl, drop_orderBits]
        congr 1
        show avail (adv 1 n r) = _
        rw [avail_adv]
  · have hn : 0 < n := by
      rcases hp with hp | hp
      · exact absurd hl (hp b)
      · exact hp
    rw [unread_byte _ _ _ hl] at h ⊢
    obtain ⟨r', hr, hs⟩ := readBytesLeftover_ok o hf hl hn (by simp at h; omega)
    refine ⟨(b :: avail r).take n, r', ?_, ?_, hs⟩
    · simp only [readBytes, M.get_bind_run, hl]; exact hr
    · rw [take_orderBits]
  · obtain ⟨r', hr, hs⟩ := readBitsInto_ok o (n := n * 8) hf hw (by omega)
    rw [Nat.mul_comm n 8] at hr hs
    refine ⟨_, r', ?_, packed o n _ ?_, hs⟩
    · simp only [readBytes, M.get_bind_run, hl]
      rw [Nat.mul_comm n 8, M.bind_ok hr]
      cases o <;> rfl
    · simp; omega

theorem readBytes_short (o : Order) {n : Nat} {r : Reader} (hf : r.Healthy) (hw : r.WF)
    (h : ¬ 8 * n ≤ (r.unread o).length) :
    ∃ k r', readBytes n o r = (.err (.incomplete k), r') ∧
      (r.NoPeek → k = 8 * n) ∧ (¬ r.NoPeek → k = 8 * (n - 1)) ∧
      r'.inner.data = r.inner.data ∧ r'.Healthy ∧ r'.bitsRead = r.bitsRead ∧
      r'.leftover = none := by
  rcases hl : r.leftover with _ | (b | l)
  · have hav : ¬ n ≤ (avail r).length := by
      rw [unread_none _ _ hl] at h; simp at h; omega
    obtain ⟨r', hr, hd⟩ := ioRead_eof hf hav
    refine ⟨8 * n, r', ?_, fun _ => rfl, fun hn => absurd ?_ hn, hd.1, hd.2.1, hd.2.2.1, ?_⟩
    · simp only [readBytes, M.get_bind_run, hl]
      rw [M.bind_ok hr, Nat.mul_comm]; rfl
    · intro b hb; simp [hl] at hb
    · rw [hd.2.2.2.1, hl]
  · rw [unread_byte _ _ _ hl] at h
    obtain ⟨r', hr, hs⟩ := readBytesLeftover_short (b := b) (n := n) hf (by simp at h; omega)
    refine ⟨8 * (n - 1), r', ?_, fun hn => absurd hl (hn b), fun _ => rfl, hs.data, hs.healthy,
      hs.bitsRead, hs.leftover⟩
    simp only [readBytes, M.get_bind_run, hl]
    rw [Nat.mul_comm 8]; exact hr
  · obtain ⟨r', hr, hs⟩ := readBitsInto_short o (n := n * 8) hf hw (by omega)
    refine ⟨8 * n, r', ?_, fun _ => rfl, fun hn => absurd ?_ hn, hs.data, hs.healthy, hs.bitsRead,
      hs.leftover⟩
    · simp only [readBytes, M.get_bind_run, hl]
      rw [M.bind_err hr, Nat.mul_comm]
    · intro b hb; simp [hl] at hb

theorem readBytesConst_eq : readBytesConst = readBytes := rfl
theorem readBytesConstInto_eq : readBytesConstInto = readBytes := rfl

/-! ### end and skip -/

theorem end_spec {r : Reader} (hf : r.Healthy) :
    ∃ r', «end» r = (.ok (decide (r.unreadMsb = [] ∧ r.leftover = none)), r') ∧ r'.Healthy ∧
      r'.inner.data = r.inner.data ∧ r'.bitsRead = r.bitsRead ∧
      (∀ o, r'.unread o = r.unread o) ∧ (r.WF → r'.WF) ∧
      (8 * r'.inner.pos + r.rest.length = 8 * r.inner.pos + r'.rest.length ∨
        (r.unreadMsb = [] ∧ r'.leftover = none)) ∧
      (r.inner.pos ≤ r.inner.data.length →
        8 * r'.inner.pos + r.rest.length = 8 * r.inner.pos + r'.rest.length ∧
        r'.inner.pos ≤ r.inner.data.length) ∧
      (r.leftover = none → r.unreadMsb ≠ [] → ∃ b, r'.leftover = some (.byte b)) ∧
      (r.leftover ≠ none → r' = r) := by
  simp only [«end», M.get_bind_run]
  rcases hl : r.leftover with _ | lo
  · simp only [Option.isSome_none, Bool.false_eq_true, if_false]
    have hu : r.unreadMsb = bytesBits (avail r) := by simp [unreadMsb_eq, hl, leftoverBits]
    rcases ha : avail r with _ | ⟨b, bs⟩
    · have hlen : r.inner.data.length ≤ r.inner.pos := by
        have := congrArg List.length ha; simp [avail] at this; omega
      obtain ⟨r', hr, hd⟩ := ioRead_eof (r := r) (n := 1) hf (by simp [ha])
      have hpos := hd.2.2.2.2
      have ha' : avail r' = [] := by
        rw [avail, hd.1, List.drop_eq_nil_of_le (by omega)]
      have hl' : r'.leftover = none := by rw [hd.2.2.2.1, hl]
      have hrs : r'.rest = r.rest := by simp [Reader.rest, hl', hl]
      rw [M.bind_ok hr]
      refine ⟨r', ?_, hd.2.1, hd.1, hd.2.2.1, ?_, ?_, ?_, ?_, ?_, by simp⟩
      · simp [hu, ha]
      · intro o; rw [unread_none _ _ hl', unread_none _ _ hl, ha, ha']
      · intro _ l h; simp [hl'] at h
      · exact .inr ⟨by simp [hu, ha], hl'⟩
      · intro hb
        rw [ioRead] at hr
        have hp' : r'.inner.pos = r.inner.pos := by
          simp only [Src.readExact, show r.inner.faults = noFaults from hf, noFaults] at hr
          rw [if_neg (by omega)] at hr
          simp at hr
          rw [← hr]; simp; omega
        rw [hrs, hp']; exact ⟨rfl, hb⟩
      · simp [hu, ha]
    · have h1 := ioRead_ok (r := r) (n := 1) hf (by simp [ha])
      rw [ha] at h1
      rw [M.bind_ok h1]
      have hr : ({ adv 1 1 r with leftover := some (.byte b) } : Reader).rest.length = 8 := by
        simp [Reader.rest, leftoverBits]
      have hr0 : r.rest.length = 0 := by simp [Reader.rest, hl, leftoverBits]
      refine ⟨{ adv 1 1 r with leftover := some (.byte b) }, ?_, hf, rfl, rfl, ?_, ?_, ?_, ?_, ?_, by simp⟩
      · have : r.unreadMsb ≠ [] := by
          rw [hu, ha]; intro h
          have := congrArg List.length h; simp at this
        simp [this]
      · intro o
        rw [unread_byte o _ b rfl, unread_none o r hl]
        congr 1
        show b :: avail (adv 1 1 r) = _
        rw [avail_adv, ha]; rfl
      · intro _ l h; simp at h
      · left; rw [hr, hr0]; simp only [adv_pos]; omega
      · intro hb
        have : 1 ≤ (avail r).length := by simp [ha]
        simp only [avail, List.length_drop] at this
        rw [hr, hr0]; simp only [adv_pos]; omega
      · intro _ _; exact ⟨b, rfl⟩
  · simp only [Option.isSome_some, if_true, M.pure_run]
    refine ⟨r, by simp, hf, rfl, rfl, fun _ => rfl, id, .inl rfl, fun h => ⟨rfl, h⟩, by simp, fun _ => rfl⟩

theorem seek_current_ok {r : Reader} {k : Nat} (hf : r.Healthy) :
    seek (.current k) r = (.ok (.ok (r.inner.pos + k)),
      { (adv 1 k r) with leftover := none, bitsRead := (r.inner.pos + k) * 8 }) := by
  simp only [Healthy] at hf
  have : ¬ ((r.inner.pos : Int) + (k : Int) < 0) := by omega
  have h2 : ((r.inner.pos : Int) + (k : Int)).toNat = r.inner.pos + k := by omega
  simp [seek, Src.seek, hf, noFaults, Src.seekTarget, this, h2, adv]

/-- What a skip guarantees: like a read, except for the counter. -/
structure Skip (o : Order) (n : Nat) (r r' : Reader) : Prop where
  unread : r'.unread o = (r.unread o).drop n
  data : r'.inner.data = r.inner.data
  healthy : r'.Healthy
  wf : r'.WF
  noPeek : r'.NoPeek
  pos : 8 * r'.inner.pos + r.rest.length = 8 * r.inner.pos + n + r'.rest.length
  bound : r.inner.pos ≤ r.inner.data.length → r'.inner.pos ≤ r.inner.data.length

theorem Step.skip {o : Order} {n : Nat} {r r' : Reader} (h : Step o n r r') (hp : r.NoPeek) :
    Skip o n r r' :=
  ⟨h.unread, h.data, h.healthy, h.wf, h.noPeek (.inl hp),
    by have := h.sync; have := h.bitsRead; omega, h.bound⟩

theorem Skip.trans {o : Order} {m n : Nat} {r r' r'' : Reader} (h : Skip o m r r')
    (h' : Skip o n r' r'') : Skip o (m + n) r r'' := by
  refine ⟨?_, h'.data.trans h.data, h'.healthy, h'.wf, h'.noPeek, ?_, ?_⟩
  · rw [h'.unread, h.unread, List.drop_drop]
  · have := h.pos; have := h'.pos; omega
  · intro hb
    have := h'.bound (by rw [h.data]; exact h.bound hb)
    rwa [h.data] at this

theorem Skip.toStep {o : Order} {n : Nat} {r r' : Reader} (h : Skip o n r r')
    (hb : r'.bitsRead = r.bitsRead + n) : Step o n r r' :=
  ⟨h.unread, hb, h.data, h.healthy, h.wf, fun _ => h.noPeek, by have := h.pos; omega, h.bound⟩

/-- The part of `skip_bits` after the pending bits are drained. -/
def skipTail (amt : Nat) (order : Order) : M Reader Unit := do
  if amt / 8 ≠ 0 then
    let r ← M.get
    M.assert (decide (r.bitsRead % 8 = 0))
    match ← seek (.current (amt / 8 : Nat)) with
    | .error e => M.throw (.io e)
    | .ok _ => pure ()
  let _ ← readBitsInto (amt % 8) order
  pure ()

theorem skipBits_bits {n : Nat} {o : Order} {r : Reader} {l : List Bool}
    (hl : r.leftover = some (.bits l)) :
    skipBits n o r = (readBitsInto (min n l.length) o >>= fun _ =>
      skipTail (n - min n l.length) o) r := by
  simp only [skipBits, M.get_bind_run, hl]
  rfl

theorem skipBits_other {n : Nat} {o : Order} {r : Reader}
    (hl : ∀ l, r.leftover ≠ some (.bits l)) : skipBits n o r = skipTail n o r := by
  simp only [skipBits, M.get_bind_run]
  rcases h : r.leftover with _ | (b | l)
  · rfl
  · rfl
  · exact absurd h (hl l)

/-- The whole-byte and trailing part on an aligned reader. -/
theorem skipTail_none {p0 n : Nat} {o : Order} {r : Reader} (hf : r.Healthy) (hl : r.leftover = none)
    (hs : r.Synced p0) :
    (n ≤ (r.unread o).length → ∃ r', skipTail n o r = (.ok (), r') ∧ Skip o n r r' ∧
      r'.bitsRead = (if 8 ≤ n then 8 * p0 else 0) + r.bitsRead + n) ∧
    (¬ n ≤ (r.unread o).length → n % 8 ≠ 0 →
      ∃ r', skipTail n o r = (.err (.incomplete (n % 8)), r')) ∧
    (¬ n ≤ (r.unread o).length → n % 8 = 0 → ∃ r', skipTail n o r = (.ok (), r') ∧
      r'.unread o = [] ∧ r'.Healthy ∧ r'.inner.data = r.inner.data ∧
      8 * r'.inner.pos = 8 * r.inner.pos + n ∧ r'.leftover = none ∧
      r'.bitsRead = 8 * p0 + r.bitsRead + n) := by
  have hrest : r.rest = [] := by simp [Reader.rest, hl, leftoverBits]
  have hw : r.WF := by intro l h; simp [hl] at h
  have hnp : r.NoPeek := by intro l h; simp [hl] at h
  simp only [Synced, hrest, List.length_nil, Nat.add_zero] at hs
  have hlen : (r.unread o).length = 8 * (avail r).length := by rw [length_unread, hrest]; simp
  by_cases h8 : n / 8 = 0
  · have hn : n % 8 = n := by omega
    have hlt : n < 8 := by omega
    simp only [skipTail, h8, ne_eq, not_true_eq_false, if_false, hn]
    refine ⟨fun h => ?_, fun h _ => ?_, fun h h0 => ?_⟩
    · obtain ⟨r', hr, hst⟩ := readBitsInto_ok o hf hw h
      refine ⟨r', by rw [M.bind_ok hr]; rfl, hst.skip hnp, ?_⟩
      rw [if_neg (by omega), hst.bitsRead]; omega
    · obtain ⟨r', hr, _⟩ := readBitsInto_short o hf hw h
      exact ⟨r', by rw [M.bind_err hr]⟩
    · omega
  · have hbr : r.bitsRead % 8 = 0 := by omega
    have hsk := seek_current_ok (r := r) (k := n / 8) hf
    let r1 : Reader := { inner := (adv 1 (n / 8) r).inner, leftover := none, bitsRead := (r.inner.pos + n / 8) * 8 }
    have hrun : skipTail n o r = (readBitsInto (n % 8) o >>= fun _ => pure ()) r1 := by
      simp only [skipTail, ne_eq, h8, not_false_eq_true, if_true, M.get_bind_run, hbr, decide_true,
        M.assert_true_bind_run]
      rw [M.bind_ok hsk]
    have hf1 : r1.Healthy := hf
    have hw1 : r1.WF := by intro l h; simp [r1] at h
    have hl1 : r1.leftover = none := rfl
    have hb1 : r1.bitsRead = (r.inner.pos + n / 8) * 8 := rfl
    have hd1 : r1.inner.data = r.inner.data := rfl
    have hp1 : r1.inner.pos = r.inner.pos + n / 8 := rfl
    have hu1 : r1.unread o = (r.unread o).drop (8 * (n / 8)) := by
      rw [unread_none _ _ hl, unread_none _ _ hl1, drop_orderBits, ← avail_adv 1 (n / 8) r]
      rfl
    refine ⟨fun h => ?_, fun h h0 => ?_, fun h h0 => ?_⟩
    · obtain ⟨r', hr, hst⟩ := readBitsInto_ok o (n := n % 8) hf1 hw1
        (by rw [hu1, List.length_drop]; omega)
      refine ⟨r', by rw [hrun, M.bind_ok hr]; rfl, ?_, ?_⟩
      · have hsk : Skip o (8 * (n / 8)) r r1 := by
          refine ⟨hu1, rfl, hf, hw1, ?_, ?_, ?_⟩
          · intro b h; simp [r1] at h
          · rw [hrest, hp1]; simp [Reader.rest, hl1, leftoverBits]; omega
          · intro hb
            rw [hp1]
            rw [hlen] at h
            simp only [avail, List.length_drop] at h
            omega
        have := hsk.trans (hst.skip hsk.noPeek)
        rwa [show 8 * (n / 8) + n % 8 = n by omega] at this
      · rw [if_pos (by omega), hst.bitsRead, hb1]; omega
    · obtain ⟨r', hr, _⟩ := readBitsInto_short o (n := n % 8) hf1 hw1
        (by rw [hu1, List.length_drop]; omega)
      exact ⟨r', by rw [hrun, M.bind_err hr]⟩
    · refine ⟨r1, ?_, ?_, hf1, rfl, ?_, rfl, ?_⟩
      · rw [hrun, h0]
        simp [readBitsInto]
      · rw [hu1]; apply List.drop_eq_nil_of_le; omega
      · rw [hp1]; omega
      · rw [hb1]; omega

theorem skip_ok {p0 n : Nat} {o : Order} {r : Reader} (hf : r.Healthy) (hw : r.WF)
    (hp : r.NoPeek) (hs : r.Synced p0) (h : n ≤ (r.unread o).length) :
    ∃ r', skipBits n o r = (.ok (), r') ∧ Skip o n r r' ∧
      r'.bitsRead = (if r.rest.length + 8 ≤ n then 8 * p0 else 0) + r.bitsRead + n := by
  rcases hl : r.leftover with _ | (b | l)
  · have hrest : r.rest = [] := by simp [Reader.rest, hl, leftoverBits]
    obtain ⟨r', hr, h1, h2⟩ := (skipTail_none (n := n) (o := o) hf hl hs).1 h
    refine ⟨r', ?_, h1, ?_⟩
    · rw [skipBits_other (by simp [hl]), hr]
    · rw [h2, hrest]; simp
  · exact absurd hl (hp b)
  · have hrest : r.rest = l := by simp [Reader.rest, hl, leftoverBits]
    have hlen := length_unread o r
    rw [hrest] at hlen
    have hwl := hw l hl
    obtain ⟨r1, hr1, hst⟩ := readBitsInto_ok o (n := min n l.length) hf hw (by omega)
    rw [skipBits_bits hl, M.bind_ok hr1]
    have hsync := hst.sync
    have hbr := hst.bitsRead
    rw [hrest] at hsync
    by_cases hlt : n < l.length
    · rw [show n - min n l.length = 0 by omega]
      refine ⟨r1, by simp [skipTail, readBitsInto], ?_, ?_⟩
      · rw [Nat.min_eq_left (by omega)] at hst
        exact hst.skip hp
      · rw [if_neg (by omega), hbr]; omega
    · rw [Nat.min_eq_right (by omega)] at hst hbr ⊢
      have hwf1 := hst.wf
      have hl1 : r1.leftover = none := by
        rcases hl1 : r1.leftover with _ | (b1 | l1)
        · rfl
        · exact absurd hl1 (hst.noPeek (.inl hp) b1)
        · exfalso
          have h7 := hwf1 l1 hl1
          have : r1.rest = l1 := by simp [Reader.rest, hl1, leftoverBits]
          rw [this] at hsync
          omega
      have hs1 : r1.Synced p0 := by
        simp only [Synced] at hs ⊢
        rw [hrest] at hs
        omega
      obtain ⟨r', hr, h1, h2⟩ := (skipTail_none (n := n - l.length) (o := o) hst.healthy hl1 hs1).1
        (by rw [hst.unread, List.length_drop]; omega)
      refine ⟨r', hr, ?_, ?_⟩
      · have := (hst.skip hp).trans h1
        rwa [show l.length + (n - l.length) = n by omega] at this
      · rw [h2, hrest, hbr]
        by_cases hc : l.length + 8 ≤ n
        · rw [if_pos (by omega), if_pos hc]; omega
        · rw [if_neg (by omega), if_neg hc]; omega

/-- On a reader that started at position 0 of its source a skip is a read. -/
theorem skip_step {n : Nat} {o : Order} {r : Reader} (hf : r.Healthy) (hw : r.WF)
    (hp : r.NoPeek) (hs : r.Synced 0) (h : n ≤ (r.unread o).length) :
    ∃ r', skipBits n o r = (.ok (), r') ∧ Step o n r r' := by
  obtain ⟨r', hr, h1, h2⟩ := skip_ok hf hw hp hs h
  exact ⟨r', hr, h1.toStep (by rw [h2]; simp)⟩

theorem Step.synced {o : Order} {n p0 : Nat} {r r' : Reader} (h : Step o n r r')
    (hs : r.Synced p0) : r'.Synced p0 := by
  simp only [Synced] at *
  have := h.sync
  omega

end Reader
end Deku
