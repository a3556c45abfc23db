import Verif.Spec.Emit

namespace Deku.Emit

/-! ## Changing one attribute -/

def Written.set (f : Written) (a : Attr) (x : Option a.Content) : Written := fun b =>
  if h : b = a then h ▸ x else f b

theorem Written.set_same (f : Written) (a : Attr) (x : Option a.Content) : f.set a x a = x := by
  simp [Written.set]

theorem Written.set_ne (f : Written) (a : Attr) (x : Option a.Content) (b : Attr) (h : b ≠ a) : f.set a x b = f b := by
  simp [Written.set, h]

/-- Only whether an attribute is there matters to the macro when it accepts or refuses. -/
theorem Written.accepted_congr (f g : Written) (h : ∀ a, (g a).isSome = (f a).isSome) : g.accepted = f.accepted := by
  have n : ∀ a, (g a).isNone = (f a).isNone := fun a => by
    have := h a
    cases hg : g a <;> cases hf : f a <;> simp_all
  simp only [Written.accepted, Written.seeks, h, n]
  rfl

theorem Written.accepted_set (f : Written) (a : Attr) (x : a.Content) (h : Has f a) (hf : f.accepted = true) :
    (f.set a (some x)).accepted = true := by
  rw [Written.accepted_congr f _ fun b => ?_, hf]
  by_cases hb : b = a
  · subst hb; rw [Written.set_same]; simpa [Has] using h.symm
  · rw [Written.set_ne _ _ _ _ hb]

theorem exists_ne (c : String) : ∃ c', c' ≠ c :=
  if h : c = "" then ⟨"x", by rw [h]; decide⟩ else ⟨"", fun e => h e.symm⟩

/-- An idle attribute may be given another text. -/
theorem Idle.change {α : Type} {code : Written → α} {a : Attr} {f : Written} (h : Idle code a f) (hf : f.accepted = true)
    (ha : Has f a) (x : a.Content) : code (f.set a (some x)) = code f :=
  h _ (f.accepted_set a x ha hf) (f.set_ne a _)

/-! ## The arguments -/

theorem argsOf_inj (s : Site) (f g : Written) (h : argsOf s g = argsOf s f) :
    (g .endian).or s.endian = (f .endian).or s.endian ∧ g .bits = f .bits ∧ g .bytes = f .bytes ∧
      orderOf s g = orderOf s f ∧ g .ctx = f .ctx := by
  have get : ∀ (e b y o c : Option String),
      let l := [e.map ArgCode.endian, b.map ArgCode.bits, y.map ArgCode.bytes, o.map ArgCode.order,
        c.map ArgCode.ctx].filterMap id
      (l.findSome? fun | .endian e => some e | _ => none) = e ∧
      (l.findSome? fun | .bits e => some e | _ => none) = b ∧
      (l.findSome? fun | .bytes e => some e | _ => none) = y ∧
      (l.findSome? fun | .order e => some e | _ => none) = o ∧
      (l.findSome? fun | .ctx e => some e | _ => none) = c := by
    intro e b y o c
    cases e <;> cases b <;> cases y <;> cases o <;> cases c <;> exact ⟨rfl, rfl, rfl, rfl, rfl⟩
  have hg := get ((g .endian).or s.endian) (g .bits) (g .bytes) (orderOf s g) (g .ctx)
  have hf := get ((f .endian).or s.endian) (f .bits) (f .bytes) (orderOf s f) (f .ctx)
  change argsOf s g = argsOf s f at h
  unfold argsOf at h
  simp only [h] at hg
  simp only at hf
  exact ⟨hg.1.symm.trans hf.1, hg.2.1.symm.trans hf.2.1, hg.2.2.1.symm.trans hf.2.2.1,
    hg.2.2.2.1.symm.trans hf.2.2.2.1, hg.2.2.2.2.symm.trans hf.2.2.2.2⟩

/-! ## Which parts of the attributes the parts of the code depend on -/

section
variable (s : Site) (f g : Written)

theorem bodyOf_eq (hs : g .skip = f .skip) (hc : g .cond = f .cond) (hd : g .default = f .default) :
    bodyOf s g = bodyOf s f ↔ NeverRead f ∨ valueOf s g = valueOf s f := by
  simp only [bodyOf, NeverRead, Has, hs, hc, hd]
  rcases f .skip with _ | (_ | _ | _) <;> rcases f .cond with _ | c <;> simp

theorem valueOf_eq : valueOf s g = valueOf s f ↔ fetchOf s g = fetchOf s f ∧ g .map = f .map := by
  simp [valueOf]

/-- The attributes that choose the way a value is read. -/
theorem fetchOf_eq (h : ∀ b ∈ [Attr.reader, .count, .bytesRead, .until, .readAll, .bitsRead], g b = f b) :
    fetchOf s g = fetchOf s f ↔ Has f .reader ∨ (s.vecU8 = true ∧ Has f .count) ∨ argsOf s g = argsOf s f := by
  have h1 := h .reader (by simp)
  have h2 := h .count (by simp)
  have h3 := h .bytesRead (by simp)
  have h4 := h .until (by simp)
  have h5 := h .readAll (by simp)
  have h6 := h .bitsRead (by simp)
  simp only [fetchOf, Has, h1, h2, h3, h4, h5, h6]
  rcases f .reader with _ | e
  · rcases f .count with _ | e
    · rcases f .bytesRead with _ | e
      · rcases f .until with _ | e
        · rcases f .readAll with _ | e
          · rcases f .bitsRead with _ | e <;> simp
          · simp
        · simp
      · simp
    · cases s.vecU8 <;> simp
  · simp

theorem wbodyOf_eq (hs : g .skip = f .skip) (hc : g .cond = f .cond) :
    wbodyOf s g = wbodyOf s f ↔ NeverWritten f ∨ (declOf g = declOf f ∧ putOf s g = putOf s f) := by
  simp only [wbodyOf, NeverWritten, Has, hs, hc]
  rcases f .skip with _ | (_ | _ | _) <;> rcases f .cond with _ | c <;> simp

theorem putOf_eq (h : ∀ b ∈ [Attr.writer, .temp, .tempValue], g b = f b) :
    putOf s g = putOf s f ↔ Has f .writer ∨ (Has f .temp ∧ ¬ Has f .tempValue) ∨ argsOf s g = argsOf s f := by
  have h1 := h .writer (by simp)
  have h2 := h .temp (by simp)
  have h3 := h .tempValue (by simp)
  simp only [putOf, Has, h1, h2, h3]
  rcases f .writer with _ | e
  · rcases f .temp with _ | e
    · simp
    · rcases f .tempValue with _ | e <;> simp
  · simp

theorem padCode_order (bits bytes o o' : Option String) :
    padCode bits bytes o' = padCode bits bytes o ↔ (bits.isSome = false ∧ bytes.isSome = false) ∨ o' = o := by
  cases bits <;> cases bytes <;> simp [padCode]

end

/-! ## The proof of a line of the tables -/

/-- An attribute is idle under a condition if the condition suffices for any change and is necessary for one. -/
theorem idle_iff {α : Type} {code : Written → α} {a : Attr} {f : Written} {P : Prop} (x : Option a.Content)
    (hx : (f.set a x).accepted = true)
    (suff : ∀ g : Written, g.accepted = true → (∀ b, b ≠ a → g b = f b) → P → code g = code f)
    (nec : ∀ g : Written, g.accepted = true → (∀ b, b ≠ a → g b = f b) → g a = x → code g = code f → P) :
    Idle code a f ↔ P :=
  ⟨fun h => nec _ hx (f.set_ne a x) (f.set_same a x) (h _ hx (f.set_ne a x)), fun p g hg e => suff g hg e p⟩

/-- The same for the attributes with a text. -/
theorem idle_text {α : Type} {code : Written → α} {a : Attr} {f : Written} {P : Prop}
    (other : ∀ c : a.Content, ∃ c', c' ≠ c) (hf : f.accepted = true) (ha : Has f a)
    (suff : ∀ g : Written, g.accepted = true → (∀ b, b ≠ a → g b = f b) → P → code g = code f)
    (nec : ∀ g : Written, (∀ b, b ≠ a → g b = f b) → g a ≠ f a → Has g a → code g = code f → P) :
    Idle code a f ↔ P := by
  obtain ⟨c, hfa⟩ := Option.isSome_iff_exists.mp ha
  obtain ⟨c', hne⟩ := other c
  refine idle_iff (some c') (f.accepted_set a _ ha hf) suff fun g _ e hg => nec g e ?_ (by simp [Has, hg])
  rw [hg, hfa]
  simpa using hne

/-! ## Leaving one attribute out -/

theorem Written.accepted_none (f : Written) (a : Attr) (h : a ∉ [Attr.skip, .cond]) (hf : f.accepted = true) :
    (f.set a none).accepted = true := by
  have le : ∀ b, (f.set a none b).isSome.toNat ≤ (f b).isSome.toNat := by
    intro b
    by_cases hb : b = a
    · subst hb; simp [Written.set_same]
    · rw [Written.set_ne _ _ _ _ hb]
      exact Nat.le_refl _
  have im : ∀ b, f b = none → f.set a none b = none := by
    intro b e
    by_cases hb : b = a
    · subst hb; simp [Written.set_same]
    · rwa [Written.set_ne _ _ _ _ hb]
  have hk : f.set a none .skip = f .skip := f.set_ne a _ _ (by rintro rfl; simp at h)
  have hc : f.set a none .cond = f .cond := f.set_ne a _ _ (by rintro rfl; simp at h)
  have hs : (f.set a none).seeks ≤ f.seeks := by
    have := le .seekCurrent
    have := le .seekEnd
    have := le .seekStart
    have := le .seekRewind
    simp only [Written.seeks]
    omega
  simp only [Written.accepted, Bool.and_eq_true, Bool.not_eq_true', Bool.and_eq_false_iff, Bool.or_eq_false_iff,
    decide_eq_false_iff_not, Option.isSome_eq_false_iff, Option.isNone_iff_eq_none, hk, hc] at hf ⊢
  grind

/-- At most one seek is accepted, so none hides another. -/
theorem seek_ne (f g : Written) (hf : f.accepted = true) (a : Attr)
    (hm : a ∈ [Attr.seekCurrent, .seekEnd, .seekStart, .seekRewind]) (ha : Has f a) (hne : g a ≠ f a)
    (e : ∀ b, b ≠ a → g b = f b) (h : seekOf g = seekOf f) : False := by
  have hs : f.seeks ≤ 1 := by
    simp only [Written.accepted, Bool.and_eq_true, Bool.not_eq_true', decide_eq_false_iff_not] at hf
    omega
  simp only [Written.seeks] at hs
  simp only [List.mem_cons, List.not_mem_nil, or_false] at hm
  simp only [Has] at ha
  simp only [seekOf] at h
  rcases hm with rfl | rfl | rfl | rfl <;> simp only [ne_eq, reduceCtorEq, not_false_eq_true, e] at h <;>
    cases h1 : f .seekCurrent <;> cases h2 : f .seekEnd <;> cases h3 : f .seekStart <;> cases h4 : f .seekRewind <;>
    simp_all <;> grind

theorem padCode_inj {b y o b' y' o' : Option String} (h : padCode b y o = padCode b' y' o') : b = b' ∧ y = y' := by
  cases b <;> cases y <;> cases b' <;> cases y' <;> simp_all [padCode]

/-! ## Reading -/

section
variable (s : Site) (f g : Written)

theorem reading_eq : reading s g = reading s f ↔
    seekOf g = seekOf f ∧ g .magic = f .magic ∧ beforeOf s g = beforeOf s f ∧ bodyOf s g = bodyOf s f ∧
      g .assert = f .assert ∧ g .assertEq = f .assertEq ∧ afterOf s g = afterOf s f ∧
      (g .temp).isNone = (f .temp).isNone := by
  simp [reading]

theorem writing_eq : writing s g = writing s f ↔
    seekOf g = seekOf f ∧ g .magic = f .magic ∧ beforeOf s g = beforeOf s f ∧ g .assert = f .assert ∧
      g .assertEq = f .assertEq ∧ wbodyOf s g = wbodyOf s f ∧ afterOf s g = afterOf s f := by
  simp [writing]

end

/-- The attributes that reading depends on through the value alone. -/
def bodyAttrs : List Attr :=
  [.endian, .bits, .bytes, .ctx, .count, .bytesRead, .readAll, .until, .bitsRead, .map, .reader, .default, .cond]

theorem reading_body (s : Site) (a : Attr) (hm : a ∈ bodyAttrs) (f g : Written) (e : ∀ b, b ≠ a → g b = f b) :
    reading s g = reading s f ↔ bodyOf s g = bodyOf s f := by
  rw [reading_eq]
  simp only [bodyAttrs, List.mem_cons, List.not_mem_nil, or_false] at hm
  rcases hm with rfl | rfl | rfl | rfl | rfl | rfl | rfl | rfl | rfl | rfl | rfl | rfl | rfl <;>
    simp [seekOf, beforeOf, afterOf, orderOf, e]

theorem or_ne {x y o : Option String} (hx : x.isSome = true) (hy : y.isSome = true) (h : x ≠ y) : x.or o ≠ y.or o := by
  cases x <;> cases y <;> simp_all

theorem argsOf_ne (s : Site) (a : Attr) (hm : a ∈ [Attr.endian, .bits, .bytes, .ctx, .bitOrder]) (f g : Written)
    (ha : Has f a) (hg : Has g a) (hne : g a ≠ f a) : argsOf s g ≠ argsOf s f := by
  intro h
  have ⟨h1, h2, h3, h4, h5⟩ := argsOf_inj s f g h
  simp only [List.mem_cons, List.not_mem_nil, or_false] at hm
  rcases hm with rfl | rfl | rfl | rfl | rfl
  · exact or_ne hg ha hne h1
  · exact hne h2
  · exact hne h3
  · exact hne h5
  · exact or_ne hg ha hne h4

theorem bodyOf_args (s : Site) (a : Attr) (hm : a ∈ [Attr.endian, .bits, .bytes, .ctx, .bitOrder]) (f g : Written)
    (e : ∀ b, b ≠ a → g b = f b) : bodyOf s g = bodyOf s f ↔ NoReadArgs s f ∨ argsOf s g = argsOf s f := by
  have h : ∀ b ∈ [Attr.skip, .cond, .default, .map, .reader, .count, .bytesRead, .until, .readAll, .bitsRead],
      g b = f b := by
    intro b hb
    refine e b fun hab => ?_
    subst hab
    cases b <;> simp at hm hb
  rw [bodyOf_eq s f g (h _ (by simp)) (h _ (by simp)) (h _ (by simp)), valueOf_eq, fetchOf_eq s f g fun b hb => h b (by
    simp only [List.mem_cons, List.not_mem_nil, or_false] at hb ⊢; grind)]
  simp only [h .map (by simp), NoReadArgs, NotReadByType]
  grind

theorem wbodyOf_args (s : Site) (a : Attr) (hm : a ∈ [Attr.endian, .bits, .bytes, .ctx, .bitOrder]) (f g : Written)
    (e : ∀ b, b ≠ a → g b = f b) : wbodyOf s g = wbodyOf s f ↔ NotWrittenByType f ∨ argsOf s g = argsOf s f := by
  have h : ∀ b ∈ [Attr.skip, .cond, .writer, .temp, .tempValue], g b = f b := by
    intro b hb
    refine e b fun hab => ?_
    subst hab
    cases b <;> simp at hm hb
  rw [wbodyOf_eq s f g (h _ (by simp)) (h _ (by simp)), putOf_eq s f g fun b hb => h b (by
    simp only [List.mem_cons, List.not_mem_nil, or_false] at hb ⊢; grind)]
  simp only [declOf, h .temp (by simp), h .tempValue (by simp), NotWrittenByType]
  grind

theorem reading_fetch (s : Site) (a : Attr) (hm : a ∈ [Attr.count, .bytesRead, .until, .readAll, .bitsRead, .reader])
    (f g : Written) (e : ∀ b, b ≠ a → g b = f b) :
    reading s g = reading s f ↔ NeverRead f ∨ fetchOf s g = fetchOf s f := by
  rw [reading_body s a (by simp only [bodyAttrs, List.mem_cons, List.not_mem_nil, or_false] at hm ⊢; grind) f g e]
  simp only [List.mem_cons, List.not_mem_nil, or_false] at hm
  rcases hm with rfl | rfl | rfl | rfl | rfl | rfl <;>
    rw [bodyOf_eq s f g (e _ (by decide)) (e _ (by decide)) (e _ (by decide)), valueOf_eq] <;> simp [e]

theorem idle_reading (s : Site) (a : Attr) (f : Written) (hf : f.accepted = true) (ha : Has f a) :
    Idle (reading s) a f ↔ UnusedReading s f a := by
  cases a
  case endian | bits | bytes | ctx =>
    refine idle_text exists_ne hf ha (fun g _ e p => ?_) fun g e hne hg h => ?_
    · rw [reading_body s _ (by simp [bodyAttrs]) f g e, bodyOf_args s _ (by simp) f g e]
      exact .inl p
    · rw [reading_body s _ (by simp [bodyAttrs]) f g e, bodyOf_args s _ (by simp) f g e] at h
      exact h.resolve_right (argsOf_ne s _ (by simp) f g ha hg hne)
  case bitOrder =>
    have pads : ∀ g : Written, (∀ b, b ≠ Attr.bitOrder → g b = f b) →
        (reading s g = reading s f ↔ bodyOf s g = bodyOf s f ∧ (¬ Padded f ∨ orderOf s g = orderOf s f)) := by
      intro g e
      rw [reading_eq]
      simp only [seekOf, beforeOf, afterOf, e _ (show Attr.padBitsBefore ≠ .bitOrder by decide),
        e _ (show Attr.padBytesBefore ≠ .bitOrder by decide), e _ (show Attr.padBitsAfter ≠ .bitOrder by decide),
        e _ (show Attr.padBytesAfter ≠ .bitOrder by decide), padCode_order, Padded, Has]
      simp [e]
      grind
    refine idle_text exists_ne hf ha (fun g _ e p => ?_) fun g e hne hg h => ?_
    · rw [pads g e, bodyOf_args s _ (by simp) f g e]
      exact ⟨.inl p.1, .inl p.2⟩
    · rw [pads g e, bodyOf_args s _ (by simp) f g e] at h
      exact ⟨h.1.resolve_right (argsOf_ne s _ (by simp) f g ha hg hne), h.2.resolve_right (or_ne hg ha hne)⟩
  case count =>
    refine idle_text exists_ne hf ha (fun g _ e p => ?_) fun g e hne hg h => ?_
    · rw [reading_fetch s _ (by simp) f g e]
      refine p.imp_right fun p => ?_
      simp only [Has] at p
      cases hr : f .reader <;> simp_all [fetchOf]
    · rw [reading_fetch s _ (by simp) f g e] at h
      refine h.imp_right fun h => ?_
      simp only [fetchOf, e _ (show Attr.reader ≠ .count by decide)] at h
      cases hr : f .reader <;> cases hc : f .count <;> cases hd : g .count <;> cases hv : s.vecU8 <;> simp_all [Has]
  case bytesRead =>
    refine idle_text exists_ne hf ha (fun g _ e p => ?_) fun g e hne hg h => ?_
    · rw [reading_fetch s _ (by simp) f g e]
      refine p.imp_right fun p => ?_
      simp only [Has] at p
      cases hr : f .reader <;> simp_all [fetchOf]
    · rw [reading_fetch s _ (by simp) f g e] at h
      refine h.imp_right fun h => ?_
      have hc : f .count = none := by
        simp only [Written.accepted, Has] at hf ha
        cases hc : f .count <;> simp_all
      simp only [fetchOf, e _ (show Attr.reader ≠ .bytesRead by decide), e _ (show Attr.count ≠ .bytesRead by decide),
        hc] at h
      cases hr : f .reader <;> cases hc : f .bytesRead <;> cases hd : g .bytesRead <;> simp_all [Has]
  case «until» =>
    refine idle_text exists_ne hf ha (fun g _ e p => ?_) fun g e hne hg h => ?_
    · rw [reading_fetch s _ (by simp) f g e]
      refine p.elim (fun p => p.imp_right fun p => ?_) fun p => .inr ?_
      · simp only [Has] at p
        cases hr : f .reader <;> simp_all [fetchOf]
      · have a1 : argsOf s g = argsOf s f := by simp [argsOf, orderOf, e]
        simp only [Has] at p
        simp only [fetchOf, e _ (show Attr.reader ≠ .until by decide), e _ (show Attr.count ≠ .until by decide),
          e _ (show Attr.bytesRead ≠ .until by decide), a1]
        cases hr : f .reader <;> cases hc : f .count <;> cases hd : f .bytesRead <;> simp_all
    · rw [reading_fetch s _ (by simp) f g e] at h
      refine h.elim (fun h => .inl (.inl h)) fun h => ?_
      simp only [fetchOf, e _ (show Attr.reader ≠ .until by decide), e _ (show Attr.count ≠ .until by decide),
        e _ (show Attr.bytesRead ≠ .until by decide)] at h
      simp only [UnusedReading, NotReadByType, Has] at ha hg ⊢
      cases hr : f .reader <;> cases hc : f .count <;> cases hd : f .bytesRead <;> cases hu : f .until <;>
        cases hv : g .until <;> simp_all
  case bitsRead =>
    refine idle_text exists_ne hf ha (fun g _ e p => ?_) fun g e hne hg h => ?_
    · rw [reading_fetch s _ (by simp) f g e]
      refine p.elim (fun p => p.imp_right fun p => ?_) fun p => .inr ?_
      · simp only [Has] at p
        cases hr : f .reader <;> simp_all [fetchOf]
      · have a1 : argsOf s g = argsOf s f := by simp [argsOf, orderOf, e]
        simp only [Has] at p
        simp only [fetchOf, e _ (show Attr.reader ≠ .bitsRead by decide), e _ (show Attr.count ≠ .bitsRead by decide),
          e _ (show Attr.bytesRead ≠ .bitsRead by decide), e _ (show Attr.until ≠ .bitsRead by decide), a1]
        cases hr : f .reader <;> cases hc : f .count <;> cases hd : f .bytesRead <;> cases hu : f .until <;> simp_all
    · rw [reading_fetch s _ (by simp) f g e] at h
      refine h.elim (fun h => .inl (.inl h)) fun h => ?_
      have hx : f .count = none ∧ f .bytesRead = none ∧ f .readAll = none := by
        simp only [Written.accepted, Has] at hf ha
        cases hc : f .count <;> cases hd : f .bytesRead <;> cases hu : f .readAll <;> simp_all
      simp only [fetchOf, e _ (show Attr.reader ≠ .bitsRead by decide), e _ (show Attr.count ≠ .bitsRead by decide),
        e _ (show Attr.bytesRead ≠ .bitsRead by decide), e _ (show Attr.until ≠ .bitsRead by decide),
        e _ (show Attr.readAll ≠ .bitsRead by decide), hx] at h
      simp only [UnusedReading, NotReadByType, Has] at ha hg ⊢
      cases hr : f .reader <;> cases hd : f .until <;> cases hu : f .bitsRead <;>
        cases hv : g .bitsRead <;> simp_all
  case reader =>
    refine idle_text exists_ne hf ha (fun g _ e p => ?_) fun g e hne hg h => ?_
    · rw [reading_fetch s _ (by simp) f g e]
      exact .inl p
    · rw [reading_fetch s _ (by simp) f g e] at h
      refine h.elim id fun h => ?_
      simp only [fetchOf] at h
      simp only [Has] at ha hg
      cases hu : f .reader <;> cases hv : g .reader <;> simp_all
  case readAll =>
    refine idle_iff none ?_ (fun g _ e p => ?_) fun g _ e hg h => ?_
    · exact f.accepted_none _ (by decide) hf
    · rw [reading_fetch s _ (by simp) f g e]
      refine p.imp_right fun p => ?_
      simp only [Has] at p
      cases hr : f .reader <;> simp_all [fetchOf]
    · rw [reading_fetch s _ (by simp) f g e] at h
      refine h.imp_right fun h => ?_
      have hx : f .count = none ∧ f .bytesRead = none ∧ f .until = none ∧ f .bitsRead = none := by
        simp only [Written.accepted, Has] at hf ha
        cases hc : f .count <;> cases hd : f .bytesRead <;> cases hu : f .until <;> cases hb : f .bitsRead <;> simp_all
      simp only [fetchOf, e _ (show Attr.reader ≠ .readAll by decide), e _ (show Attr.count ≠ .readAll by decide),
        e _ (show Attr.bytesRead ≠ .readAll by decide), e _ (show Attr.until ≠ .readAll by decide),
        e _ (show Attr.bitsRead ≠ .readAll by decide), hx, hg] at h
      simp only [Has] at ha ⊢
      cases hr : f .reader <;> cases hd : f .readAll <;> simp_all
  case map =>
    have red : ∀ g : Written, (∀ b, b ≠ Attr.map → g b = f b) →
        (reading s g = reading s f ↔ NeverRead f ∨ g .map = f .map) := by
      intro g e
      rw [reading_body s _ (by simp [bodyAttrs]) f g e, bodyOf_eq s f g (e _ (by decide)) (e _ (by decide))
        (e _ (by decide)), valueOf_eq]
      simp [fetchOf, argsOf, orderOf, e]
    refine idle_text exists_ne hf ha (fun g _ e p => ?_) fun g e hne hg h => ?_
    · exact (red g e).mpr (.inl p)
    · exact ((red g e).mp h).resolve_right hne
  case cond =>
    refine idle_text exists_ne hf ha (fun g _ e p => ?_) fun g e hne hg h => ?_
    · rw [reading_body s _ (by simp [bodyAttrs]) f g e]
      have p : f .skip = some .write := p
      simp [bodyOf, valueOf, fetchOf, argsOf, orderOf, e, p]
    · rw [reading_body s _ (by simp [bodyAttrs]) f g e] at h
      simp only [bodyOf, e _ (show Attr.skip ≠ .cond by decide)] at h
      simp only [Has] at ha hg
      show f .skip = some .write
      rcases hk : f .skip with _ | (_ | _ | _) <;> cases hu : f .cond <;> cases hv : g .cond <;> simp_all
  case default =>
    refine idle_text exists_ne hf ha (fun g _ e p => ?_) fun g e hne hg h => ?_
    · rw [reading_body s _ (by simp [bodyAttrs]) f g e]
      have p : f .skip = some .write := p
      simp [bodyOf, valueOf, fetchOf, argsOf, orderOf, e, p]
    · rw [reading_body s _ (by simp [bodyAttrs]) f g e] at h
      simp only [bodyOf, e _ (show Attr.skip ≠ .default by decide), e _ (show Attr.cond ≠ .default by decide)] at h
      simp only [Has, Written.accepted] at ha hf
      show f .skip = some .write
      rcases hk : f .skip with _ | (_ | _ | _) <;> cases hu : f .cond <;> simp_all
  case writer | update | tempValue =>
    refine ⟨fun _ => trivial, fun _ g _ e => ?_⟩
    simp [reading, seekOf, beforeOf, afterOf, bodyOf, valueOf, fetchOf, argsOf, orderOf, e]
  case temp =>
    refine idle_iff none ?_ (fun g _ e p => p.elim) fun g _ e hg h => ?_
    · exact f.accepted_none _ (by decide) hf
    · have := ((reading_eq s f g).mp h).2.2.2.2.2.2.2
      simp only [Has] at ha
      cases hu : f .temp <;> simp_all
  case skip =>
    obtain ⟨k, hk⟩ := Option.isSome_iff_exists.mp ha
    refine idle_iff (some (if k = .write then .all else .write)) (f.accepted_set _ _ ha hf) (fun g _ e p => p.elim)
      fun g _ e hg h => ?_
    have h := ((reading_eq s f g).mp h).2.2.2.1
    simp only [bodyOf, hk, hg, valueOf, e _ (show Attr.cond ≠ .skip by decide)] at h
    cases k <;> cases hu : f .cond <;> simp_all
  case seekRewind =>
    refine idle_iff none (f.accepted_none _ (by decide) hf) (fun g _ e p => p.elim) fun g _ e hg h => ?_
    exact seek_ne f g hf _ (by simp) ha (by rw [hg]; intro h; rw [Has, ← h] at ha; cases ha) e ((reading_eq s f g).mp h).1
  case seekCurrent | seekEnd | seekStart =>
    refine idle_text exists_ne hf ha (fun g _ e p => p.elim) fun g e hne hg h => ?_
    exact seek_ne f g hf _ (by simp) ha hne e ((reading_eq s f g).mp h).1
  case magic =>
    refine idle_text exists_ne hf ha (fun g _ e p => p.elim) fun g e hne hg h => hne ((reading_eq s f g).mp h).2.1
  case assert =>
    refine idle_text exists_ne hf ha (fun g _ e p => p.elim) fun g e hne hg h => hne ((reading_eq s f g).mp h).2.2.2.2.1
  case assertEq =>
    refine idle_text exists_ne hf ha (fun g _ e p => p.elim) fun g e hne hg h =>
      hne ((reading_eq s f g).mp h).2.2.2.2.2.1
  case padBitsBefore | padBytesBefore =>
    refine idle_text exists_ne hf ha (fun g _ e p => p.elim) fun g e hne hg h => ?_
    have h := ((reading_eq s f g).mp h).2.2.1
    exact hne (by first | exact (padCode_inj h).1 | exact (padCode_inj h).2)
  case padBitsAfter | padBytesAfter =>
    refine idle_text exists_ne hf ha (fun g _ e p => p.elim) fun g e hne hg h => ?_
    have h := ((reading_eq s f g).mp h).2.2.2.2.2.2.1
    exact hne (by first | exact (padCode_inj h).1 | exact (padCode_inj h).2)

/-! ## Writing -/

/-- The attributes that writing depends on through the value alone. -/
theorem writing_body (s : Site) (a : Attr) (hm : a ∈ [Attr.endian, .bits, .bytes, .ctx, .writer, .temp, .tempValue, .cond])
    (f g : Written) (e : ∀ b, b ≠ a → g b = f b) : writing s g = writing s f ↔ wbodyOf s g = wbodyOf s f := by
  rw [writing_eq]
  simp only [List.mem_cons, List.not_mem_nil, or_false] at hm
  rcases hm with rfl | rfl | rfl | rfl | rfl | rfl | rfl | rfl <;> simp [seekOf, beforeOf, afterOf, orderOf, e]

theorem idle_writing (s : Site) (a : Attr) (f : Written) (hf : f.accepted = true) (ha : Has f a) :
    Idle (writing s) a f ↔ UnusedWriting f a := by
  cases a
  case endian | bits | bytes | ctx =>
    refine idle_text exists_ne hf ha (fun g _ e p => ?_) fun g e hne hg h => ?_
    · rw [writing_body s _ (by simp) f g e, wbodyOf_args s _ (by simp) f g e]
      exact .inl p
    · rw [writing_body s _ (by simp) f g e, wbodyOf_args s _ (by simp) f g e] at h
      exact h.resolve_right (argsOf_ne s _ (by simp) f g ha hg hne)
  case bitOrder =>
    have pads : ∀ g : Written, (∀ b, b ≠ Attr.bitOrder → g b = f b) →
        (writing s g = writing s f ↔ wbodyOf s g = wbodyOf s f ∧ (¬ Padded f ∨ orderOf s g = orderOf s f)) := by
      intro g e
      rw [writing_eq]
      simp only [seekOf, beforeOf, afterOf, e _ (show Attr.padBitsBefore ≠ .bitOrder by decide),
        e _ (show Attr.padBytesBefore ≠ .bitOrder by decide), e _ (show Attr.padBitsAfter ≠ .bitOrder by decide),
        e _ (show Attr.padBytesAfter ≠ .bitOrder by decide), padCode_order, Padded, Has]
      simp [e]
      grind
    refine idle_text exists_ne hf ha (fun g _ e p => ?_) fun g e hne hg h => ?_
    · rw [pads g e, wbodyOf_args s _ (by simp) f g e]
      exact ⟨.inl p.1, .inl p.2⟩
    · rw [pads g e, wbodyOf_args s _ (by simp) f g e] at h
      exact ⟨h.1.resolve_right (argsOf_ne s _ (by simp) f g ha hg hne), h.2.resolve_right (or_ne hg ha hne)⟩
  case writer =>
    refine idle_text exists_ne hf ha (fun g _ e p => ?_) fun g e hne hg h => ?_
    · rw [writing_body s _ (by simp) f g e, wbodyOf_eq s f g (e _ (by decide)) (e _ (by decide))]
      exact .inl p
    · rw [writing_body s _ (by simp) f g e, wbodyOf_eq s f g (e _ (by decide)) (e _ (by decide))] at h
      refine h.resolve_right fun h => ?_
      have h := h.2
      simp only [putOf] at h
      simp only [Has] at ha hg
      cases hu : f .writer <;> cases hv : g .writer <;> simp_all
  case tempValue =>
    refine idle_text exists_ne hf ha (fun g _ e p => ?_) fun g e hne hg h => ?_
    · rw [writing_body s _ (by simp) f g e, wbodyOf_eq s f g (e _ (by decide)) (e _ (by decide))]
      refine p.imp_right fun p => ?_
      have ht : f .temp = none := by simpa [Has] using p
      simp [declOf, putOf, argsOf, orderOf, e, ht]
    · rw [writing_body s _ (by simp) f g e, wbodyOf_eq s f g (e _ (by decide)) (e _ (by decide))] at h
      refine h.imp_right fun h ht => ?_
      have h := h.1
      simp only [declOf, e _ (show Attr.temp ≠ .tempValue by decide)] at h
      simp only [Has] at ht
      cases hu : f .temp <;> simp_all
  case temp =>
    refine idle_iff none (f.accepted_none _ (by decide) hf) (fun g _ e p => ?_) fun g _ e hg h => ?_
    · rw [writing_body s _ (by simp) f g e, wbodyOf_eq s f g (e _ (by decide)) (e _ (by decide))]
      refine p.imp_right fun ⟨p, q⟩ => ?_
      have hv : f .tempValue = none := by simpa [Has] using q
      simp only [declOf, putOf, e _ (show Attr.tempValue ≠ .temp by decide), e _ (show Attr.writer ≠ .temp by decide), hv]
      simp only [Has] at p
      cases hw : f .writer <;> cases f .temp <;> cases g .temp <;> simp_all
    · rw [writing_body s _ (by simp) f g e, wbodyOf_eq s f g (e _ (by decide)) (e _ (by decide))] at h
      refine h.imp_right fun h => ?_
      simp only [declOf, putOf, e _ (show Attr.writer ≠ .temp by decide), hg] at h
      simp only [Has] at ha ⊢
      cases hw : f .writer <;> cases ht : f .temp <;> cases hv : f .tempValue <;> simp_all
  case cond =>
    refine idle_text exists_ne hf ha (fun g _ e p => ?_) fun g e hne hg h => ?_
    · rw [writing_body s _ (by simp) f g e]
      have p : f .skip = none ∨ f .skip = some .read := p
      rcases p with p | p <;> simp [wbodyOf, declOf, putOf, argsOf, orderOf, e, p]
    · rw [writing_body s _ (by simp) f g e] at h
      simp only [wbodyOf, e _ (show Attr.skip ≠ .cond by decide)] at h
      simp only [Has] at ha hg
      show f .skip = none ∨ f .skip = some .read
      rcases hk : f .skip with _ | (_ | _ | _) <;> cases hu : f .cond <;> cases hv : g .cond <;> simp_all
  case count | bitsRead | bytesRead | «until» | readAll | map | reader | default | update =>
    refine ⟨fun _ => trivial, fun _ g _ e => ?_⟩
    simp [writing, seekOf, beforeOf, afterOf, wbodyOf, declOf, putOf, argsOf, orderOf, e]
  case skip =>
    obtain ⟨k, hk⟩ := Option.isSome_iff_exists.mp ha
    refine idle_iff (some (if k = .read then .all else .read)) (f.accepted_set _ _ ha hf) (fun g _ e p => p.elim)
      fun g _ e hg h => ?_
    have h := ((writing_eq s f g).mp h).2.2.2.2.2.1
    simp only [wbodyOf, hk, hg, e _ (show Attr.cond ≠ .skip by decide)] at h
    cases k <;> cases hu : f .cond <;> simp_all
  case seekRewind =>
    refine idle_iff none (f.accepted_none _ (by decide) hf) (fun g _ e p => p.elim) fun g _ e hg h => ?_
    exact seek_ne f g hf _ (by simp) ha (by rw [hg]; intro h; rw [Has, ← h] at ha; cases ha) e ((writing_eq s f g).mp h).1
  case seekCurrent | seekEnd | seekStart =>
    refine idle_text exists_ne hf ha (fun g _ e p => p.elim) fun g e hne hg h => ?_
    exact seek_ne f g hf _ (by simp) ha hne e ((writing_eq s f g).mp h).1
  case magic =>
    refine idle_text exists_ne hf ha (fun g _ e p => p.elim) fun g e hne hg h => hne ((writing_eq s f g).mp h).2.1
  case assert =>
    refine idle_text exists_ne hf ha (fun g _ e p => p.elim) fun g e hne hg h => hne ((writing_eq s f g).mp h).2.2.2.1
  case assertEq =>
    refine idle_text exists_ne hf ha (fun g _ e p => p.elim) fun g e hne hg h => hne ((writing_eq s f g).mp h).2.2.2.2.1
  case padBitsBefore | padBytesBefore =>
    refine idle_text exists_ne hf ha (fun g _ e p => p.elim) fun g e hne hg h => ?_
    have h := ((writing_eq s f g).mp h).2.2.1
    exact hne (by first | exact (padCode_inj h).1 | exact (padCode_inj h).2)
  case padBitsAfter | padBytesAfter =>
    refine idle_text exists_ne hf ha (fun g _ e p => p.elim) fun g e hne hg h => ?_
    have h := ((writing_eq s f g).mp h).2.2.2.2.2.2
    exact hne (by first | exact (padCode_inj h).1 | exact (padCode_inj h).2)

/-! ## `update` -/

theorem idle_updating (a : Attr) (f : Written) (hf : f.accepted = true) (ha : Has f a) :
    Idle updating a f ↔ UnusedUpdating f a := by
  cases a
  case update =>
    refine idle_text exists_ne hf ha (fun g _ e p => ?_) fun g e hne hg h => ?_
    · have p : (f .temp).isSome = true := p
      simp only [updating, e _ (show Attr.temp ≠ .update by decide)]
      cases hu : f .temp <;> simp_all
    · simp only [updating, e _ (show Attr.temp ≠ .update by decide)] at h
      show (f .temp).isSome = true
      cases hu : f .temp <;> simp_all
  case temp =>
    refine idle_iff none (f.accepted_none _ (by decide) hf) (fun g _ e p => ?_) fun g _ e hg h => ?_
    · have p : f .update = none := by simpa [UnusedUpdating, Has] using p
      simp only [updating, e _ (show Attr.update ≠ .temp by decide), p]
      cases f .temp <;> cases g .temp <;> rfl
    · simp only [updating, e _ (show Attr.update ≠ .temp by decide), hg] at h
      simp only [UnusedUpdating, Has] at ha ⊢
      cases hu : f .temp <;> simp_all
  all_goals
    refine ⟨fun _ => trivial, fun _ g _ e => ?_⟩
    simp [updating, e]

/-! ## All of it -/

theorem idle_emit (s : Site) (a : Attr) (f : Written) (hf : f.accepted = true) (ha : Has f a) :
    Idle (emit s) a f ↔ UnusedReading s f a ∧ UnusedWriting f a ∧ UnusedUpdating f a := by
  rw [← idle_reading s a f hf ha, ← idle_writing s a f hf ha, ← idle_updating a f hf ha]
  constructor
  · intro h
    refine ⟨fun g hg e => ?_, fun g hg e => ?_, fun g hg e => ?_⟩ <;>
      have := h g hg e <;> simp only [emit, Emitted.mk.injEq] at this
    · exact this.1
    · exact this.2.1
    · exact this.2.2
  · rintro ⟨h1, h2, h3⟩ g hg e
    simp only [emit, h1 g hg e, h2 g hg e, h3 g hg e]

theorem unused_iff (s : Site) (a : Attr) (f : Written) :
    UnusedReading s f a ∧ UnusedWriting f a ∧ UnusedUpdating f a ↔ Unused s f a := by
  cases a <;> simp only [UnusedReading, UnusedWriting, UnusedUpdating, Unused, and_true, true_and, false_and, and_false]
  case bitOrder => grind
  case cond => rcases f .skip with _ | (_ | _ | _) <;> simp

end Deku.Emit
