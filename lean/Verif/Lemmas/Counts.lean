import Verif.Lemmas.RegroupLaws

/-! # Parsers that count a fixed number of bits -/

namespace Deku

open Reader

variable {α β : Type}

namespace Counts

theorem pure (v : α) : Counts 0 (Pure.pure v : M Reader α) := by
  rintro r _ _ ⟨⟩
  rfl

theorem throw (k : Nat) (e : DekuError) : Counts k (M.throw e : M Reader α) := by
  rintro r _ _ ⟨⟩

theorem panic (k : Nat) : Counts k (M.panic : M Reader α) := by
  rintro r _ _ ⟨⟩

theorem bind {j k : Nat} {f : M Reader α} {g : α → M Reader β} (hf : Counts j f) (hg : ∀ v, Counts k (g v)) :
    Counts (j + k) (f >>= g) := by
  intro r v r' h
  obtain ⟨x, r1, h1, h2⟩ := M.bind_eq_ok h
  rw [hg x _ _ _ h2, hf _ _ _ h1, Nat.add_assoc]

theorem bind0 {k : Nat} {f : M Reader α} {g : α → M Reader β} (hf : Counts 0 f) (hg : ∀ v, Counts k (g v)) :
    Counts k (f >>= g) := Nat.zero_add k ▸ hf.bind hg

theorem map {k : Nat} {f : M Reader α} {g : α → M Reader β} (hf : Counts k f) (hg : ∀ v, Counts 0 (g v)) :
    Counts k (f >>= g) := hf.bind hg

theorem get : Counts 0 (M.get : M Reader Reader) := by
  rintro r _ _ ⟨⟩
  rfl

theorem modify (f : Reader → Reader) (h : ∀ r, (f r).bitsRead = r.bitsRead) : Counts 0 (M.modify f) := by
  rintro r _ _ ⟨⟩
  exact h r

theorem add (k : Nat) : Counts k (M.modify fun r : Reader => { r with bitsRead := r.bitsRead + k }) := by
  rintro r _ _ ⟨⟩
  rfl

theorem assert (b : Bool) : Counts 0 (M.assert b : M Reader Unit) := by
  cases b
  · exact panic 0
  · exact pure ()

theorem ioRead (n : Nat) : Counts 0 (Reader.ioRead n) := by
  intro r v r' h
  unfold Reader.ioRead at h
  cases h
  rfl

theorem readSlots (len : Nat) : ∀ k, Counts 0 (Reader.readSlots len k)
  | 0 => pure _
  | k + 1 => by
    unfold Reader.readSlots
    refine bind0 (bind0 (ioRead 1) fun x => ?_) fun _ => bind0 (readSlots len k) fun _ => pure _
    split
    · exact throw _ _
    · exact pure _
    · exact pure _

theorem readPartial (len : Nat) : Counts 0 (Reader.readPartial len) := by
  unfold Reader.readPartial
  refine bind0 (ioRead 1) fun x => ?_
  split
  · exact throw _ _
  · exact throw _ _
  · exact pure _

theorem readBitsInto (n : Nat) (o : Order) : Counts n (Reader.readBitsInto n o) := by
  unfold Reader.readBitsInto
  split
  · rename_i h
    rw [h]
    exact pure _
  · refine bind0 get fun r => bind0 (modify _ fun _ => rfl) fun _ => ?_
    dsimp only
    have tail : ∀ dst : List Bool, Counts n (do M.modify (fun r => { r with bitsRead := r.bitsRead + n }); Pure.pure dst) :=
      fun dst => (add n).map fun _ => pure _
    split
    · cases o <;> exact bind0 (modify _ fun _ => rfl) fun _ => bind0 (pure _) fun _ => tail _
    · split
      · exact bind0 (pure _) fun _ => tail _
      · cases o <;> refine bind0 (readSlots _ _) fun _ => ?_ <;> split <;>
          first
          | exact bind0 (pure _) fun _ => tail _
          | exact bind0 (readPartial _) fun _ => bind0 (modify _ fun _ => rfl) fun _ => bind0 (pure _) fun _ => tail _

theorem uintLoop (amt : Nat) : ∀ fuel acc have_, Counts 0 (Reader.uintLoop amt fuel acc have_)
  | 0, _, _ => pure _
  | fuel + 1, acc, have_ => by
    unfold Reader.uintLoop
    split
    · refine bind0 (ioRead 1) fun x => ?_
      split
      · exact throw _ _
      · exact throw _ _
      · exact uintLoop amt fuel _ _
    · exact pure _

theorem readBitsUintMsb0 (n : Nat) : Counts n (Reader.readBitsUintMsb0 n) := by
  unfold Reader.readBitsUintMsb0
  refine bind0 (assert _) fun _ => bind0 get fun r => bind0 (modify _ fun _ => rfl) fun _ =>
    bind0 (uintLoop _ _ _ _) fun x => ?_
  dsimp only
  split
  · exact bind0 (modify _ fun _ => rfl) fun _ => (add n).map fun _ => pure _
  · exact (add n).map fun _ => pure _

theorem readBytesLeftover (b : Byte) (n : Nat) : Counts (n * 8) (Reader.readBytesLeftover b n) := by
  unfold Reader.readBytesLeftover
  split
  · exact panic _
  · refine bind0 (modify _ fun _ => rfl) fun _ => ?_
    dsimp only
    split
    · exact (add _).map fun _ => pure _
    · refine bind0 (ioRead _) fun x => ?_
      split
      · exact throw _ _
      · exact throw _ _
      · exact (add _).map fun _ => pure _

theorem readBytes (n : Nat) (o : Order) : Counts (n * 8) (Reader.readBytes n o) := by
  unfold Reader.readBytes
  refine bind0 get fun r => ?_
  split
  · refine bind0 (ioRead _) fun x => ?_
    split
    · exact throw _ _
    · exact throw _ _
    · exact (add _).map fun _ => pure _
  · exact readBytesLeftover _ _
  · refine (readBitsInto _ _).map fun _ => ?_
    cases o <;> exact pure _

theorem readBytesConstInto (n : Nat) (o : Order) : Counts (n * 8) (Reader.readBytesConstInto n o) := by
  unfold Reader.readBytesConstInto
  refine bind0 get fun r => ?_
  split
  · refine bind0 (ioRead _) fun x => ?_
    split
    · exact throw _ _
    · exact throw _ _
    · exact (add _).map fun _ => pure _
  · exact readBytesLeftover _ _
  · refine (readBitsInto _ _).map fun _ => ?_
    cases o <;> exact pure _

theorem insertZeros (cap i : Nat) : ∀ k l, Counts 0 (Prim.insertZeros cap i k l)
  | 0, _ => pure _
  | k + 1, l => by
    unfold Prim.insertZeros
    exact bind0 (assert _) fun _ => bind0 (assert _) fun _ => insertZeros cap i k _

theorem readSlice (W : Nat) (e : Endian) (bits : List Bool) : Counts 0 (Prim.readSlice W e bits) := by
  unfold Prim.readSlice
  dsimp only
  split
  · exact pure _
  · split
    · exact pure _
    · cases e
      · dsimp only
        split
        · exact bind0 (panic _) fun _ => bind0 (insertZeros _ _ _ _) fun _ => bind0 (pure _) fun _ => pure _
        · exact bind0 (pure _) fun _ => bind0 (insertZeros _ _ _ _) fun _ => bind0 (pure _) fun _ => pure _
      · exact bind0 (pure _) fun _ => bind0 (insertZeros _ _ _ _) fun _ => bind0 (insertZeros _ _ _ _) fun _ => pure _

theorem readSliceOrd (W : Nat) (e : Endian) (o : Order) (bits : List Bool) : Counts 0 (Prim.readSliceOrd W e o bits) := by
  unfold Prim.readSliceOrd
  dsimp only
  refine bind0 (assert _) fun _ => ?_
  split
  · exact pure _
  · split
    · exact pure _
    · cases o
      case lsb0 => exact bind0 (insertZeros _ _ _ _) fun _ => pure _
      case msb0 =>
        cases e
        · dsimp only
          split
          · exact bind0 (panic _) fun _ => bind0 (insertZeros _ _ _ _) fun _ => bind0 (pure _) fun _ => pure _
          · exact bind0 (pure _) fun _ => bind0 (insertZeros _ _ _ _) fun _ => bind0 (pure _) fun _ => pure _
        · exact bind0 (pure _) fun _ => bind0 (insertZeros _ _ _ _) fun _ => bind0 (insertZeros _ _ _ _) fun _ => pure _

theorem readBits (W : Nat) (e : Endian) (n : Nat) : Counts n (Prim.readBits W e n) := by
  unfold Prim.readBits
  split
  · exact throw _ _
  · split
    · exact (readBitsUintMsb0 n).map fun _ => pure _
    · exact (readBitsInto n _).map fun _ => readSlice _ _ _

theorem readBitsOrd (W : Nat) (e : Endian) (n : Nat) (o : Order) : Counts n (Prim.readBitsOrd W e n o) := by
  unfold Prim.readBitsOrd
  split
  · exact throw _ _
  · split
    · exact (readBitsUintMsb0 n).map fun _ => pure _
    · exact (readBitsInto n _).map fun _ => readSliceOrd _ _ _ _

theorem readUBytesOrd (W : Nat) (e : Endian) (k : Nat) (o : Order) :
    Counts (if W = 1 then 8 else 8 * k) (Prim.readUBytesOrd W e k o) := by
  unfold Prim.readUBytesOrd
  split
  · unfold Prim.readU8Bytes
    exact (readBytesConstInto 1 o).map fun _ => pure _
  · unfold Prim.readBytesOrd
    split
    · exact throw _ _
    · rw [Nat.mul_comm]
      exact (readBytes k o).map fun _ => pure _

theorem readWhole (W : Nat) (e : Endian) : Counts (8 * W) (Prim.readWhole W e) := by
  unfold Prim.readWhole
  rw [Nat.mul_comm]
  exact (readBytesConstInto W _).map fun _ => pure _

theorem cast {j k : Nat} {f : M Reader α} (h : Counts j f) (e : j = k) : Counts k f := e ▸ h

/-- Integers take as many bits as their size says. -/
theorem readUnsigned (native e : Endian) (W n : Nat) (o : Order) (ctx : IntCtx) (hs : ctx.shape native W = (e, n, o))
    (h1 : 1 ≤ n) (hn : n ≤ 8 * W) : Counts n (Prim.readUnsigned native W ctx) := by
  cases ctx <;> simp only [IntCtx.shape, Prod.mk.injEq] at hs <;> obtain ⟨rfl, rfl, rfl⟩ := hs <;>
    simp only [Prim.readUnsigned]
  · exact readWhole _ _
  · exact readWhole _ _
  · split
    · refine (readUBytesOrd _ _ _ _).cast ?_
      split <;> omega
    · exact readBits _ _ _
  · exact readUBytesOrd _ _ _ _
  · refine (readUBytesOrd _ _ _ _).cast ?_
    split <;> omega
  · refine (readUBytesOrd _ _ _ _).cast ?_
    split <;> omega
  · exact readBits _ _ _
  · exact readUBytesOrd _ _ _ _
  · split
    · refine (readUBytesOrd _ _ _ _).cast ?_
      split <;> omega
    · exact readBitsOrd _ _ _ _
  · exact readBitsOrd _ _ _ _
  · exact readUBytesOrd _ _ _ _

theorem uintCodec (native e : Endian) (W n : Nat) (o : Order) (ctx : IntCtx) (hs : ctx.shape native W = (e, n, o))
    (h1 : 1 ≤ n) (hn : n ≤ 8 * W) : Counts n (Deku.uintCodec native W ctx).read :=
  (readUnsigned native e W n o ctx hs h1 hn).map fun _ => pure _

theorem arrayRead {k : Nat} {f : M Reader α} (h : Counts k f) : ∀ n, Counts (n * k) (Coll.arrayRead f n)
  | 0 => by rw [Nat.zero_mul]; exact pure _
  | n + 1 => by
    unfold Coll.arrayRead
    rw [Nat.succ_mul, Nat.add_comm]
    exact h.bind fun _ => (arrayRead h n).map fun _ => pure _

theorem check (a : Attrs) (env : Env) (v : Val) : Counts 0 (a.check env v) := by
  unfold Attrs.check
  split
  · exact throw _ _
  · split
    · exact pure _
    · split
      · exact throw _ _
      · exact pure _

theorem attrs {a : Attrs} {native : Endian} {rd : Env → M Reader Val} {env : Env} {k : Nat} (h : ∀ env, Counts k (rd env))
    (hs : a.seek = none) (hm : a.magic = []) (hb : a.padBefore = none) (ha : a.padAfter = none) (hk : a.skip = none)
    (hc : a.cond = none) : Counts k (a.read native rd env) := by
  unfold Attrs.read
  rw [hs, hm, hb, ha]
  refine bind0 (pure _) fun _ => bind0 (pure _) fun _ => bind0 (pure _) fun _ => bind0 get fun r => ?_
  refine (?_ : Counts k _).map fun v => bind0 (check _ _ _) fun _ => bind0 (pure _) fun _ => pure _
  unfold Attrs.value
  rw [show ∀ env, a.isRead env = true by intro env; unfold Attrs.isRead; rw [hk, hc]]
  rw [if_pos rfl]
  refine (h _).map fun _ => ?_
  unfold Attrs.applyMap
  split
  · exact pure _
  · exact throw _ _

end Counts

mutual

/-- A type of `k` bits always takes `k` bits. -/
theorem Ty.Takes.counts (m : Machine) : ∀ (t : Ty) (k : Nat), t.Takes k → ∀ env, Counts k (t.read m env)
  | .prim _ _, k, h, env => by
    rw [Ty.Takes] at h
    rw [Ty.read]
    exact h env
  | .option _, k, h, env => by rw [Ty.Takes] at h; exact h.elim
  | .array n t, k, h, env => by
    rw [Ty.Takes] at h
    obtain ⟨j, h, rfl⟩ := h
    rw [Ty.read]
    exact ((Ty.Takes.counts m t j h env).arrayRead n).map fun _ => .pure _
  | .pair a b, k, h, env => by
    rw [Ty.Takes] at h
    obtain ⟨i, j, ha, hb, rfl⟩ := h
    rw [Ty.read]
    exact (Ty.Takes.counts m a i ha env).bind fun _ => (Ty.Takes.counts m b j hb env).map fun _ => .pure _
  | .vec _ _ _, k, h, env => by rw [Ty.Takes] at h; exact h.elim
  | .bytes _ _, k, h, env => by rw [Ty.Takes] at h; exact h.elim
  | .struct args seek magic fs, k, h, env => by
    rw [Ty.Takes] at h
    obtain ⟨rfl, rfl, h⟩ := h
    rw [Ty.read]
    exact .bind0 (.pure _) fun _ => .bind0 (.pure _) fun _ => Fields.Takes.counts m fs k h _
  | .enum _ _ _ _ _, k, h, env => by rw [Ty.Takes] at h; exact h.elim

theorem Fields.Takes.counts (m : Machine) : ∀ (fs : Fields) (k : Nat), fs.Takes k → ∀ env, Counts k (fs.read m env)
  | .nil, k, h, env => by
    rw [Fields.Takes] at h
    rw [h, Fields.read]
    exact .pure _
  | .cons a t rest, k, h, env => by
    rw [Fields.Takes] at h
    obtain ⟨hs, hm, hb, ha, hk, hc, i, j, ht, hr, rfl⟩ := h
    rw [Fields.read]
    exact (Counts.attrs (Ty.Takes.counts m t i ht) hs hm hb ha hk hc).bind fun _ =>
      (Fields.Takes.counts m rest j hr _).map fun _ => .pure _
  | .temp a t f rest, k, h, env => by
    rw [Fields.Takes] at h
    obtain ⟨hs, hm, hb, ha, hk, hc, i, j, ht, hr, rfl⟩ := h
    rw [Fields.read]
    exact (Counts.attrs (Ty.Takes.counts m t i ht) hs hm hb ha hk hc).bind fun _ => Fields.Takes.counts m rest j hr _

end

/-! ## `SIZE_BITS` -/

theorem Ty.under_size (φ : Env → Env) : ∀ t : Ty, (t.under φ).size = t.size
  | .prim _ _ => by rw [Ty.under, Ty.size, Ty.size]
  | .option _ => by rw [Ty.under, Ty.size, Ty.size]
  | .array n t => by rw [Ty.under, Ty.size, Ty.size, Ty.under_size φ t]
  | .pair a b => by rw [Ty.under, Ty.size, Ty.size, Ty.under_size φ a, Ty.under_size φ b]
  | .vec _ _ _ => by rw [Ty.under, Ty.size, Ty.size]
  | .bytes _ _ => by rw [Ty.under, Ty.size, Ty.size]
  | .struct _ _ _ _ => by rw [Ty.under, Ty.size, Ty.size]
  | .enum _ _ id _ _ => by cases id <;> rw [Ty.under, Ty.size, Ty.size]

theorem padConst_under (p : Option (Env → Int)) (h : ∀ f, p = some f → ∀ env, f env = f {}) (φ : Env → Env) :
    padConst (p.map fun f env => f (φ env)) = padConst p := by
  cases p with
  | none => rfl
  | some f => simp only [Option.map_some, padConst, h f rfl]

theorem Fields.under_size (φ : Nat → Env → Env) (g : Val → Val) : ∀ (fs : Fields) (k : Nat), fs.ConstPads →
    (fs.under φ g k).size = fs.size
  | .nil, _, _ => by rw [Fields.under]
  | .cons a t rest, k, h => by
    obtain ⟨h1, h2, h3⟩ := h
    rw [Fields.under, Fields.size, Fields.size, Fields.under_size φ g rest (k + 1) h3, Ty.under_size]
    have e1 : padConst (a.under (φ k) (φ (k + 1))).padBefore = padConst a.padBefore := padConst_under _ h1 _
    have e2 : padConst (a.under (φ k) (φ (k + 1))).padAfter = padConst a.padAfter := padConst_under _ h2 _
    have e3 : (a.under (φ k) (φ (k + 1))).seek.isSome = a.seek.isSome := Option.isSome_map
    rw [e1, e2, e3]
    rfl
  | .temp a t f rest, k, h => by
    rw [Fields.under, Fields.size, Fields.size, Fields.under_size φ g rest (k + 1) h]
    have e3 : (a.under (φ k) (φ (k + 1))).seek.isSome = a.seek.isSome := Option.isSome_map
    rw [e3]

theorem Fields.append_size (gs : Fields) : ∀ fs : Fields,
    (fs.append gs).size = (do let a ← fs.size; let b ← gs.size; pure (a + b))
  | .nil => by
    rw [Fields.append, Fields.size]
    cases gs.size <;> simp
  | .cons a t rest => by
    rw [Fields.append, Fields.size, Fields.size, Fields.append_size gs rest]
    split
    · rfl
    · rcases a.sizeAttr with _ | k
      · cases t.size <;> cases rest.size <;> cases gs.size <;> simp [Nat.add_assoc]
      · cases rest.size <;> cases gs.size <;> simp [Nat.add_assoc]
  | .temp a t f rest => by
    rw [Fields.append, Fields.size, Fields.size, Fields.append_size gs rest]
    split <;> rfl

theorem together_size (pre inner post : Fields) (args : Env → List Val) (h1 : pre.ConstPads) (h2 : inner.ConstPads)
    (h3 : post.ConstPads) : (together pre inner post args).size = (apart pre inner post args).size := by
  rw [together, apart, Fields.append_size, Fields.append_size, Fields.append_size, Fields.under_size _ _ pre _ h1,
    Fields.under_size _ _ inner _ h2, Fields.size, Ty.size, Fields.under_size _ _ post _ h3]
  cases pre.size <;> cases inner.size <;> cases post.size <;> simp [padConst]

end Deku
