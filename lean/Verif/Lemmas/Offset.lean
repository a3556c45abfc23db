import Verif.Spec.Offset
import Verif.Lemmas.Size

/-! # The offset seen by attribute expressions -/

namespace Deku

open Reader Writer Coll

theorem Writer.Tracked.grew {n : Nat} {w w' : Writer} (h : w.Tracked) (hg : Grew n w w') : w'.Tracked :=
  ⟨hg.wf, hg.healthy h.healthy, by have := hg.counted; have := h.counted; omega⟩

/-- `bits_written` is the number of bits taken in, without those that are pending. -/
theorem Writer.Tracked.bitsWritten_eq {w : Writer} (h : w.Tracked) : w.bitsWritten = 8 * (w.total / 8) := by
  have := h.counted
  have := h.wf.2
  simp only [Writer.total]
  omega

theorem Tracks.pure : Tracks (Pure.pure ()) := by
  intro w u w' hw he
  simp at he
  subst he
  exact hw

theorem Tracks.throw (e : DekuError) : Tracks (M.throw e) := fun w u w' _ he => by simp [M.throw] at he
theorem Tracks.panic : Tracks M.panic := fun w u w' _ he => by simp [M.panic] at he

theorem Tracks.bind {g g' : M Writer Unit} (h : Tracks g) (h' : Tracks g') : Tracks (g >>= fun _ => g') := by
  intro w u w' hw he
  obtain ⟨a, w1, e1, e2⟩ := M.bind_eq_ok he
  exact h' w1 u w' (h w a w1 hw e1) e2

theorem Tracks.of_took {n : Nat} {g : M Writer Unit} (h : ∀ w : Writer, w.WF → w.Healthy → Took n w (g w)) :
    Tracks g := by
  intro w u w' hw he
  obtain ⟨w1, e1, hg⟩ := (h w hw.wf hw.healthy).ok hw.healthy
  rw [he] at e1
  simp at e1
  subst e1
  exact hw.grew hg

theorem writeAll_tracks {α : Type} {g : α → M Writer Unit} (hg : ∀ x, Tracks (g x)) (vs : List α) :
    Tracks (Coll.writeAll g vs) := by
  induction vs with
  | nil => exact Tracks.pure
  | cons v vs ih => exact (hg v).bind ih

theorem u8Write_tracks (native : Endian) (b : Byte) : Tracks (u8Write native .unit b) :=
  Tracks.of_took fun w hw hh => by
    have := Prim.writeUnsigned_takes native (W := 1) .unit (v := b.toNat) hw hh
    simp only [IntCtx.shape] at this
    exact this (by omega) (by omega) (fun h => by simp [IntCtx.isBits] at h)

theorem magicWrite_tracks (native : Endian) (magic : List Byte) : Tracks (magicWrite native magic) :=
  writeAll_tracks (u8Write_tracks native) magic

theorem padLoop_tracks (order : Order) (fuel n : Nat) : Tracks (padLoop order fuel n) := by
  induction fuel generalizing n with
  | zero => exact Tracks.pure
  | succ fuel ih =>
    simp only [padLoop]
    split
    · exact Tracks.pure
    · exact (Tracks.of_took fun w hw _ => writeBitsOrder_took hw order _).bind (ih _)

theorem padWrite_tracks (order : Option Order) (pad : Option (Env → Int)) (env : Env) :
    Tracks (padWrite order pad env) := by
  cases pad with
  | none => exact Tracks.pure
  | some f =>
    simp only [padWrite, padSize]
    split
    · rw [M.pure_bind]; exact padLoop_tracks _ _ _
    · intro r a r' _ he
      simp [M.bind_def, M.throw] at he

theorem check_tracks (a : Attrs) (env : Env) (v : Val) : Tracks (a.check env v) := by
  unfold Attrs.check
  split
  · exact Tracks.throw _
  · split
    · exact Tracks.pure
    · split
      · exact Tracks.throw _
      · exact Tracks.pure

theorem Attrs.write_tracks {a : Attrs} {wr : Env → Val → M Writer Unit} (ha : a.seek = none)
    (native : Endian) (h : ∀ env v, Tracks (wr env v)) (env : Env) (v : Val) :
    Tracks (a.write native wr env v) := by
  simp only [Attrs.write, ha, seekWrite, M.pure_bind]
  refine (magicWrite_tracks native _).bind ((padWrite_tracks _ _ _).bind ?_)
  intro w u w' hw he
  rw [M.get_bind_run] at he
  refine ((check_tracks _ _ _).bind ((?_ : Tracks _).bind (padWrite_tracks _ _ _))) w u w' hw he
  unfold Attrs.put
  generalize env.at (if a.usesOffset = true then w.bitsWritten else 0) = env'
  cases a.isWritten env' with
  | true => exact h _ _
  | false => exact Tracks.pure

mutual

theorem Ty.tracks (m : Machine) : ∀ (t : Ty) (env : Env) (v : Val), t.Tracks → Deku.Tracks (t.write m env v)
  | .prim _ c, env, v, h => by
    simp only [Ty.Tracks] at h
    simp only [Ty.write]
    exact h env v
  | .option t, env, v, h => by
    simp only [Ty.Tracks] at h
    simp only [Ty.write]
    split
    · exact Tracks.pure
    · exact Ty.tracks m t env _ h
    · exact Tracks.panic
  | .array n t, env, v, h => by
    simp only [Ty.Tracks] at h
    simp only [Ty.write]
    split
    · exact writeAll_tracks (fun x => Ty.tracks m t env x h) _
    · exact Tracks.panic
  | .pair a b, env, v, h => by
    simp only [Ty.Tracks] at h
    simp only [Ty.write]
    split
    · exact (Ty.tracks m a env _ h.1).bind (Ty.tracks m b env _ h.2)
    · exact Tracks.panic
  | .vec _ _ t, env, v, h => by
    simp only [Ty.Tracks] at h
    simp only [Ty.write]
    split
    · exact writeAll_tracks (fun x => Ty.tracks m t env x h) _
    · exact Tracks.panic
  | .bytes _ ctx, env, v, h => by
    simp only [Ty.Tracks] at h
    simp only [Ty.write]
    split
    · rw [h env]; exact writeAll_tracks (u8Write_tracks _) _
    · exact Tracks.panic
  | .struct args sk magic fs, env, v, h => by
    simp only [Ty.Tracks] at h
    obtain ⟨rfl, hf⟩ := h
    simp only [Ty.write, seekWrite, M.pure_bind]
    exact (magicWrite_tracks _ _).bind (Fields.tracks m fs _ _ _ hf)
  | .enum args magic id store vs, env, v, h => by
    simp only [Ty.Tracks] at h
    cases v with
    | variant i fs =>
      simp only [Ty.write]
      exact (magicWrite_tracks _ _).bind (Variants.tracks m vs _ id (store i) i fs h.1 (h.2.1 i) h.2.2)
    | _ => simp only [Ty.write]; exact Tracks.panic

theorem Fields.tracks (m : Machine) : ∀ (fs : Fields) (env : Env) (all v : Val), fs.Tracks →
    Deku.Tracks (fs.write m env all v)
  | .nil, env, all, v, h => by
    simp only [Fields.write]
    split
    · exact Tracks.pure
    · exact Tracks.panic
  | .cons a t tl, env, all, v, h => by
    simp only [Fields.Tracks] at h
    simp only [Fields.write]
    split
    · exact (Attrs.write_tracks h.1 _ (fun env v => Ty.tracks m t env v h.2.1) env _).bind
        (Fields.tracks m tl _ _ _ h.2.2)
    · exact Tracks.panic
  | .temp a t f tl, env, all, v, h => by
    simp only [Fields.Tracks] at h
    simp only [Fields.write]
    split
    · exact (Attrs.write_tracks h.1 _ (fun env v => Ty.tracks m t env v h.2.1) env _).bind
        (Fields.tracks m tl _ _ _ h.2.2)
    · exact (Attrs.write_tracks h.1 _ (fun _ _ => Tracks.pure) env _).bind (Fields.tracks m tl _ _ _ h.2.2)

theorem Fields.restTracks (m : Machine) : ∀ (fs : Fields) (env : Env) (store : Env → Val → M Writer Unit)
    (v : Val), fs.Tracks → (∀ env v, Deku.Tracks (store env v)) → Deku.Tracks (fs.writeStored m store env v)
  | .nil, env, store, v, _, _ => by
    simp only [Fields.writeStored]
    split
    · exact Tracks.pure
    · exact Tracks.panic
  | .cons a t tl, env, store, v, h, hs => by
    simp only [Fields.Tracks] at h
    simp only [Fields.writeStored]
    split
    · exact (hs _ _).bind (Fields.tracks m tl _ _ _ h.2.2)
    · exact Tracks.panic
  | .temp _ _ _ _, _, _, _, _, _ => by
    simp only [Fields.writeStored]
    exact Tracks.panic

theorem Variants.tracks (m : Machine) : ∀ (vs : Variants) (env : Env) (id : IdSrc)
    (store : Env → Val → M Writer Unit) (i : Nat) (v : Val),
    (match id with | .ctx _ => True | .typed _ c => ∀ env v, Deku.Tracks ((c env).write v)) →
    (∀ env v, Deku.Tracks (store env v)) → vs.Tracks →
    Deku.Tracks (vs.writeAt m env id store i v)
  | .nil, env, id, store, i, v, _, _, _ => by
    simp only [Variants.writeAt]
    exact Tracks.panic
  | .cons a fs tl, env, id, store, 0, v, hc, hs, h => by
    simp only [Variants.Tracks] at h
    simp only [Variants.writeAt]
    have hb : Deku.Tracks (if a.idPat = true then fs.writeStored m store env v else fs.write m env v v) := by
      split
      · exact Fields.restTracks m fs env store v h.1 hs
      · exact Fields.tracks m fs env v v h.1
    cases id with
    | ctx e => exact hb
    | typed s c =>
      rcases hid : a.id with _ | x
      · exact hb
      · exact (hc env x).bind hb
  | .cons a fs tl, env, id, store, i + 1, v, hc, hs, h => by
    simp only [Variants.Tracks] at h
    simp only [Variants.writeAt]
    exact Variants.tracks m tl env id store i v hc hs h.2

end

theorem uint_tracks {native e : Endian} {W n : Nat} {ctx : IntCtx} {o : Order}
    (hs : ctx.shape native W = (e, n, o)) (h1 : 1 ≤ n) (hn : n ≤ 8 * W) (v : Val) :
    Tracks ((uintCodec native W ctx).write v) := by
  intro w u w' hw he
  obtain ⟨k, rfl, hk, he⟩ := uint_accepted he
  have ht := Prim.writeUnsigned_takes native (W := W) ctx (v := k) hw.wf hw.healthy
  rw [hs] at ht
  obtain ⟨w1, e1, hg⟩ := (ht h1 hn fun hb => (accepted_fits hb hs hk he).2).ok hw.healthy
  rw [he] at e1
  simp at e1
  subst e1
  exact hw.grew hg

/-! ### sequences of fields -/

/-- The fields in front are read first. -/
theorem Fields.append_read (m : Machine) : ∀ (pre tl : Fields) (env : Env) (r r' : Reader) (v : Val),
    (pre.append tl).read m env r = (.ok v, r') →
    ∃ v1 v2 env' r1, pre.read m env r = (.ok v1, r1) ∧ tl.read m env' r1 = (.ok v2, r') ∧ v = v1.append v2
  | .nil, tl, env, r, r', v, h => by
    simp only [Fields.append] at h
    exact ⟨.nil, v, env, r, by simp only [Fields.read]; rfl, h, rfl⟩
  | .cons a t pre, tl, env, r, r', v, h => by
    simp only [Fields.append, Fields.read] at h
    obtain ⟨x, r1, e1, h⟩ := M.bind_eq_ok h
    obtain ⟨vs, r2, e2, h⟩ := M.bind_eq_ok h
    simp at h
    obtain ⟨rfl, rfl⟩ := h
    obtain ⟨v1, v2, env', r3, h1, h2, rfl⟩ := Fields.append_read m pre tl _ r1 r2 vs e2
    refine ⟨.cons x v1, v2, env', r3, ?_, h2, rfl⟩
    simp only [Fields.read]
    rw [M.bind_ok e1, M.bind_ok h1]
    rfl
  | .temp a t f pre, tl, env, r, r', v, h => by
    simp only [Fields.append, Fields.read] at h
    obtain ⟨x, r1, e1, h⟩ := M.bind_eq_ok h
    obtain ⟨v1, v2, env', r3, h1, h2, rfl⟩ := Fields.append_read m pre tl _ r1 r' v h
    refine ⟨v1, v2, env', r3, ?_, h2, rfl⟩
    simp only [Fields.read]
    rw [M.bind_ok e1, h1]

/-- The fields in front are written first. -/
theorem Fields.append_write (m : Machine) : ∀ (pre tl : Fields) (env : Env) (all v : Val) (w w' : Writer)
    (u : Unit), (pre.append tl).write m env all v w = (.ok u, w') →
    ∃ v1 v2 env' w1, pre.write m env all v1 w = (.ok (), w1) ∧ tl.write m env' all v2 w1 = (.ok u, w') ∧
      v = v1.append v2
  | .nil, tl, env, all, v, w, w', u, h => by
    simp only [Fields.append] at h
    exact ⟨.nil, v, env, w, by simp only [Fields.write]; rfl, h, rfl⟩
  | .cons a t pre, tl, env, all, v, w, w', u, h => by
    simp only [Fields.append, Fields.write] at h
    split at h
    · rename_i x xs
      obtain ⟨u1, w1, e1, h⟩ := M.bind_eq_ok h
      obtain ⟨v1, v2, env', w3, h1, h2, rfl⟩ := Fields.append_write m pre tl _ all xs w1 w' u h
      refine ⟨.cons x v1, v2, env', w3, ?_, h2, rfl⟩
      simp only [Fields.write]
      rw [M.bind_ok e1, h1]
    · simp [M.panic] at h
  | .temp a t f pre, tl, env, all, v, w, w', u, h => by
    simp only [Fields.append, Fields.write] at h
    cases f with
    | some f =>
      simp only at h
      obtain ⟨u1, w1, e1, h⟩ := M.bind_eq_ok h
      obtain ⟨v1, v2, env', w3, h1, h2, rfl⟩ := Fields.append_write m pre tl _ all v w1 w' u h
      refine ⟨v1, v2, env', w3, ?_, h2, rfl⟩
      simp only [Fields.write]
      rw [M.bind_ok e1, h1]
    | none =>
      simp only at h
      obtain ⟨u1, w1, e1, h⟩ := M.bind_eq_ok h
      obtain ⟨v1, v2, env', w3, h1, h2, rfl⟩ := Fields.append_write m pre tl _ all v w1 w' u h
      refine ⟨v1, v2, env', w3, ?_, h2, rfl⟩
      simp only [Fields.write]
      rw [M.bind_ok e1, h1]

end Deku
