import Verif.Lemmas.SharedList
import Verif.Props.SharedBody

/-!
# Properties of lists of structs whose fields share bytes: C115
-/

namespace Deku

open HeadSlot Writer

/-- **C115.** A `Vec` with a count of structs whose fields share bytes: the structs are written one after the other, and all values come
back, with what was appended as the rest. The bit order in which a struct ends does not matter to the next. -/
theorem C115_a_list_of_headers_comes_back (m : Machine) (env : Env) (size : Nat) (hz : size ≠ 0) (n : Env → Int) (ts : List (Nat × IntCtx))
    (hs : List (List HeadSlot)) (h : ∀ ss ∈ hs, headKinds ss = ts ∧ ∀ s ∈ ss, s.Fits m.native) (hn : n env = hs.length) (hm : hs.length ≤ m.mem)
    (h64 : hs.length < 2 ^ 64) :
    ∃ out, toBytes ((headList m.native size n ts).write m env (headListValue hs)) = .ok out ∧
      bytesBits out = hs.flatten.flatMap (bits m.native) ∧
      ∀ more, fromBytes ((headList m.native size n ts).read m env) (out ++ more) 0 = .ok ((more, 0), headListValue hs) := by
  obtain ⟨out, _, h1, h2, _⟩ := C113_integers_share_bytes m.native hs.flatten (by
    intro s hs'
    obtain ⟨ss, hss, hs'⟩ := List.mem_flatten.1 hs'
    exact (h ss hss).2 s hs')
  refine ⟨out, ?_, h2, fun more => ?_⟩
  · rw [headList, headListValue, Ty.write, if_pos (isList_ofList _), elems_ofList, headList_write m ts env hs h]
    exact h1
  · have ho : out = (hs.map fun ss => Prim.bytesOf .msb0 (ss.flatMap (bits m.native))).flatten :=
      bytesBits_inj (h2.trans (bytesBits_heads m.native hs fun ss hss => (h ss hss).2).symm)
    let xs : List (List Byte × Val) := hs.map fun ss => (Prim.bytesOf .msb0 (ss.flatMap (bits m.native)), intValue (headValues ss))
    have hx : ∀ x ∈ xs, ReadsBytes ((intStruct m.native ts).read m env) x.1 x.2 := by
      intro x hx
      obtain ⟨ss, hss, rfl⟩ := List.mem_map.1 hx
      obtain ⟨hk, hf⟩ := h ss hss
      rw [← hk, headKinds, intStruct_read]
      have := (head_reads m.native ss hf (head_bytes m.native ss hf)).bind (g := fun vs => pure (intValue vs))
        (ReadsBytes.pure (intValue (headValues ss)))
      rwa [List.append_nil] at this
    have h1x : (xs.map Prod.fst).flatten = out := by rw [ho]; simp only [xs, List.map_map]; rfl
    have h2x : xs.map Prod.snd = hs.map fun ss => intValue (headValues ss) := by simp only [xs, List.map_map]; rfl
    have hl : xs.length = hs.length := by simp [xs]
    obtain ⟨r, e, b⟩ := vecRead_reads (τ := List Val) xs hx hz (by rw [hl]; exact hm) (Reader.new_at (out ++ more)) (rest := more)
      (by rw [h1x]; simp [Reader.new])
    rw [h1x] at b
    rw [h2x, hl] at e
    have hb : r.bitsRead = 8 * out.length := by rw [b]; simp [Reader.new]
    refine fromBytes_ok_iff.2 ⟨r, ?_, ?_, ?_, ?_⟩
    · have hu : toUsize (σ := Reader) (n env) = pure hs.length := by
        rw [toUsize, hn, if_pos (by omega)]; rfl
      rw [readFrom_zero, headList, Ty.read, LimitE.eval, hu]
      have := M.bind_ok e (fun vs => pure (Val.ofList vs))
      exact this
    · rw [hb, List.length_append]; omega
    · rw [hb, show 8 * out.length / 8 = out.length by omega, List.drop_left]
    · omega

/-- **C115.** A `Vec` with `read_all` of such structs: the input is read to its end, although a byte is peeked before every struct. -/
theorem C115_headers_to_the_end_come_back (m : Machine) (env : Env) (size : Nat) (hz : size ≠ 0) (ts : List (Nat × IntCtx)) (hts : ts ≠ [])
    (hs : List (List HeadSlot)) (h : ∀ ss ∈ hs, headKinds ss = ts ∧ ∀ s ∈ ss, s.Fits m.native) (hm : hs.length ≤ m.mem) :
    ∃ out, toBytes ((headRest m.native size ts).write m env (headListValue hs)) = .ok out ∧
      bytesBits out = hs.flatten.flatMap (bits m.native) ∧
      fromBytes ((headRest m.native size ts).read m env) out 0 = .ok (([], 0), headListValue hs) := by
  obtain ⟨out, _, h1, h2, h3⟩ := C113_integers_share_bytes m.native hs.flatten (by
    intro s hs'
    obtain ⟨ss, hss, hs'⟩ := List.mem_flatten.1 hs'
    exact (h ss hss).2 s hs')
  refine ⟨out, ?_, h2, ?_⟩
  · rw [headRest, headListValue, Ty.write, if_pos (isList_ofList _), elems_ofList, headList_write m ts env hs h]
    exact h1
  · let xs : List (List Bool × Val) := hs.map fun ss => (ss.flatMap (bits m.native), intValue (headValues ss))
    have h1x : (xs.map Prod.fst).flatten = bytesBits out := by
      rw [h2]; simp only [xs, List.map_map]
      clear h1 h2 h3 hm h xs
      induction hs with
      | nil => rfl
      | cons ss hs ih => rw [List.map_cons, List.flatten_cons, ih, List.flatten_cons, List.flatMap_append]; rfl
    have h2x : xs.map Prod.snd = hs.map fun ss => intValue (headValues ss) := by simp only [xs, List.map_map]; rfl
    obtain ⟨r, e, b⟩ := vecEndLoop_reads (f := (intStruct m.native ts).read m env) xs (fun x hx => by
        obtain ⟨ss, hss, rfl⟩ := List.mem_map.1 hx
        obtain ⟨hk, hf⟩ := h ss hss
        refine ⟨head_ne hf (by rw [hk]; exact hts), fun r more h8 hr hu => ?_⟩
        obtain ⟨r', e, u, b, l, _⟩ := reads_slots m.native more h8 ss hf hr hu
        refine ⟨r', ?_, u, by rw [b, length_all m.native ss hf], l⟩
        rw [← hk, headKinds, intStruct_read, M.bind_ok e]; rfl)
      (fun x hx => by
        obtain ⟨ss, hss, rfl⟩ := List.mem_map.1 hx
        exact length_bits m.native ss (h ss hss).2)
      m.mem (by simpa [xs] using hm) (Reader.new { data := out }) (Reader.new_at out).live ((unread_new .msb0 out).trans h1x.symm)
    rw [h1x, length_bytesBits] at b
    rw [h2x] at e
    have hb : r.bitsRead = 8 * out.length := by rw [b]; simp [Reader.new]
    refine fromBytes_ok_iff.2 ⟨r, ?_, ?_, ?_, ?_⟩
    · rw [readFrom_zero, headRest, Ty.read, LimitE.eval]
      simp only [Coll.vecRead, Coll.vecToEnd, if_neg hz]
      exact M.bind_ok e (fun vs => pure (Val.ofList vs))
    · rw [hb]; omega
    · rw [hb, show 8 * out.length / 8 = out.length by omega, List.drop_length]
    · omega

/-- A hundred structs, read to the end. -/
example (env : Env) (size : Nat) (hz : size ≠ 0) (a b c d e : Nat) (h1 : a < 8 ∧ b < 32 ∧ c < 2 ^ 32 ∧ d < 2 ∧ e < 128) :
    ∃ out, fromBytes ((headRest .little size (headKinds (someHeader 0 0 0 0 0))).read ⟨.little, 1000⟩ env) out 0 =
        .ok (([], 0), headListValue (List.replicate 100 (someHeader a b c d e))) := by
  obtain ⟨out, _, _, e2⟩ := C115_headers_to_the_end_come_back ⟨.little, 1000⟩ env size hz (headKinds (someHeader 0 0 0 0 0)) (by simp [headKinds, someHeader, fields])
    (List.replicate 100 (someHeader a b c d e)) (by
      intro ss hss
      rw [List.eq_of_mem_replicate hss]
      exact ⟨rfl, by simp [someHeader, Fits, IntField.size, IntCtx.shape, IntCtx.isBits, Order.opposite]; omega⟩)
    (by simp)
  exact ⟨out, e2⟩

/-- Two structs that begin and end in an Lsb0 field. -/
example (env : Env) (size : Nat) (hz : size ≠ 0) (a b c d e f g h i j : Nat) (h1 : a < 8 ∧ b < 32 ∧ c < 2 ^ 32 ∧ d < 2 ∧ e < 128)
    (h2 : f < 8 ∧ g < 32 ∧ h < 2 ^ 32 ∧ i < 2 ∧ j < 128) :
    ∃ out, toBytes ((headList .little size (fun _ => 2) (headKinds (someHeader 0 0 0 0 0))).write ⟨.little, 1000⟩ env
      (headListValue [someHeader a b c d e, someHeader f g h i j])) = .ok out ∧
      fromBytes ((headList .little size (fun _ => 2) (headKinds (someHeader 0 0 0 0 0))).read ⟨.little, 1000⟩ env) out 0 =
        .ok (([], 0), headListValue [someHeader a b c d e, someHeader f g h i j]) := by
  obtain ⟨out, e1, _, e2⟩ := C115_a_list_of_headers_comes_back ⟨.little, 1000⟩ env size hz (fun _ => 2) (headKinds (someHeader 0 0 0 0 0))
    [someHeader a b c d e, someHeader f g h i j] (by
      intro ss hss
      simp only [List.mem_cons, List.not_mem_nil, or_false] at hss
      rcases hss with rfl | rfl
      · exact ⟨rfl, by simp [someHeader, Fits, IntField.size, IntCtx.shape, IntCtx.isBits, Order.opposite]; omega⟩
      · exact ⟨rfl, by simp [someHeader, Fits, IntField.size, IntCtx.shape, IntCtx.isBits, Order.opposite]; omega⟩)
    rfl (by simp) (by simp)
  have e3 := e2 []
  rw [List.append_nil] at e3
  exact ⟨out, e1, e3⟩

end Deku
