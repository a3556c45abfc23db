import Verif.Lemmas.Receive
import Verif.Props.Core
import Verif.Props.Consistent

/-!
# Properties of a program that receives messages: C85

The program is that of `Spec/Receive.lean`. Also C44, C48 and C56 for definitions that are given as data.
-/

namespace Deku

/-! ## C44, C48 and C56, for definitions given as data -/

/-- **C44, in part.** What is returned as the rest is what has not been consumed: the definition has no `read_all`. -/
theorem C44_rest_of_definitions_partial (m : Machine) (d : Def) (hd : d.bounded = true) (env : Env) (data rest : List Byte)
    (off b : Nat) (v : Val) (h : fromBytes ((d.toTy m).read m env) data off = .ok ((rest, b), v)) :
    ∃ n, fromReader ((d.toTy m).read m env) { data := data } off = .ok (n, v) ∧ off ≤ n ∧ n ≤ 8 * data.length ∧
      rest = data.drop (n / 8) ∧ b = n % 8 ∧ n + (8 * rest.length - b) = 8 * data.length :=
  C44_rest_is_unconsumed_input_partial m _ env (Def.streams m d hd) data rest off b v h

/-- **C48.** What `from_bytes` returns depends only on the bytes it touches. -/
theorem C48_consumed_bytes_suffice_for_definitions (m : Machine) (d : Def) (hd : d.bounded = true) (env : Env)
    (data data' rest : List Byte) (off b : Nat) (v : Val)
    (h : fromBytes ((d.toTy m).read m env) data off = .ok ((rest, b), v))
    (hp : data'.take (data.length - rest.length + (b + 7) / 8) = data.take (data.length - rest.length + (b + 7) / 8)) :
    fromBytes ((d.toTy m).read m env) data' off = .ok ((data'.drop (data.length - rest.length), b), v) :=
  C48_consumed_bytes_suffice m _ env (Def.streams m d hd) data data' rest off b v h hp

theorem Def.cuttable_cases {d : Def} (h : d.cuttable = true) : d.bounded = true ∧ ∃ inside, ∀ m, (d.toTy m).Cuttable inside := by
  simp only [Def.cuttable, Bool.and_eq_true, Bool.or_eq_true] at h
  obtain ⟨hb, h | h⟩ := h
  · exact ⟨hb, false, fun m => d.cuttable_of m false ⟨hb, h⟩⟩
  · exact ⟨hb, true, fun m => d.cuttable_of m true ⟨hb, h⟩⟩

/-- **C56, in part.** An input of which only the first part is there is `Incomplete`, or accepted with all that is
missing being left over, or fails like the whole. -/
theorem C56_cut_input_of_definitions_partial (m : Machine) (d : Def) (hd : d.cuttable = true) (env : Env)
    (a b : List Byte) {off : Nat} (ho : off < 8) (hs : (a ++ b).length < 2 ^ 61) :
    (∃ n, fromBytes ((d.toTy m).read m env) a off = .err (.incomplete n)) ∨
    (∃ rest bit v, fromBytes ((d.toTy m).read m env) a off = .ok ((rest, bit), v) ∧
      fromBytes ((d.toTy m).read m env) (a ++ b) off = .ok ((rest ++ b, bit), v)) ∨
    (∃ e, fromBytes ((d.toTy m).read m env) a off = .err e ∧ fromBytes ((d.toTy m).read m env) (a ++ b) off = .err e) ∨
    fromBytes ((d.toTy m).read m env) a off = .panic ∧ fromBytes ((d.toTy m).read m env) (a ++ b) off = .panic := by
  obtain ⟨_, inside, hc⟩ := Def.cuttable_cases hd
  exact C56_cut_input_partial (hc m) env a b (fun _ => ho) fun _ => hs

/-- **C56, in part.** If a bit of the message is missing, the result is `Incomplete`. -/
theorem C56_missing_bits_of_definitions_partial (m : Machine) (d : Def) (hd : d.cuttable = true) (env : Env)
    (a b : List Byte) {off : Nat} (ho : off < 8) (hs : (a ++ b).length < 2 ^ 61) {rest : List Byte} {bit : Nat} {v : Val}
    (h : fromBytes ((d.toTy m).read m env) (a ++ b) off = .ok ((rest, bit), v))
    (hmiss : 8 * rest.length < 8 * b.length + bit) :
    ∃ n, fromBytes ((d.toTy m).read m env) a off = .err (.incomplete n) := by
  obtain ⟨hb, inside, hc⟩ := Def.cuttable_cases hd
  exact C56_missing_bits_partial (hc m) (Def.streams m d hb) env a b (fun _ => ho) (fun _ => hs) h hmiss

/-! ## C85 -/

theorem steps_of {next : List Byte × Nat → List Byte × Nat} (h : next = packed ∨ next = atNextByte) : Steps next := by
  obtain rfl | rfl := h
  · exact packed_steps
  · exact atNextByte_steps

theorem Def.cuts {d : Def} (h : d.cuttable = true) (m : Machine) (env : Env) :
    Cuts (· < 2 ^ 61) (fromBytes ((d.toTy m).read m env)) := by
  obtain ⟨hb, inside, hc⟩ := Def.cuttable_cases h
  have hcuts := fromBytes_cuts (m := m) (hc m) (Def.streams m d hb) env
  exact ⟨fun h1 h2 => Nat.lt_of_le_of_lt h1 h2, fun a b off ho hl => hcuts.cut a b off ho fun _ => hl, hcuts.rest⟩

/-- **C85, in part.** How the bytes are cut into pieces makes no difference: the same values are delivered, with the same
outcome. -/
theorem C85_pieces_make_no_difference_partial (m : Machine) (d : Def) (hd : d.cuttable = true) (env : Env)
    {next : List Byte × Nat → List Byte × Nat} (hn : next = packed ∨ next = atNextByte) (buf : List Byte) (off : Nat)
    (ho : off < 8) (cs ds : List (List Byte)) (hc : cs ≠ []) (hd' : ds ≠ []) (h : cs.flatten = ds.flatten)
    (hs : (buf ++ cs.flatten).length < 2 ^ 61) {vss wss : List (List Val)} {s t : Status}
    (g1 : Gets (fromBytes ((d.toTy m).read m env)) next (buf, off) cs vss s)
    (g2 : Gets (fromBytes ((d.toTy m).read m env)) next (buf, off) ds wss t) : vss.flatten = wss.flatten ∧ s = t := by
  have h1 := g1.drains (Def.cuts hd m env) (steps_of hn) (.inl hc) ho hs
  have h2 := g2.drains (Def.cuts hd m env) (steps_of hn) (.inl hd') ho (by rw [← h]; exact hs)
  rw [h] at h1
  exact h1.unique h2

/-- **C85, in part.** It is what the program gets from all the bytes at once. -/
theorem C85_pieces_are_like_the_whole_partial (m : Machine) (d : Def) (hd : d.cuttable = true) (env : Env)
    {next : List Byte × Nat → List Byte × Nat} (hn : next = packed ∨ next = atNextByte) (buf : List Byte) (off : Nat)
    (ho : off < 8) (cs : List (List Byte)) (hc : cs ≠ []) (hs : (buf ++ cs.flatten).length < 2 ^ 61)
    {vss : List (List Val)} {s : Status} (g : Gets (fromBytes ((d.toTy m).read m env)) next (buf, off) cs vss s) :
    Drains (fromBytes ((d.toTy m).read m env)) next (buf ++ cs.flatten, off) vss.flatten s :=
  g.drains (Def.cuts hd m env) (steps_of hn) (.inl hc) ho hs

/-- **C85.** If no message is empty the program gets through all pieces: the loop ends. There is one outcome. -/
theorem C85_the_loop_ends (m : Machine) (d : Def) (hb : d.bounded = true) (hv : d.valid m.native = true)
    (hh : d.hungry = true) (env : Env) {next : List Byte × Nat → List Byte × Nat} (hn : next = packed ∨ next = atNextByte)
    (buf : List Byte) (off : Nat) (cs : List (List Byte)) :
    ∃ vss s, Gets (fromBytes ((d.toTy m).read m env)) next (buf, off) cs vss s ∧
      ∀ wss t, Gets (fromBytes ((d.toTy m).read m env)) next (buf, off) cs wss t → wss = vss ∧ t = s := by
  obtain ⟨vss, s, h⟩ := Gets.total (steps_of hn) (fromBytes_eats (env := env) (Def.streams m d hb)
    (Ty.eats m _ _ (Def.runs m d hv) (Def.eats m d hv hh))) cs (buf, off)
  exact ⟨vss, s, h, fun _ _ g => g.unique h⟩

theorem Def.delivers {m : Machine} {d : Def} (hd : d.cuttable = true) (hv : d.valid m.native = true)
    (hh : d.hungry = true) (env : Env) (ms : List (List Byte × Val)) (hne : ms ≠ [])
    (hms : ∀ x ∈ ms, ∃ k, x.1.length = (k + 7) / 8 ∧ ∀ extra, fromBytes ((d.toTy m).read m env) (x.1 ++ extra) 0 =
      .ok (((x.1 ++ extra).drop (k / 8), k % 8), x.2)) (cs : List (List Byte)) (hp : cs.flatten <+: (ms.map (·.1)).flatten)
    (hs : (ms.map (·.1)).flatten.length < 2 ^ 61) :
    ∃ vss, Gets (fromBytes ((d.toTy m).read m env)) atNextByte ([], 0) cs vss (.waiting (arrived ms cs.flatten).2 0) ∧
      ∀ n, (vss.take n).flatten = (arrived ms (cs.take n).flatten).1 := by
  obtain ⟨hb, inside, hc⟩ := Def.cuttable_cases hd
  have hst : (d.toTy m).Streams true := Def.streams m d hb
  have heat := Ty.eats m _ env (Def.runs m d hv) (Def.eats m d hv hh)
  have hsent : ∀ x ∈ ms, Sent (fromBytes ((d.toTy m).read m env)) atNextByte x.1 x.2 := by
    intro x hx
    obtain ⟨k, h1, h2⟩ := hms x hx
    refine fromBytes_sent (hc m) hst env heat h1 h2 fun _ => Nat.lt_of_le_of_lt ?_ hs
    have := List.sublist_flatten_of_mem (List.mem_map_of_mem (f := (·.1)) hx)
    exact this.length_le
  have he : ∃ n, fromBytes ((d.toTy m).read m env) [] 0 = .err (.incomplete n) := by
    cases ms with
    | nil => exact absurd rfl hne
    | cons x ms =>
      have hx := hsent x List.mem_cons_self
      exact hx.part [] x.1 rfl hx.nonempty
  obtain ⟨vss, s, g⟩ := Gets.total atNextByte_steps (fromBytes_eats (env := env) hst heat) cs ([], 0)
  have key : ∀ cs' : List (List Byte), cs'.flatten <+: (ms.map (·.1)).flatten → ∀ wss t,
      Gets (fromBytes ((d.toTy m).read m env)) atNextByte ([], 0) cs' wss t →
      wss.flatten = (arrived ms cs'.flatten).1 ∧ t = .waiting (arrived ms cs'.flatten).2 0 := by
    intro cs' hp' wss t g'
    have h1 := g'.drains (Def.cuts hd m env) atNextByte_steps (.inr he) (by decide)
      (by simpa using Nat.lt_of_le_of_lt hp'.length_le hs)
    exact h1.unique (arrived_drains he ms hsent _ hp')
  obtain ⟨_, rfl⟩ := key cs hp vss s g
  refine ⟨vss, g, fun n => ?_⟩
  have hcs : cs = cs.take n ++ cs.drop n := (List.take_append_drop n cs).symm
  rw [hcs] at g
  obtain ⟨t, gt⟩ := g.front
  have hlen := g.length
  have := (key (cs.take n) (.trans ⟨(cs.drop n).flatten, by rw [← List.flatten_append, ← hcs]⟩ hp) _ _ gt).1
  rw [← this]
  congr 1
  rw [List.length_take]
  by_cases hn : n ≤ cs.length
  · rw [Nat.min_eq_left hn]
  · rw [Nat.min_eq_right (by omega), List.take_of_length_le (by rw [hlen, ← hcs]; omega),
      List.take_of_length_le (by rw [hlen, ← hcs]; omega)]

/-- **C85, in part.** The messages are written by `to_bytes`, one after the other, and arrive in pieces, not all of them perhaps.
After each piece exactly those are delivered that are complete; the rest is in the buffer. The values are those of C75. -/
theorem C85_messages_are_delivered_when_they_are_complete_partial (m : Machine) (t : STy) (d : Def) (o : Order)
    (ht : t.ordered o m.native [] = true) (hi : t.idsNamed = true) (hz : t.sized [] = true) (hd : t.compile = some d)
    (hc : d.cuttable = true) (hh : d.hungry = true) (env : Env) (vs : List Val) (hne : vs ≠ [])
    (hvs : ∀ v ∈ vs, t.consistent o m [] [] env v = true ∧ t.aligned o m.native env v = true) :
    ∃ outs : List (List Byte), vs.map (fun v => toBytes ((d.toTy m).write m env v)) = outs.map .ok ∧
      ∀ cs : List (List Byte), cs.flatten <+: outs.flatten → outs.flatten.length < 2 ^ 61 →
        ∃ vss, Gets (fromBytes ((d.toTy m).read m env)) atNextByte ([], 0) cs vss
            (.waiting (arrived (outs.zip vs) cs.flatten).2 0) ∧
          ∀ n, (vss.take n).flatten = (arrived (outs.zip vs) (cs.take n).flatten).1 := by
  have hw : ∀ vs : List Val, (∀ v ∈ vs, t.consistent o m [] [] env v = true ∧ t.aligned o m.native env v = true) →
      ∃ outs : List (List Byte), outs.length = vs.length ∧ vs.map (fun v => toBytes ((d.toTy m).write m env v)) = outs.map .ok ∧
        ∀ x ∈ outs.zip vs, ∃ k, x.1.length = (k + 7) / 8 ∧ ∀ extra, fromBytes ((d.toTy m).read m env) (x.1 ++ extra) 0 =
          .ok (((x.1 ++ extra).drop (k / 8), k % 8), x.2) := by
    intro vs
    induction vs with
    | nil => exact fun _ => ⟨[], rfl, rfl, nofun⟩
    | cons v vs ih =>
      intro h
      obtain ⟨outs, hl, h1, h2⟩ := ih fun w hw => h w (List.mem_cons_of_mem _ hw)
      obtain ⟨hcv, hav⟩ := h v List.mem_cons_self
      obtain ⟨out, e, hp⟩ := C75_consistent_values_are_written_as_described m t d o ht hi hz hd env v hcv hav
      refine ⟨out :: outs, by simp [hl], by simp [e, h1], fun x hx => ?_⟩
      rw [List.zip_cons_cons, List.mem_cons] at hx
      obtain rfl | hx := hx
      · refine ⟨(t.described o m.native env v).length, ?_, fun extra =>
          C75_consistent_values_are_parsed_as_described m t d o ht hi hz hd env v hcv hav _
            (List.replicate ((8 - (t.described o m.native env v).length % 8) % 8) false ++ orderBits o extra) ?_⟩
        · have := congrArg List.length hp
          rw [Reader.length_orderBits, List.length_append, List.length_replicate] at this
          simp only
          omega
        · rw [orderBits_append, hp, List.append_assoc]
      · exact h2 x hx
  obtain ⟨outs, hl, h1, h2⟩ := hw vs hvs
  refine ⟨outs, h1, fun cs hp hs => ?_⟩
  have hf : (outs.zip vs).map (·.1) = outs := List.map_fst_zip (by omega)
  refine Def.delivers hc (STy.elab_valid m.native t none [] d hz hd) hh env (outs.zip vs) ?_ h2 cs (by rw [hf]; exact hp) (by rw [hf]; exact hs)
  intro h0
  have := congrArg List.length h0
  rw [List.length_zip, hl, Nat.min_self] at this
  exact hne (List.length_eq_zero_iff.1 this)

/-- **C85, in part.** When all bytes are there, all messages have been delivered, each once and in order. -/
theorem C85_all_messages_are_delivered_partial (m : Machine) (t : STy) (d : Def) (o : Order)
    (ht : t.ordered o m.native [] = true) (hi : t.idsNamed = true) (hz : t.sized [] = true) (hd : t.compile = some d)
    (hc : d.cuttable = true) (hh : d.hungry = true) (env : Env) (vs : List Val) (hne : vs ≠ [])
    (hvs : ∀ v ∈ vs, t.consistent o m [] [] env v = true ∧ t.aligned o m.native env v = true) :
    ∃ outs : List (List Byte), vs.map (fun v => toBytes ((d.toTy m).write m env v)) = outs.map .ok ∧
      ∀ cs : List (List Byte), cs.flatten = outs.flatten → outs.flatten.length < 2 ^ 61 →
        ∃ vss, Gets (fromBytes ((d.toTy m).read m env)) atNextByte ([], 0) cs vss (.waiting [] 0) ∧ vss.flatten = vs := by
  obtain ⟨outs, h1, h2⟩ := C85_messages_are_delivered_when_they_are_complete_partial m t d o ht hi hz hd hc hh env vs hne hvs
  refine ⟨outs, h1, fun cs he hs => ?_⟩
  obtain ⟨vss, g, hn⟩ := h2 cs (he ▸ List.prefix_refl _) hs
  have hl : outs.length = vs.length := by simpa using (congrArg List.length h1).symm
  have ha := arrived_all (outs.zip vs)
  rw [List.map_fst_zip (by omega), List.map_snd_zip (by omega)] at ha
  have := hn cs.length
  have hlen := g.length
  rw [List.take_of_length_le (by omega), List.take_of_length_le (by omega), he, ha] at this
  rw [he, ha] at g
  exact ⟨vss, g, this⟩

/-! ### Examples -/

open Example SourceExample

/-- The bit fields of C75. -/
theorem SourceExample.mixed_received : ∃ d, mixed.compile = some d ∧ d.cuttable = true ∧ d.hungry = true := by
  have h : (mixed.compile.map fun d => d.cuttable && d.hungry) = some true := by decide +kernel
  obtain ⟨d, hd, h⟩ := Option.map_eq_some_iff.1 h
  rw [Bool.and_eq_true] at h
  exact ⟨d, hd, h⟩

/-- Two messages arrive in four pieces: the first is delivered with the third piece, the second with the fourth. -/
example : ∃ d, mixed.compile = some d ∧
    Gets (fromBytes ((d.toTy mach).read mach {})) atNextByte ([], 0)
      [[0x74, 1], [2, 9], [5, 0, 1, 0, 2, 0, 0x54], [1, 2, 7, 5, 0, 1, 0, 2, 0]]
      [[], [], [mixedValue 7 9], [mixedValue 5 7]] (.waiting [] 0) := by
  obtain ⟨d, hd, hc, hh⟩ := mixed_received
  obtain ⟨h1, h2, h3, h4, h5, h6, h7, _⟩ := mixed_checked
  have hp : mixed.consistent .lsb0 mach [] [] {} (mixedValue 5 7) = true ∧
    mixed.aligned .lsb0 mach.native {} (mixedValue 5 7) = true := by decide +kernel
  obtain ⟨outs, e, g⟩ := C85_messages_are_delivered_when_they_are_complete_partial mach mixed d .lsb0 h1 h2 h3 hd hc hh {}
    [mixedValue 7 9, mixedValue 5 7] nofun (by
      intro v hv
      simp only [List.mem_cons, List.not_mem_nil, or_false] at hv
      obtain rfl | rfl := hv
      · exact ⟨h5, h6⟩
      · exact hp)
  have ho : (mixed.compile.map fun d => [toBytes ((d.toTy mach).write mach {} (mixedValue 7 9)),
      toBytes ((d.toTy mach).write mach {} (mixedValue 5 7))]) =
    some [.ok [0x74, 1, 2, 9, 5, 0, 1, 0, 2, 0], .ok [0x54, 1, 2, 7, 5, 0, 1, 0, 2, 0]] := by decide +kernel
  rw [hd, Option.map_some, Option.some.injEq] at ho
  simp only [List.map_cons, List.map_nil] at e
  rw [ho] at e
  obtain rfl : outs = [[0x74, 1, 2, 9, 5, 0, 1, 0, 2, 0], [0x54, 1, 2, 7, 5, 0, 1, 0, 2, 0]] := by
    have : ∀ a b : List (List Byte), a.map (Res.ok (α := List Byte)) = b.map .ok → a = b := by
      intro a b h
      exact List.map_inj_right (fun _ _ h => by cases h; rfl) |>.1 h
    exact (this [[0x74, 1, 2, 9, 5, 0, 1, 0, 2, 0], [0x54, 1, 2, 7, 5, 0, 1, 0, 2, 0]] outs e).symm
  obtain ⟨vss, g, hn⟩ := g [[0x74, 1], [2, 9], [5, 0, 1, 0, 2, 0, 0x54], [1, 2, 7, 5, 0, 1, 0, 2, 0]]
    (by decide) (by decide)
  refine ⟨d, hd, ?_⟩
  have hl := g.length
  match vss, hl with
  | [a, b, c, e], _ =>
    have n1 := hn 1
    have n2 := hn 2
    have n3 := hn 3
    have n4 := hn 4
    simp [arrived] at n1 n2 n3 n4
    subst n1
    simp at n2
    subst n2
    simp at n3
    subst n3
    simp at n4
    subst n4
    simpa [arrived] using g

/-- The same message starts in the middle of a byte when the messages are not filled up. -/
example (d : Def) (hd : d.cuttable = true) (buf : List Byte) (hb : buf.length < 2 ^ 60) (cs : List (List Byte))
    (hc : cs ≠ []) (h : cs.flatten = buf) {vss wss : List (List Val)} {s t : Status}
    (g1 : Gets (fromBytes ((d.toTy mach).read mach {})) packed ([], 4) cs vss s)
    (g2 : Gets (fromBytes ((d.toTy mach).read mach {})) packed ([], 4) [buf] wss t) :
    vss.flatten = wss.flatten ∧ s = t :=
  C85_pieces_make_no_difference_partial mach d hd {} (.inl rfl) [] 4 (by decide) cs [buf] hc nofun (by simpa using h)
    (by rw [h, List.nil_append]; omega) g1 g2

/-- **C85** needs `bounded`: a list with `read_all` is over when the piece is. And if there is nothing but the list, the
loop does not end: an empty buffer is a message, too. -/
theorem C85_read_all_ends_with_the_piece :
    (let t : STy := .struct {} (.cons {} u8 (.cons { readAll := true } (.vec false u8) .nil))
     ∃ d, t.compile = some d ∧ d.cuttable = false ∧
     Gets (fromBytes ((d.toTy mach).read mach {})) atNextByte ([], 0) [[1, 2, 3]]
       [[.ofList [.num 1, .ofList [.num 2, .num 3]]]] (.waiting [] 0) ∧
     Gets (fromBytes ((d.toTy mach).read mach {})) atNextByte ([], 0) [[1, 2], [3]]
       [[.ofList [.num 1, .ofList [.num 2]]], [.ofList [.num 3, .nil]]] (.waiting [] 0)) ∧
    (let t : STy := .struct {} (.cons { readAll := true } (.vec false u8) .nil)
     ∃ d, t.compile = some d ∧ ∀ vs s, ¬ Drains (fromBytes ((d.toTy mach).read mach {})) atNextByte ([], 0) vs s) := by
  constructor
  · intro t
    have hs : t.compile.isSome = true := by decide +kernel
    have h0 : (t.compile.map Def.cuttable) = some false := by decide +kernel
    have h1 : (t.compile.map fun d => fromBytes ((d.toTy mach).read mach {}) [] 0) = some (.err (.incomplete 8)) := by
      decide +kernel
    have h2 : (t.compile.map fun d => fromBytes ((d.toTy mach).read mach {}) [1, 2, 3] 0) =
      some (.ok (([], 0), .ofList [.num 1, .ofList [.num 2, .num 3]])) := by decide +kernel
    have h3 : (t.compile.map fun d => fromBytes ((d.toTy mach).read mach {}) [1, 2] 0) =
      some (.ok (([], 0), .ofList [.num 1, .ofList [.num 2]])) := by decide +kernel
    have h4 : (t.compile.map fun d => fromBytes ((d.toTy mach).read mach {}) [3] 0) =
      some (.ok (([], 0), .ofList [.num 3, .nil])) := by decide +kernel
    obtain ⟨d, hd⟩ := Option.isSome_iff_exists.1 hs
    simp only [hd, Option.map_some, Option.some.injEq] at h0 h1 h2 h3 h4
    have hw : Drains (fromBytes ((d.toTy mach).read mach {})) atNextByte ([], 0) [] (.waiting [] 0) :=
      .wait (x := ([], 0)) h1
    exact ⟨d, hd, h0, .piece (y := ([], 0)) (.message h2 hw) .nil,
      .piece (y := ([], 0)) (.message h3 hw) (.piece (y := ([], 0)) (.message h4 hw) .nil)⟩
  · intro t
    have h : (t.compile.map fun d => fromBytes ((d.toTy mach).read mach {}) [] 0) = some (.ok (([], 0), .ofList [.nil])) := by
      decide +kernel
    obtain ⟨d, hd, h⟩ := Option.map_eq_some_iff.1 h
    refine ⟨d, hd, fun vs s hx => ?_⟩
    have key : ∀ x vs s, Drains (fromBytes ((d.toTy mach).read mach {})) atNextByte x vs s → x ≠ ([], 0) := by
      intro x vs s hx
      induction hx with
      | message e _ ih =>
        rintro rfl
        rw [h] at e
        cases e
        exact ih rfl
      | wait e => rintro rfl; rw [h] at e; cases e
      | fail e _ => rintro rfl; rw [h] at e; cases e
      | panic e => rintro rfl; rw [h] at e; cases e
    exact key _ _ _ hx rfl

/-- **C85** needs `cuttable`: behind a `pad_bytes_after` there is a `Vec<u8>` with a `count`. The message is parsed
when it is there as a whole; if a piece ends with the padded field, the program panics. -/
theorem C85_a_piece_that_ends_before_a_padding_panics :
    ∃ d, message.compile = some d ∧ d.cuttable = false ∧ d.hungry = true ∧
    toBytes ((d.toTy mach).write mach {} messageValue) = .ok [2, 0, 80, 0, 1, 2, 1, 2, 3, 0xff, 0xfe, 0x12, 0x34, 8, 9] ∧
    Gets (fromBytes ((d.toTy mach).read mach {})) atNextByte ([], 0) [[2, 0, 80, 0, 1, 2, 1, 2, 3, 0xff, 0xfe, 0x12, 0x34, 8, 9]]
      [[messageValue]] (.waiting [] 0) ∧
    Gets (fromBytes ((d.toTy mach).read mach {})) atNextByte ([], 0) [[2, 0, 80], [0, 1, 2, 1, 2, 3, 0xff, 0xfe, 0x12, 0x34, 8, 9]]
      [[], []] .panicked := by
  have hs : message.compile.isSome = true := by decide +kernel
  have h0 : (message.compile.map Def.cuttable) = some false := by decide +kernel
  have h1 : (message.compile.map Def.hungry) = some true := by decide +kernel
  have h2 : (message.compile.map fun d => toBytes ((d.toTy mach).write mach {} messageValue)) =
    some (.ok [2, 0, 80, 0, 1, 2, 1, 2, 3, 0xff, 0xfe, 0x12, 0x34, 8, 9]) := by decide +kernel
  have h3 : (message.compile.map fun d => fromBytes ((d.toTy mach).read mach {}) [] 0) = some (.err (.incomplete 8)) := by
    decide +kernel
  have h4 : (message.compile.map fun d => fromBytes ((d.toTy mach).read mach {})
    [2, 0, 80, 0, 1, 2, 1, 2, 3, 0xff, 0xfe, 0x12, 0x34, 8, 9] 0) = some (.ok (([], 0), messageValue)) := by decide +kernel
  have h5 : (message.compile.map fun d => fromBytes ((d.toTy mach).read mach {}) [2, 0, 80] 0) = some .panic := by
    decide +kernel
  obtain ⟨d, hd⟩ := Option.isSome_iff_exists.1 hs
  simp only [hd, Option.map_some, Option.some.injEq] at h0 h1 h2 h3 h4 h5
  exact ⟨d, hd, h0, h1, h2, .piece (y := ([], 0)) (.message h4 (.wait (x := ([], 0)) h3)) .nil,
    .stop (cs := [_]) (.panic h5) nofun⟩

/-- The number in `Incomplete` is not that of the bits missing: one byte of five is missing, and it is 32. A program
that waits until so many bits more are there waits for bits that are not sent. -/
theorem C85_incomplete_asks_for_more_than_is_missing :
    let t : STy := .struct {} (.cons {} u8 (.cons {} (.base (.uint 4)) .nil))
    (t.compile.map fun d => fromBytes ((d.toTy mach).read mach {}) [1, 2, 3, 4] 0) = some (.err (.incomplete 32)) ∧
    (t.compile.map fun d => fromBytes ((d.toTy mach).read mach {}) [1, 2, 3, 4, 5] 0) =
      some (.ok (([], 0), .ofList [.num 1, .num 0x05040302])) := by
  constructor <;> decide +kernel

end Deku
