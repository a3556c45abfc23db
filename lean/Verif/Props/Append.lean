import Verif.Lemmas.AppendHas
import Verif.Lemmas.FromBytes
import Verif.Props.Source

/-!
# Properties of fields added at the end of a message: C82

Fields are added at the end of the last struct or variant of a definition (`Spec/Append.lean`). What an old program reads
of a new message is the old part of it, and what a new program writes begins with what the old one writes.
-/

namespace Deku

variable {Q : Fields → Prop}

theorem Leads.readFrom {m : Machine} {c : Val → Val} {f g : M Reader Val} (h : Leads Q m c f g) (off : Nat) :
    Leads Q m c (Deku.readFrom f off) (Deku.readFrom g off) := by
  unfold Deku.readFrom
  by_cases ho : off ≠ 0
  · rw [if_pos ho, if_pos ho]; exact .after _ fun _ => h
  · rw [if_neg ho, if_neg ho]; exact h

/-- What is read by both. -/
theorem Leads.split {m : Machine} {c : Val → Val} {f g : M Reader Val} (h : Leads Q m c f g) {r r2 : Reader} {u : Val}
    (hu : g r = (.ok u, r2)) : ∃ r1, f r = (.ok (c u), r1) ∧ ∃ fs env w, Q fs ∧ fs.read m env r1 = (.ok w, r2) := by
  obtain ⟨h1, h2, h3⟩ := h r
  rcases hf : f r with ⟨x, r1⟩
  cases x with
  | ok v =>
    obtain ⟨fs, env, k, hq, hk, he⟩ := h1 v r1 hf
    rw [hu] at he
    rcases hw : fs.read m env r1 with ⟨y, r3⟩
    cases y with
    | ok w =>
      rw [M.bind_ok hw] at he
      cases he
      exact ⟨r1, by rw [hk], fs, env, w, hq, hw⟩
    | err e => rw [M.bind_err hw] at he; cases he
    | panic => rw [M.bind_panic hw] at he; cases he
  | err e => rw [h2 e r1 hf] at hu; cases hu
  | panic => rw [h3 r1 hf] at hu; cases hu

/-! ## C82 -/

/-- **C82.** Whatever the attributes, wherever the reader stands and whatever happens: the new code does what the old code
does, and if that succeeds, it goes on with added fields; the old code's result is the new code's without them. -/
theorem C82_added_fields_are_read_last (hQ : Q .nil) (m : Machine) (e : Edit) (old new : Ty) (h : e.Makes Q old new)
    (env : Env) (r : Reader) :
    (∀ v r', old.read m env r = (.ok v, r') → ∃ (fs : Fields) (env' : Env) (put : Val → Val), Q fs ∧
      (∀ w, e.cut (put w) = v) ∧
      new.read m env r = (match fs.read m env' r' with
        | (.ok w, r2) => (.ok (put w), r2) | (.err x, r2) => (.err x, r2) | (.panic, r2) => (.panic, r2))) ∧
    (∀ x r', old.read m env r = (.err x, r') → new.read m env r = (.err x, r')) ∧
    (∀ r', old.read m env r = (.panic, r') → new.read m env r = (.panic, r')) := by
  obtain ⟨h1, h2, h3⟩ := e.read_leads hQ m old new h env r
  refine ⟨fun v r' hv => ?_, h2, h3⟩
  obtain ⟨fs, env', put, hq, hp, he⟩ := h1 v r' hv
  refine ⟨fs, env', put, hq, hp, ?_⟩
  rw [he]
  rcases hf : fs.read m env' r' with ⟨x, r2⟩
  cases x with
  | ok w => rw [M.bind_ok hf]; rfl
  | err x => rw [M.bind_err hf]
  | panic => rw [M.bind_panic hf]

/-- **C82.** Whatever the attributes, the state of the writer and the sink: the new code does with a value what the old
code does with the old part of it, and if that succeeds, it goes on with added fields. -/
theorem C82_added_fields_are_written_last (hQ : Q .nil) (m : Machine) (e : Edit) (old new : Ty) (h : e.Makes Q old new)
    (ht : e.Temps old) (env : Env) (u : Val) (hu : e.Shaped u) (w : Writer) :
    (∀ w', old.write m env (e.cut u) w = (.ok (), w') → ∃ (fs : Fields) (env' : Env) (all v : Val), Q fs ∧
      new.write m env u w = fs.write m env' all v w') ∧
    (∀ x w', old.write m env (e.cut u) w = (.err x, w') → new.write m env u w = (.err x, w')) ∧
    (∀ w', old.write m env (e.cut u) w = (.panic, w') → new.write m env u w = (.panic, w')) :=
  e.write_leads hQ m old new h ht env u hu w

/-- **C82.** If the new source compiles, so does the old one, and values of the new type are values of the old one with
fields added. -/
theorem C82_sources_can_be_extended (e : Edit) (old new : STy) (h : e.MakesS old new) (d' : Def)
    (hd : new.compile = some d') :
    (∃ d, old.compile = some d ∧ ∀ m, e.Makes (FromDef m) (d.toTy m) (d'.toTy m)) ∧
    ∀ u, new.has u = true → old.has (e.cut u) = true := by
  refine ⟨?_, fun u hu => (e.has_cut old new h u hu).2⟩
  obtain ⟨d, h1, _⟩ := e.elab_makes ⟨.little, 0⟩ old new h none [] d' hd
  refine ⟨d, h1, fun m => ?_⟩
  obtain ⟨d2, h3, h4, _⟩ := e.elab_makes m old new h none [] d' hd
  have h1 : old.elab none [] = some d := h1
  rw [h1] at h3
  cases h3
  exact h4

theorem FromDef.nil (m : Machine) : FromDef m .nil := ⟨.nil, by rw [DFields.toFields]⟩

/-- **C82.** `from_reader`, on any source with any faults: if the new program reads a message, the old program reads the
old part of it; if the old program reports an error, the new program reports the same. -/
theorem C82_old_programs_follow_new_streams (e : Edit) (old new : STy) (h : e.MakesS old new) (d' : Def)
    (hd : new.compile = some d') : ∃ d, old.compile = some d ∧ ∀ m src off,
      (∀ n u, fromReader ((d'.toTy m).read m {}) src off = .ok (n, u) →
        ∃ n', fromReader ((d.toTy m).read m {}) src off = .ok (n', e.cut u)) ∧
      (∀ x, fromReader ((d.toTy m).read m {}) src off = .err x → fromReader ((d'.toTy m).read m {}) src off = .err x) ∧
      (fromReader ((d.toTy m).read m {}) src off = .panic → fromReader ((d'.toTy m).read m {}) src off = .panic) := by
  obtain ⟨⟨d, h1, h2⟩, _⟩ := C82_sources_can_be_extended e old new h d' hd
  refine ⟨d, h1, fun m src off => ?_⟩
  have hl := (e.read_leads (FromDef.nil m) m _ _ (h2 m) {}).readFrom off
  unfold fromReader
  refine ⟨fun n u hu => ?_, fun x hx => ?_, fun hx => ?_⟩
  · rcases hg : readFrom ((d'.toTy m).read m {}) off (Reader.new src) with ⟨y, r2⟩
    rw [hg] at hu
    cases y with
    | ok v =>
      cases hu
      obtain ⟨r1, e1, _⟩ := hl.split hg
      rw [e1]
      exact ⟨_, rfl⟩
    | err _ => cases hu
    | panic => cases hu
  · rcases hf : readFrom ((d.toTy m).read m {}) off (Reader.new src) with ⟨y, r1⟩
    rw [hf] at hx
    cases y with
    | ok v => cases hx
    | err y => cases hx; rw [(hl _).2.1 x r1 hf]
    | panic => cases hx
  · rcases hf : readFrom ((d.toTy m).read m {}) off (Reader.new src) with ⟨y, r1⟩
    rw [hf] at hx
    cases y with
    | ok v => cases hx
    | err y => cases hx
    | panic => rw [(hl _).2.2 r1 hf]

theorem readFrom_moves {α : Type} {f : M Reader α} (hf : Moves f) (off : Nat) : Moves (readFrom f off) := by
  unfold readFrom
  by_cases ho : off ≠ 0
  · rw [if_pos ho]; exact (skipBits_moves off .msb0).bind fun _ => hf
  · rw [if_neg ho]; exact hf

/-- The old program stops where the added fields begin. -/
theorem Edit.reads_less {m : Machine} {e : Edit} {old new : Ty} (h : e.Makes (FromDef m) old new) (hn : new.Runs)
    {data : List Byte} {off : Nat} {u : Val} {r2 : Reader}
    (hu : readFrom (new.read m {}) off (Reader.new { data := data }) = (.ok u, r2)) :
    ∃ r1, readFrom (old.read m {}) off (Reader.new { data := data }) = (.ok (e.cut u), r1) ∧ r1.bitsRead ≤ r2.bitsRead := by
  obtain ⟨ho, h⟩ := e.makes_runs old new h hn
  have hl := (e.read_leads (Q := fun fs => FromDef m fs ∧ fs.Runs) ⟨FromDef.nil m, trivial⟩ m _ _ h {}).readFrom off
  obtain ⟨r1, e1, fs, env, w, ⟨_, hq⟩, ew⟩ := hl.split hu
  refine ⟨r1, e1, ?_⟩
  have h1 := readFrom_moves (Ty.moves m old {} ho) off _ _ _ (in_new data .any) e1
  exact (Fields.moves m fs env hq _ _ _ h1.1 ew).2.2.2

/-- **C82.** `from_bytes`: what the old program makes of a new message is the old part of it, and the rest it returns ends
with the rest the new program returns; the added fields are in between. -/
theorem C82_old_programs_read_new_messages (e : Edit) (old new : STy) (h : e.MakesS old new) (d' : Def)
    (hd : new.compile = some d') : ∃ d, old.compile = some d ∧ ∀ m, d'.valid m.native = true →
      ∀ data off rest b u, fromBytes ((d'.toTy m).read m {}) data off = .ok ((rest, b), u) →
        ∃ rest' b', fromBytes ((d.toTy m).read m {}) data off = .ok ((rest', b'), e.cut u) ∧ rest <:+ rest' := by
  obtain ⟨⟨d, h1, h2⟩, _⟩ := C82_sources_can_be_extended e old new h d' hd
  refine ⟨d, h1, fun m hv data off rest b u hu => ?_⟩
  unfold fromBytes at hu ⊢
  rcases hg : readFrom ((d'.toTy m).read m {}) off (Reader.new { data := data }) with ⟨y, r2⟩
  rw [hg] at hu
  cases y with
  | ok v =>
    dsimp only at hu
    split at hu
    · rename_i hb
      cases hu
      obtain ⟨r1, e1, hle⟩ := Edit.reads_less (h2 m) (d'.runs m hv) hg
      have hle := Nat.div_le_div_right (c := 8) hle
      rw [e1]
      dsimp only
      rw [if_pos (Nat.le_trans hle hb)]
      refine ⟨_, _, rfl, ?_⟩
      obtain ⟨k, hk⟩ := Nat.exists_eq_add_of_le hle
      rw [hk, ← List.drop_drop]
      exact List.drop_suffix _ _
    · cases hu
  | err _ => cases hu
  | panic => cases hu

/-- **C82.** `TryFrom<&[u8]>`, which wants all bytes to be used: a message that the new program accepts is accepted by the
old program as the old part of it, or refused with `Parse`, never with another error or a panic. -/
theorem C82_whole_messages_are_read_or_refused (e : Edit) (old new : STy) (h : e.MakesS old new) (d' : Def)
    (hd : new.compile = some d') : ∃ d, old.compile = some d ∧ ∀ m, d'.valid m.native = true →
      ∀ data u, tryFrom ((d'.toTy m).read m {}) data = .ok u →
        tryFrom ((d.toTy m).read m {}) data = .ok (e.cut u) ∨ tryFrom ((d.toTy m).read m {}) data = .err .parse := by
  obtain ⟨⟨d, h1, h2⟩, _⟩ := C82_sources_can_be_extended e old new h d' hd
  refine ⟨d, h1, fun m hv data u hu => ?_⟩
  unfold tryFrom fromReader at hu ⊢
  rcases hg : readFrom ((d'.toTy m).read m {}) 0 (Reader.new { data := data }) with ⟨y, r2⟩
  rw [hg] at hu
  cases y with
  | ok v =>
    dsimp only at hu
    by_cases c1 : r2.bitsRead / 8 < data.length
    · rw [if_pos c1] at hu; cases hu
    rw [if_neg c1] at hu
    by_cases c2 : r2.bitsRead / 8 > data.length
    · rw [if_pos c2] at hu; cases hu
    rw [if_neg c2] at hu
    cases hu
    obtain ⟨r1, e1, hle⟩ := Edit.reads_less (h2 m) (d'.runs m hv) hg
    have hle := Nat.div_le_div_right (c := 8) hle
    rw [e1]
    dsimp only
    by_cases c3 : r1.bitsRead / 8 < data.length
    · rw [if_pos c3]; exact .inr rfl
    · rw [if_neg c3, if_neg (by omega)]; exact .inl rfl
  | err _ => cases hu
  | panic => cases hu

/-- **C82.** What a new program writes begins with what an old program writes of the old part, up to the last whole byte
of it: for every definition, value and machine. If the old program reports an error, the new program reports the same. -/
theorem C82_new_messages_begin_with_old_ones (e : Edit) (old new : STy) (h : e.MakesS old new) (d' : Def)
    (hd : new.compile = some d') : ∃ d, old.compile = some d ∧ ∀ m u, new.has u = true →
      (∀ bs bs', toBytes ((d.toTy m).write m {} (e.cut u)) = .ok bs → toBytes ((d'.toTy m).write m {} u) = .ok bs' →
        ∃ bits, toBits ((d.toTy m).write m {} (e.cut u)) = .ok bits ∧ bs.take (bits.length / 8) <+: bs' ∧
          (bits.length % 8 = 0 → bs <+: bs')) ∧
      (∀ x, toBits ((d.toTy m).write m {} (e.cut u)) = .err x → toBits ((d'.toTy m).write m {} u) = .err x ∧
        toBytes ((d'.toTy m).write m {} u) = .err x) := by
  obtain ⟨⟨d, h1, _⟩, _⟩ := C82_sources_can_be_extended e old new h d' hd
  refine ⟨d, h1, fun m u hu => ?_⟩
  obtain ⟨d2, h3, h4, h5⟩ := e.elab_makes m old new h none [] d' hd
  have h1 : old.elab none [] = some d := h1
  rw [h1] at h3
  cases h3
  have hl := e.write_leads (FromDef.nil m) m _ _ h4 h5 {} u (e.has_cut old new h u hu).1 (Writer.new {})
  refine ⟨fun bs bs' hb hb' => ?_, fun x hx => ?_⟩
  · unfold toBytes at hb
    rcases hf : (d.toTy m).write m {} (e.cut u) (Writer.new {}) with ⟨y, w1⟩
    cases y with
    | ok y =>
      rw [M.bind_ok hf] at hb
      obtain ⟨fs, env, all, v, ⟨ds, rfl⟩, hg⟩ := hl.1 w1 hf
      -- the sink after the old part
      have hw1 := Commutes.fresh (g := (d.toTy m).write m {} (e.cut u)) (fun ψ hψ => Ty.write_onSink hψ m _ (d.unsought hψ m) {} _)
        (w := Writer.new {}) rfl ⟨rfl, rfl⟩
      rw [hf] at hw1
      dsimp only at hw1
      have hs : w1.inner = Sink.after w1.inner.data w1.inner.calls {} := by
        rw [hw1]; simp [Sink.after]; rfl
      -- whatever follows is written behind it
      have key : ∀ k : M Writer Unit, (∀ ψ, WritesAlike ψ → Commutes (Writer.onSink ψ) k) →
          w1.inner.data <+: (k w1).2.inner.data := by
        intro k hk
        have e1 : w1 = Writer.onSink (Sink.after w1.inner.data w1.inner.calls) { w1 with inner := {} } := by
          simp only [Writer.onSink]; rw [← hs]
        have e2 := hk _ (after_writesAlike w1.inner.data w1.inner.calls) { w1 with inner := {} }
        rw [← e1] at e2
        rw [e2]
        exact List.prefix_append _ _
      have hfin : ∀ ψ, WritesAlike ψ → Commutes (Writer.onSink ψ) Writer.finalize := fun ψ hψ => Writer.finalize_onSink hψ
      -- finalize of the old part
      rcases hz : Writer.finalize w1 with ⟨z, w3⟩
      rw [hz] at hb
      cases z with
      | ok z =>
        cases hb
        have hlt : w1.leftover.length < 8 := by
          refine Classical.byContradiction fun hc => ?_
          unfold Writer.finalize at hz
          rw [M.get_bind_run] at hz
          simp only [hc, decide_false] at hz
          cases hz
        have hwf : w1.WF := ⟨by rw [hs]; simp [Sink.WF, Sink.after], hlt⟩
        obtain ⟨w4, e4, hwr, _⟩ := (Writer.finalize_done hwf).ok ⟨by rw [hw1], by rw [hw1]⟩
        rw [hz] at e4
        cases e4
        have hlen := hwr.len
        have hpre := key _ hfin
        rw [hz] at hpre
        dsimp only at hpre
        refine ⟨bytesBits w1.inner.data ++ w1.leftover, by unfold toBits; rw [hf], ?_⟩
        have hw3 := Commutes.fresh hfin (w := w1) (by rw [hw1]) ⟨by rw [hw1], by rw [hw1]⟩
        rw [hz] at hw3
        dsimp only at hw3
        have hp1 : w1.inner.pos = w1.inner.data.length := by rw [hw1]
        have hp3 : w3.inner.pos = w3.inner.data.length := by rw [hw3]
        have hl3 := hwr.wf.2
        have hbl : (bytesBits w1.inner.data ++ w1.leftover).length = 8 * w1.inner.data.length + w1.leftover.length := by
          rw [List.length_append, length_bytesBits]
        have hd8 : (bytesBits w1.inner.data ++ w1.leftover).length / 8 = w1.inner.data.length := by rw [hbl]; omega
        -- the new program
        have hbs' : w1.inner.data <+: bs' := by
          have := key (do (ds.toFields m).write m env all v; Writer.finalize) fun ψ hψ =>
            (Fields.write_onSink hψ m _ (ds.unsought hψ m) env all v).bind fun _ => hfin ψ hψ
          unfold toBytes at hb'
          rw [M.bind_def, hg, ← M.bind_def] at hb'
          rcases hy : (do (ds.toFields m).write m env all v; Writer.finalize : M Writer Unit) w1 with ⟨y, w5⟩
          rw [hy] at hb' this
          cases y with
          | ok _ => cases hb'; exact this
          | err _ => cases hb'
          | panic => cases hb'
        rw [hd8, ← List.prefix_iff_eq_take.1 hpre]
        refine ⟨hbs', fun h8 => ?_⟩
        have : w3.inner.data.length = w1.inner.data.length := by
          rw [hbl] at h8
          have h0 : w1.leftover.length = 0 := by omega
          rw [List.length_replicate, h0, hp1, hp3] at hlen
          omega
        rw [← hpre.eq_of_length this.symm]
        exact hbs'
      | err _ => cases hb
      | panic => cases hb
    | err _ => rw [M.bind_err hf] at hb; cases hb
    | panic => rw [M.bind_panic hf] at hb; cases hb
  · unfold toBits at hx
    rcases hf : (d.toTy m).write m {} (e.cut u) (Writer.new {}) with ⟨y, w1⟩
    rw [hf] at hx
    cases y with
    | ok _ => cases hx
    | err _ =>
      cases hx
      have := hl.2.1 x w1 hf
      unfold toBits toBytes
      rw [M.bind_err this, this]
      exact ⟨rfl, rfl⟩
    | panic => cases hx

/-! ### Examples -/

namespace AppendExample

open Example SourceExample

/-- ```
#[deku(magic = b"M")]
struct Msg {
    #[deku(temp, temp_value = "items.len() as u8")]
    n: u8,
    #[deku(count = "n", endian = "big")]
    items: Vec<u16>,
    body: Body,
}

#[deku(id_type = "u8")]
enum Body {
    #[deku(id = 1)]
    Ping { seq: u8, .. },
    #[deku(id = 2)]
    Name(CString),
}
``` -/
def msg (more : SFields) : STy := .struct { magic := [0x4d] }
  (.cons { temp := some ⟨0, 1⟩ } (.base (.uint 1))
  (.cons { count := some (.field 0), endian := some (.lit .big) } (.vec false (.base (.uint 2)))
  (.cons {} (.enum {} (.typed 1 none none none)
    (.cons { kind := .id 1 } (.cons {} (.base (.uint 1)) more)
    (.cons { kind := .id 2 } (.cons {} (.base .cstring) .nil) .nil))) .nil)))

/-- `#[deku(bits = 4)] ttl: u8, #[deku(bits = 4)] hops: u8, note: CString`. -/
def added : SFields := .cons { bits := some 4 } (.base (.uint 1)) (.cons { bits := some 4 } (.base (.uint 1))
  (.cons {} (.base .cstring) .nil))

/-- In the first variant of the last field. -/
def place : Edit := .struct (.temp (.field (.last (.enum (.cons (.field .more) (.cons .same .nil))))))

theorem msg_makes (more : SFields) : place.MakesS (msg .nil) (msg more) := by
  simp only [place, msg, Edit.MakesS, FEdit.MakesS, VEdit.MakesS]
  exact ⟨_, _, _, rfl, rfl, ⟨_, _, _, _, rfl, rfl, rfl, _, _, _, _, rfl, rfl, rfl, _, _, _, rfl, rfl, rfl, _, _, _, _,
    rfl, rfl, _, _, _, _, _, rfl, rfl, ⟨_, _, _, _, rfl, rfl, rfl, rfl⟩, .inr rfl, (fun h => nomatch h), _, _, _, _, _,
    rfl, rfl, rfl, .inl trivial, (fun h => nomatch h), rfl, rfl⟩, rfl⟩

def body (b : Val) : Val := .ofList [.ofList [.num 0x102, .num 3], b]

def ping : Val := body (.variant 0 (.ofList [.num 7, .num 5, .num 9, .ofList [.num 0x41]]))

/-- The hypotheses are met, and the added fields are between the rests. -/
example : (msg added).has ping = true ∧ ((msg added).compile.map fun d => d.valid mach.native) = some true ∧
    place.cut ping = body (.variant 0 (.ofList [.num 7])) ∧
    ((msg added).compile.map fun d => toBytes ((d.toTy mach).write mach {} ping)) =
      some (.ok [0x4d, 2, 1, 2, 0, 3, 1, 7, 0x59, 0x41, 0]) ∧
    ((msg .nil).compile.map fun d => toBytes ((d.toTy mach).write mach {} (place.cut ping))) =
      some (.ok [0x4d, 2, 1, 2, 0, 3, 1, 7]) ∧
    ((msg added).compile.map fun d => fromBytes ((d.toTy mach).read mach {}) [0x4d, 2, 1, 2, 0, 3, 1, 7, 0x59, 0x41, 0, 8] 0) =
      some (.ok (([8], 0), ping)) ∧
    ((msg .nil).compile.map fun d => fromBytes ((d.toTy mach).read mach {}) [0x4d, 2, 1, 2, 0, 3, 1, 7, 0x59, 0x41, 0, 8] 0) =
      some (.ok (([0x59, 0x41, 0, 8], 0), place.cut ping)) := by
  refine ⟨?_, ?_, ?_, ?_, ?_, ?_, ?_⟩ <;> decide +kernel

/-- The other variant is as it was. -/
example :
    ((msg added).compile.map fun d => tryFrom ((d.toTy mach).read mach {}) [0x4d, 0, 2, 0x41, 0]) =
      some (.ok (.ofList [.nil, .variant 1 (.ofList [.ofList [.num 0x41]])])) ∧
    ((msg .nil).compile.map fun d => tryFrom ((d.toTy mach).read mach {}) [0x4d, 0, 2, 0x41, 0]) =
      some (.ok (.ofList [.nil, .variant 1 (.ofList [.ofList [.num 0x41]])])) := by
  refine ⟨?_, ?_⟩ <;> decide +kernel

/-- An error of the old part. -/
example :
    ((msg added).compile.map fun d => fromReader ((d.toTy mach).read mach {}) { data := [0x4d, 2, 1, 2, 0] } 0) =
      some (.err (.incomplete 16)) ∧
    ((msg .nil).compile.map fun d => fromReader ((d.toTy mach).read mach {}) { data := [0x4d, 2, 1, 2, 0] } 0) =
      some (.err (.incomplete 16)) := by
  refine ⟨?_, ?_⟩ <;> decide +kernel

/-- Four bits at the end: only what is whole is common. -/
def half (more : SFields) : STy := .struct {} (.cons {} (.base (.uint 1)) (.cons { bits := some 4 } (.base (.uint 1)) more))

example : (Edit.struct (.field (.field .more))).MakesS (half .nil) (half (.cons { bits := some 4 } (.base (.uint 1)) .nil)) := by
  simp only [half, Edit.MakesS, FEdit.MakesS]
  exact ⟨_, _, _, rfl, rfl, ⟨_, _, _, _, rfl, rfl, rfl, _, _, _, _, rfl, rfl, rfl, rfl⟩, rfl⟩

example :
    ((half .nil).compile.map fun d => toBytes ((d.toTy mach).write mach {} (.ofList [.num 1, .num 2]))) = some (.ok [1, 0x20]) ∧
    ((half (.cons { bits := some 4 } (.base (.uint 1)) .nil)).compile.map fun d =>
      toBytes ((d.toTy mach).write mach {} (.ofList [.num 1, .num 2, .num 3]))) = some (.ok [1, 0x23]) := by
  refine ⟨?_, ?_⟩ <;> decide +kernel

/-! ### Where fields must not be added -/

/-- `count` messages. -/
def log (more : SFields) : STy := .struct {} (.cons {} (.base (.uint 1))
  (.cons { count := some (.field 0) } (.vec false (.struct {} (.cons {} (.base (.uint 1)) more))) .nil))

def one : SFields := .cons {} (.base (.uint 1)) .nil

end AppendExample

open Example AppendExample

/-- **C82**, the converse is false: a new program refuses old messages, since the added fields are missing. -/
theorem C82_new_programs_refuse_old_messages :
    ((msg .nil).compile.map fun d => tryFrom ((d.toTy mach).read mach {}) [0x4d, 0, 1, 7]) =
      some (.ok (.ofList [.nil, .variant 0 (.ofList [.num 7])])) ∧
    ((msg added).compile.map fun d => tryFrom ((d.toTy mach).read mach {}) [0x4d, 0, 1, 7]) =
      some (.err (.incomplete 4)) := by
  refine ⟨?_, ?_⟩ <;> decide +kernel

/-- **C82**, for `TryFrom` there is no more: an old program refuses new messages, since it wants all bytes to be used. -/
theorem C82_try_from_refuses_new_messages :
    ((msg added).compile.map fun d => tryFrom ((d.toTy mach).read mach {}) [0x4d, 0, 1, 7, 0x59, 0]) =
      some (.ok (.ofList [.nil, .variant 0 (.ofList [.num 7, .num 5, .num 9, .nil])])) ∧
    ((msg .nil).compile.map fun d => tryFrom ((d.toTy mach).read mach {}) [0x4d, 0, 1, 7, 0x59, 0]) =
      some (.err .parse) := by
  refine ⟨?_, ?_⟩ <;> decide +kernel

/-- **C82 is false** if fields are added to a message that is followed by another one: the old program takes the added
field of the first message for the second one, and reports nothing. -/
theorem C82_messages_in_a_list_must_not_be_extended :
    ((log one).compile.map fun d => fromBytes ((d.toTy mach).read mach {}) [2, 1, 0xff, 2, 0xff] 0) =
      some (.ok (([], 0), .ofList [.num 2, .ofList [.ofList [.num 1, .num 0xff], .ofList [.num 2, .num 0xff]]])) ∧
    ((log .nil).compile.map fun d => fromBytes ((d.toTy mach).read mach {}) [2, 1, 0xff, 2, 0xff] 0) =
      some (.ok (([2, 0xff], 0), .ofList [.num 2, .ofList [.ofList [.num 1], .ofList [.num 0xff]]])) := by
  refine ⟨?_, ?_⟩ <;> decide +kernel

/-- **C82 is false** if there is padding after the last field: it is between the old part and the added fields. -/
theorem C82_padding_at_the_end_is_in_the_way :
    let last (more : SFields) : STy := .struct {} (.cons { padBytesAfter := some 1 } (.struct {} (.cons {} (.base (.uint 1)) more)) .nil)
    ((last one).compile.map fun d => toBytes ((d.toTy mach).write mach {} (.ofList [.ofList [.num 1, .num 2]]))) =
      some (.ok [1, 2, 0]) ∧
    ((last .nil).compile.map fun d => toBytes ((d.toTy mach).write mach {} (.ofList [.ofList [.num 1]]))) =
      some (.ok [1, 0]) := by
  refine ⟨?_, ?_⟩ <;> decide +kernel

end Deku
