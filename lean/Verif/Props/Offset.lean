import Verif.Lemmas.Offset
import Verif.Lemmas.Examples
import Verif.Lemmas.Locality
import Verif.Props.Size

/-!
# C47: `deku::bit_offset` and `deku::byte_offset` tell the position

The offset is observed by a field (`probe`) between any other fields, and at the expressions of any field.
It is compared with the position in the source (`Reader.used`) and in the sink (`Writer.total`).
`byte_offset` is the offset divided by eight on both sides.
-/

namespace Deku

open Reader Writer

variable {m : Machine} {env : Env}

theorem check_same {σ : Type} {a : Attrs} {v : Val} {s s' : σ} {u : Unit}
    (h : a.check env v s = (.ok u, s')) : s' = s := by
  unfold Attrs.check at h
  by_cases h1 : a.assert env v = false
  · simp [h1, M.throw] at h
  · rcases h2 : a.assertEq env with _ | x
    · simp [h1, h2] at h; exact h.symm
    · by_cases h3 : v = x
      · simp [h2, h3] at h
        by_cases h4 : a.assert env x = false
        · rw [← h3] at h4; exact absurd h4 h1
        · simp [h4] at h; exact h.symm
      · simp [h1, h2, h3, M.throw] at h

theorem probe_write {a : Attrs} (ha : a = { usesOffset := true }) {native : Endian} {x : Val} {w w' : Writer}
    {u : Unit} (h : a.write native (fun env v => (Ty.prim none probe).write m env v) env x w = (.ok u, w')) :
    x = .num w.bitsWritten := by
  subst ha
  by_cases hp : x = .num w.bitsWritten
  · exact hp
  · simp [hp, Attrs.write, seekWrite, Attrs.check, Attrs.put, Attrs.isWritten, Ty.write, probe, magicWrite,
      padWrite, Env.at, Coll.writeAll, M.bind_def, M.throw] at h

/-- On reading, a field after `pre` sees the number of bits used up when `pre` has been read. -/
theorem C47_read {pre tl : Fields} (h : pre.Streams true) {r r' : Reader} {v : Val} (hr : r.Good)
    (hx : (pre.append (probing tl)).read m env r = (.ok v, r')) :
    ∃ v1 r1 v2, pre.read m env r = (.ok v1, r1) ∧ v = v1.append (.cons (.num r1.used) v2) := by
  obtain ⟨v1, v2, env', r1, h1, h2, rfl⟩ := Fields.append_read m pre _ env r r' v hx
  have hg := (Fields.follows m pre env h r v1 r1 hr h1).1
  simp only [probing, Fields.read] at h2
  obtain ⟨x, r2, e2, h2⟩ := M.bind_eq_ok h2
  obtain ⟨vs, r3, e3, h2⟩ := M.bind_eq_ok h2
  simp at h2
  obtain ⟨rfl, rfl⟩ := h2
  refine ⟨v1, r1, vs, h1, ?_⟩
  have : x = .num r1.bitsRead := by
    have e : (Attrs.read { usesOffset := true } m.native (fun env => (Ty.prim none probe).read m env) env' r1) =
        (.ok (.num r1.bitsRead), r1) := rfl
    have e2' : (Attrs.read { usesOffset := true } m.native (fun env => (Ty.prim none probe).read m env) env' r1) =
        (.ok x, r2) := e2
    rw [e] at e2'
    simp at e2'
    exact e2'.1.symm
  rw [this, hg.used_eq]

/-- The expressions of a field (context, condition, `map`, assertions, padding after it) see the number of
bits used up before the value, after the magic and the padding in front of it. -/
theorem C47_read_expressions {a : Attrs} {rd : Env → M Reader Val} {native : Endian} (hs : a.seek = none)
    (ho : a.usesOffset = true) {r r' : Reader} {v : Val} (hr : r.Good)
    (hx : a.read native rd env r = (.ok v, r')) :
    ∃ r1 r2 u, (magicRead native a.magic >>= fun _ => padRead a.padOrder a.padBefore env) r = (.ok u, r1) ∧
      a.value rd (env.at r1.used) r1 = (.ok v, r2) ∧
      (a.check (env.at r1.used) v : M Reader Unit) r2 = (.ok (), r2) ∧
      padRead a.padOrder a.padAfter ((env.at r1.used).push v) r2 = (.ok (), r') := by
  simp only [Attrs.read, hs, seekRead, M.pure_bind] at hx
  obtain ⟨u, r0, e0, hx⟩ := M.bind_eq_ok hx
  obtain ⟨u1, r1, e1, hx⟩ := M.bind_eq_ok hx
  have hg0 := (magicRead_follows (fixed := true) native a.magic r u r0 hr e0).1
  have hg := (padRead_follows (fixed := true) a.padOrder a.padBefore env r0 u1 r1 hg0 e1).1
  rw [M.get_bind_run] at hx
  simp only [ho, if_true] at hx
  obtain ⟨x, r2, e2, hx⟩ := M.bind_eq_ok hx
  obtain ⟨u2, r3, e3, hx⟩ := M.bind_eq_ok hx
  obtain ⟨u3, r4, e4, hx⟩ := M.bind_eq_ok hx
  simp at hx
  obtain ⟨rfl, rfl⟩ := hx
  have hc : r3 = r2 := check_same e3
  subst hc
  rw [← hg.used_eq] at e2 e3 e4
  exact ⟨r1, r3, u1, by rw [M.bind_ok e0, e1], e2, e3, e4⟩

/-- On writing, a field after `pre` sees the number of bits produced by `pre`, rounded down to whole bytes. -/
theorem C47_write_partial {pre tl : Fields} (h : pre.Tracks) {all v : Val} {w w' : Writer} {u : Unit}
    (hw : w.Tracked) (hx : (pre.append (probing tl)).write m env all v w = (.ok u, w')) :
    ∃ v1 w1 v2, pre.write m env all v1 w = (.ok (), w1) ∧
      v = v1.append (.cons (.num (8 * (w1.total / 8) : Nat)) v2) ∧
      8 * (w1.total / 8) / 8 = w1.total / 8 ∧ (w1.total % 8 = 0 → 8 * (w1.total / 8) = w1.total) := by
  obtain ⟨v1, v2, env', w1, h1, h2, rfl⟩ := Fields.append_write m pre _ env all v w w' u hx
  have ht := Fields.tracks m pre env all v1 h w () w1 hw h1
  simp only [probing, Fields.write] at h2
  split at h2
  · rename_i x xs
    obtain ⟨u1, w2, e2, h2⟩ := M.bind_eq_ok h2
    refine ⟨v1, w1, xs, h1, ?_, by omega, by omega⟩
    rw [probe_write rfl e2, ht.bitsWritten_eq]
  · simp [M.panic] at h2

/-- The expressions of a field see the number of bits produced before the value, rounded down. -/
theorem C47_write_expressions_partial {a : Attrs} {wr : Env → Val → M Writer Unit} {native : Endian}
    (hs : a.seek = none) (ho : a.usesOffset = true) {w w' : Writer} {v : Val} {u : Unit} (hw : w.Tracked)
    (hx : a.write native wr env v w = (.ok u, w')) :
    ∃ w1 u1, (magicWrite native a.magic >>= fun _ => padWrite a.padOrder a.padBefore env) w = (.ok u1, w1) ∧
      (a.check (env.at (8 * (w1.total / 8))) v >>= fun _ => a.put wr (env.at (8 * (w1.total / 8))) v >>= fun _ =>
        padWrite a.padOrder a.padAfter ((env.at (8 * (w1.total / 8))).push v)) w1 = (.ok u, w') := by
  simp only [Attrs.write, hs, seekWrite, M.pure_bind] at hx
  obtain ⟨u0, w0, e0, hx⟩ := M.bind_eq_ok hx
  obtain ⟨u1, w1, e1, hx⟩ := M.bind_eq_ok hx
  have ht := padWrite_tracks a.padOrder a.padBefore env w0 u1 w1 (magicWrite_tracks native a.magic w u0 w0 hw e0) e1
  rw [M.get_bind_run] at hx
  simp only [ho, if_true] at hx
  rw [ht.bitsWritten_eq] at hx
  exact ⟨w1, u1, by rw [M.bind_ok e0, e1], hx⟩

/-- Both sides agree on the byte, and at byte boundaries on the bit: when the fields in front of the probe
have been written as `bits`, a reader that finds these bits at the same position gets to the probe with an
offset of which the writer's is the part up to the byte boundary. -/
theorem C47_agree_partial {pre tl : Fields} {o : Order} {P Q : Nat → Prop} {env' : Env} {all v1 v2 x : Val}
    {w w1 w' : Writer} {u : Unit} {r : Reader} {bits more : List Bool} {p : Nat}
    (hf : pre.Fits m o P Q env all v1) (hp : P p) (hw : w.At o p) (hr : r.At p)
    (hc : w.bitsWritten = 8 * w.inner.pos) (hsame : w.total = r.used)
    (h1 : pre.write m env all v1 w = (.ok (), w1)) (hout : w1.produced o = w.produced o ++ bits)
    (hx : (probing tl).write m env' all (.cons x v2) w1 = (.ok u, w'))
    (hin : r.unread o = bits ++ more) :
    ∃ r1, pre.read m env r = (.ok v1, r1) ∧
      x = .num (r1.used - r1.used % 8 : Nat) ∧ (r1.used % 8 = 0 → x = .num r1.used) := by
  obtain ⟨bits', hwr, hrd, _⟩ := Fields.sound m o pre P Q env all v1 hf p w w1 hp hw h1
  obtain ⟨w2, e2, hwrote, _⟩ := hwr w hw
  rw [h1] at e2
  simp at e2
  subst e2
  have hb : bits' = bits := by
    have := hwrote.produced
    rw [hout] at this
    exact (List.append_cancel_left this).symm
  subst hb
  obtain ⟨r1, e1, hst⟩ := hrd r more hr hin
  refine ⟨r1, e1, ?_⟩
  have hg := hr.good.step hst
  have ht : w1.Tracked := by
    refine ⟨hwrote.wf, ?_, ?_⟩
    · have := hw.healthy; exact ⟨hwrote.faults.trans this.1, hwrote.cap.trans this.2⟩
    · have := hwrote.counted
      omega
  have hlen := hwrote.len
  have hu : r1.used = w1.total := by
    rw [hg.used_eq, hst.bitsRead, ← hr.good.used_eq, ← hsame]
    simp only [Writer.total]
    omega
  simp only [probing, Fields.write] at hx
  obtain ⟨u1, w2, e2, hx⟩ := M.bind_eq_ok hx
  have hxe := probe_write rfl e2
  rw [ht.bitsWritten_eq, ← hu] at hxe
  have h8 : 8 * (r1.used / 8) = r1.used - r1.used % 8 := by omega
  rw [h8] at hxe
  exact ⟨hxe, fun h0 => by rw [hxe, h0]; simp⟩

namespace Example

/-- `a: u8, #[deku(bits = 4)] b: u8, #[deku(bits = 4)] c: u8` -/
def three : Fields := .cons {} u8T <| .cons {} u4T <| .cons {} u4T .nil

def threeV : Val := .ofList [.num 7, .num 1, .num 2]

theorem u4_streaming : u4T.Streams true := by
  simp only [u4T, Ty.Streams]
  exact fun _ => uint_follows (e := .little) (n := 4) (o' := .msb0) (by decide) rfl (by decide) (by decide)

theorem u8_streaming : u8T.Streams true := by
  simp only [u8T, Ty.Streams]
  exact fun _ => uint_follows (e := .little) (n := 8) (o' := .msb0) (by decide) rfl (by decide) (by decide)

theorem three_streams : three.Streams true := by
  simp only [three, Fields.Streams]
  exact ⟨⟨rfl, nofun⟩, u8_streaming, ⟨rfl, nofun⟩, u4_streaming, ⟨rfl, nofun⟩, u4_streaming, trivial⟩

theorem three_tracks : three.Tracks := by
  simp only [three, u8T, u4T, Fields.Tracks, Ty.Tracks]
  have h8 := uint_tracks (native := .little) (W := 1) (ctx := .unit) (e := .little) (n := 8) (o := .msb0)
    rfl (by decide) (by decide)
  have h4 := uint_tracks (native := .little) (W := 1) (ctx := .bits 4) (e := .little) (n := 4) (o := .msb0)
    rfl (by decide) (by decide)
  exact ⟨trivial, fun _ => h8, trivial, fun _ => h4, trivial, fun _ => h4, trivial⟩

theorem three_fits : three.Fits mach .msb0 any any {} threeV threeV := by
  simp only [three, threeV, Fields.Fits]
  exact ⟨_, _, any, rfl, plain (u8_fits any_all), _, _, any, rfl, plain (u4_fits any_all), _, _, any, rfl,
    plain (u4_fits any_all), fun _ _ => trivial⟩

theorem new_tracked : (Writer.new {}).Tracked := ⟨new_appending.wf, new_appending.healthy, rfl⟩

/-- The hypotheses are met, the offset after the three fields is 16 on both sides. -/
example : three.Streams true ∧ three.Tracks ∧ (Reader.new { data := [7, 0x12, 9] }).Good ∧
    (Writer.new {}).Tracked :=
  ⟨three_streams, three_tracks, new_good _, new_tracked⟩

example :
    let t : Ty := .struct (fun _ => []) none [] (three.append (probing (.cons {} u8T .nil)))
    let v : Val := threeV.append (.ofList [.num 16, .num 9])
    toBytes (t.write mach {} v) = .ok [7, 0x12, 9] ∧
    fromBytes (t.read mach {}) [7, 0x12, 9] 0 = .ok (([], 0), v) := by
  decide +kernel

/-- The hypotheses of `C47_agree_partial`. -/
example : ∃ w1 w', three.Fits mach .msb0 any any {} threeV threeV ∧ (Writer.new {}).At .msb0 0 ∧
    (Reader.new { data := [7, 0x12] }).At 0 ∧ (Writer.new {}).total = (Reader.new { data := [7, 0x12] }).used ∧
    three.write mach {} threeV threeV (Writer.new {}) = (.ok (), w1) ∧
    w1.produced .msb0 = (Writer.new {}).produced .msb0 ++ bytesBits [7, 0x12] ∧
    (probing .nil).write mach {} threeV (.cons (.num 16) .nil) w1 = (.ok (), w') ∧
    (Reader.new { data := [7, 0x12] }).unread .msb0 = bytesBits [7, 0x12] ++ [] :=
  ⟨_, _, three_fits, ⟨new_appending.wf, new_appending.healthy, rfl, rfl⟩,
    ⟨(new_good _).healthy, (new_good _).wf, (new_good _).noPeek, (new_good _).sync, by decide, rfl⟩, rfl, rfl,
    by decide +kernel, rfl, by decide +kernel⟩

end Example

/-! ### what goes wrong -/

open Example

/-- The writer does not count pending bits. After a field of four bits, the reader says 4 and the writer 0:
`struct { #[deku(bits = 4)] a: u8, x: <probe> }`. A value that was just read cannot be written. -/
theorem C47_counterexample_pending_bits_are_not_counted :
    let t : Ty := .struct (fun _ => []) none [] (.cons {} u4T (probing .nil))
    fromBytes (t.read mach {}) [0x50] 0 = .ok (([0x50], 4), .ofList [.num 5, .num 4]) ∧
    toBytes (t.write mach {} (.ofList [.num 5, .num 4])) = .err .assertion ∧
    toBytes (t.write mach {} (.ofList [.num 5, .num 0])) = .ok [0x50] := by
  decide +kernel

/-- The offset counts from the start of the input, not of the message: with `from_bytes((data, 8))` the
first field sees 8. Written back, the first field sees 0. -/
theorem C47_offset_counts_from_the_start_of_the_input :
    let t : Ty := .struct (fun _ => []) none [] (probing (.cons {} u8T .nil))
    fromBytes (t.read mach {}) [1, 2] 8 = .ok (([], 0), .ofList [.num 8, .num 2]) ∧
    toBytes (t.write mach {} (.ofList [.num 8, .num 2])) = .err .assertion ∧
    toBytes (t.write mach {} (.ofList [.num 0, .num 2])) = .ok [2] := by
  decide +kernel

end Deku
