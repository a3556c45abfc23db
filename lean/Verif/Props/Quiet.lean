import Verif.Lemmas.Examples
import Verif.Lemmas.Quiet
import Verif.Spec.Program

/-!
# C57: serialising does not panic
-/

namespace Deku

/-- **C57, in part.** `to_writer` of a value of the type returns, whatever the sink does: any capacity,
any position, any schedule of faults. -/
theorem C57_to_writer_does_not_panic_partial {m : Machine} {t : Ty} {env : Env} {v : Val} (h : t.Writes m env v)
    (w : Writer) (hw : w.leftover.length < 8) :
    (t.write m env v w).1 ≠ .panic ∧ ((do t.write m env v; Writer.finalize : M Writer Unit) w).1 ≠ .panic :=
  ⟨(t.write_quiet m h w hw).1, (((t.write_quiet m h).bind fun _ => Writer.finalize_quiet) w hw).1⟩

/-- **C57, in part.** The same for `to_bytes`, `to_slice` with any buffer, and `to_bits`. -/
theorem C57_entry_points_do_not_panic_partial {m : Machine} {t : Ty} {env : Env} {v : Val} (h : t.Writes m env v) :
    toBytes (t.write m env v) ≠ .panic ∧ toBits (t.write m env v) ≠ .panic ∧
    ∀ buf, (toSlice (t.write m env v) buf).1 ≠ .panic := by
  refine ⟨?_, ?_, fun buf => ?_⟩
  · have := (C57_to_writer_does_not_panic_partial h (Writer.new {}) (by decide)).2
    unfold toBytes
    rcases e : (do t.write m env v; Writer.finalize : M Writer Unit) (Writer.new {}) with ⟨_ | _ | _, w'⟩
    · exact nofun
    · exact nofun
    · rw [e] at this; exact absurd rfl this
  · have := (C57_to_writer_does_not_panic_partial h (Writer.new {}) (by decide)).1
    unfold toBits
    rcases e : t.write m env v (Writer.new {}) with ⟨_ | _ | _, w'⟩
    · exact nofun
    · exact nofun
    · rw [e] at this; exact absurd rfl this
  · have := (C57_to_writer_does_not_panic_partial h (Writer.new { data := buf, cap := some buf.length }) (by decide : 0 < 8)).2
    unfold toSlice
    rcases e : (do t.write m env v; Writer.finalize : M Writer Unit) (Writer.new { data := buf, cap := some buf.length }) with
      ⟨_ | _ | _, w'⟩
    · exact nofun
    · exact nofun
    · rw [e] at this; exact absurd rfl this

/-- **C57, in part.** Any sequence of `write_bits_order` and `write_bytes` calls in any bit orders that
ends with the first error, and `finalize`. -/
theorem C57_calls_do_not_panic_partial (ops : List WriteOp) (hops : ∀ op ∈ ops, op.Public) (w : Writer)
    (hw : w.leftover.length < 8) : ((do runWrites ops; Writer.finalize : M Writer Unit) w).1 ≠ .panic := by
  have : Quiet (runWrites ops) := by
    induction ops with
    | nil => exact .pure _
    | cons op ops ih =>
      refine Quiet.bind ?_ fun _ => ih fun o ho => hops o (List.mem_cons_of_mem _ ho)
      have h := hops op List.mem_cons_self
      cases op with
      | bits l o => exact Writer.writeBitsOrder_quiet l o
      | bytes bs => exact Writer.writeBytes_quiet bs
      | uint v n => exact h.elim
  exact ((this.bind fun _ => Writer.finalize_quiet) w hw).1

/-- **C57, in part.** Integers of all sizes with all context arguments, except a size of 0 bits: any value,
whether it fits or not. -/
theorem C57_integers_do_not_panic_partial (native : Endian) (W : Nat) {ctx : IntCtx} (h : ctx.SomeBits) (w : Writer)
    (hw : w.leftover.length < 8) :
    (∀ v : Nat, (Prim.writeUnsigned native W ctx v w).1 ≠ .panic) ∧
    (∀ v : Int, (Prim.writeSigned native W ctx v w).1 ≠ .panic) :=
  ⟨fun v => (Prim.writeUnsigned_quiet native W h v w hw).1, fun v => (Prim.writeSigned_quiet native W h v w hw).1⟩

/-! ### Examples -/

namespace Example

theorem u8_writes {env : Env} {n : Int} (h : 0 ≤ n ∧ n < 256) : u8T.Writes mach env (.num n) := by
  simp only [u8T, Ty.Writes]
  exact uintCodec_quiet .little 1 (by decide) h.1 h.2

theorem u4_writes {env : Env} {n : Int} (h : 0 ≤ n ∧ n < 256) : u4T.Writes mach env (.num n) := by
  simp only [u4T, Ty.Writes]
  exact uintCodec_quiet .little 1 (ctx := .bits 4) (by decide) h.1 h.2

theorem u16_writes {env : Env} {n : Int} (h : 0 ≤ n ∧ n < 65536) : u16be.Writes mach env (.num n) := by
  simp only [u16be, Ty.Writes]
  exact uintCodec_quiet .little 2 (by decide) h.1 h.2

/-- Every value of the type `packet`, also those with fields that do not fit into 4 bits. -/
theorem packet_writes (a b n : Int) (items : List Int) (x : Val) (c : Int)
    (ha : 0 ≤ a ∧ a < 256) (hb : 0 ≤ b ∧ b < 256) (hn : 0 ≤ n ∧ n < 256) (hi : ∀ i ∈ items, 0 ≤ i ∧ i < 65536)
    (hx : x = .none ∨ ∃ k, x = .some (.num k) ∧ 0 ≤ k ∧ k < 256) (hc : 0 ≤ c ∧ c < 256) :
    packet.Writes mach {} (.ofList [.num a, .num b, .num n, .ofList (items.map .num), x, .num c]) := by
  have hl : ∀ l : List Val, (Val.ofList l).isList = true ∧ (Val.ofList l).elems = l := fun l => by
    induction l with
    | nil => exact ⟨rfl, rfl⟩
    | cons v l ih => exact ⟨ih.1, congrArg (v :: ·) ih.2⟩
  refine ⟨nofun, _, _, rfl, ⟨nofun, fun _ _ => u4_writes ha⟩, _, _, rfl, ⟨nofun, fun _ _ => u4_writes hb⟩,
    _, _, rfl, ⟨nofun, fun _ _ => u8_writes hn⟩, _, _, rfl, ⟨nofun, fun _ _ => ⟨(hl _).1, fun v hv => ?_⟩⟩,
    _, _, rfl, ⟨nofun, fun _ _ => ?_⟩, _, _, rfl, ⟨nofun, fun _ _ => u4_writes hc⟩, rfl⟩
  · have hv : v ∈ (Val.ofList (items.map .num)).elems := hv
    rw [(hl _).2] at hv
    obtain ⟨i, hi', rfl⟩ := List.mem_map.1 hv
    exact u16_writes (hi i hi')
  · rcases hx with rfl | ⟨k, rfl, hk⟩
    · exact .inl rfl
    · exact .inr ⟨_, rfl, u8_writes hk⟩

-- a value that does not fit, a buffer that is too small
example : (toSlice (packet.write mach {} (.ofList [.num 3, .num 99, .num 0, .ofList [], .none, .num 9])) [0, 0]).1 ≠ .panic :=
  (C57_entry_points_do_not_panic_partial (packet_writes 3 99 0 [] .none 9 (by decide) (by decide) (by decide) (by decide)
    (.inl rfl) (by decide))).2.2 _

example : (toSlice (packet.write mach {} (.ofList [.num 3, .num 99, .num 0, .ofList [], .none, .num 9])) [0, 0]).1 =
    .err .invalidParam := by decide +kernel

-- a sink that fails in the middle
example : ((do packet.write mach {} (packetValue [1, 2] .none); Writer.finalize : M Writer Unit)
    (Writer.new { faults := { fails := fun n => if n = 2 then some (0, .other 1) else none } })).1 = .err (.io (.other 1)) := by
  decide +kernel

example : ((do runWrites [.bits [true, true, false] .lsb0, .bytes [1, 2], .bits [true] .msb0]; Writer.finalize : M Writer Unit)
    (Writer.new {})).1 ≠ .panic :=
  C57_calls_do_not_panic_partial _ (by simp [WriteOp.Public]) _ (by decide)

example : (Prim.writeSigned .little 2 (.bits 3) (-70) (Writer.new {})).1 ≠ .panic :=
  (C57_integers_do_not_panic_partial .little 2 (ctx := .bits 3) (by decide) _ (by decide)).2 _

/-- `#[deku(seek_from_current = "-1 - n")] x: u8` with a conversion to an unsigned number, say. -/
def seekBack : Ty := .struct (fun _ => []) none [] <|
  .cons {} u8T <| .cons { seek := some fun env => if var 0 env < 1 then none else some (.start 0) } u8T .nil

/-- A sink that fails once. -/
def hiccup : Sink := { faults := { fails := fun n => if n = 0 then some (0, .other 1) else none } }

end Example

open Example in
/-- **C57 is false** for fields of 0 bits. -/
theorem C57_zero_bits_panics :
    toBytes ((Ty.prim (some 0) fun _ => uintCodec .little 2 (.endianBitsOrder .big 0 .msb0)).write mach {} (.num 0)) =
      .panic := by decide +kernel

open Example in
/-- **C57 is false** for `seek_*` expressions out of range, which may depend on the value. -/
theorem C57_seek_out_of_range_panics :
    toBytes (seekBack.write mach {} (.ofList [.num 1, .num 2])) = .ok [2] ∧
    toBytes (seekBack.write mach {} (.ofList [.num 0, .num 2])) = .panic := by decide +kernel

open Example in
/-- **C57 is false** for a writer that is used on after an error of the sink, to try again say: the byte
that could not be written is still pending, and a debug assertion fails. -/
theorem C57_writing_on_after_an_error_panics :
    (Writer.writeBits (List.replicate 4 true) (Writer.new hiccup)).1 = .ok () ∧
    ((do Writer.writeBits (List.replicate 4 true); Writer.writeBits (List.replicate 4 true) : M Writer Unit) (Writer.new hiccup)).1 =
      .err (.io (.other 1)) ∧
    (Writer.writeBits [true]
      ((do Writer.writeBits (List.replicate 4 true); Writer.writeBits (List.replicate 4 true) : M Writer Unit) (Writer.new hiccup)).2).1 =
      .panic := by decide +kernel

end Deku
