import Verif.Lemmas.Jumps
import Verif.Lemmas.CoreFits
import Verif.Lemmas.CoreStream
import Verif.Lemmas.Examples
import Verif.Lemmas.Switch

/-!
# C91: formats that jump
-/

namespace Deku

open Reader

/-- **C91.** The fields of a struct lie where their seeks and the fields before them say, and no two of
them overlap. Then `to_bytes` accepts the value, in whatever order the fields go back and forth. Each
field's bytes are at its place, all other bytes are zero, and the output ends where the field that reaches
farthest ends. And `from_bytes` returns the value, whatever comes after the output, with what
comes after the last field. -/
theorem C91_formats_that_jump_round_trip (m : Machine) (o : Order) (args : Env → List Val) (fs : Fields) (env : Env)
    (v : Val) (L : List (Nat × List Byte)) (h : fs.Lays m o { ctx := args env } v 0 L) (hd : Apart L) :
    ∃ out, toBytes ((Ty.struct args none [] fs).write m env v) = .ok out ∧
      (∀ c ∈ L, (out.drop c.1).take c.2.length = c.2) ∧
      (∀ i, (∀ c ∈ L, ¬ Covers c i) → out.getD i 0 = 0) ∧ out.length = farthest L ∧
      ∀ extra, fromBytes ((Ty.struct args none [] fs).read m env) (out ++ extra) 0 =
        .ok (((out ++ extra).drop (lastEnd 0 L), 0), v) := by
  obtain ⟨w, e, hl, hdata⟩ := Fields.Lays.writes fs h v (Writer.new {}) ⟨rfl, rfl⟩ (by cases o <;> simp [Writer.Ready, Writer.new])
    rfl rfl (Nat.zero_le _)
  have hdata : w.inner.data = store [] L := hdata
  have hlen : (store [] L).length = farthest L := by rw [store_length]; simp
  have hpieces : ∀ c ∈ L, ((store [] L).drop c.1).take c.2.length = c.2 := fun c hc => store_piece hd hc []
  refine ⟨store [] L, ?_, hpieces, fun i hi => by rw [store_outside L [] hi]; rfl, hlen, fun extra => ?_⟩
  · have ew : (Ty.struct args none [] fs).write m env v (Writer.new {}) = (.ok (), w) := by
      simp only [Ty.write, seekWrite, magicWrite]
      exact e
    obtain ⟨w', hfin, hsame⟩ : ∃ w', Writer.finalize w = (.ok (), w') ∧ w'.inner.data = w.inner.data := by
      obtain ⟨w', ef, W⟩ := finalize_wrote hl
      have hll : w.leftover = [] := List.eq_nil_of_length_eq_zero (by have := hl.phase; simpa using this)
      rw [hll] at W
      have hlen' := W.len
      have hlt := W.wf.2
      have hn : List.replicate ((8 - ([] : List Bool).length) % 8) false = [] := rfl
      rw [hn] at W hlen'
      rw [hll] at hlen'
      have hp : w'.inner.pos = w.inner.pos := by simp at hlen'; omega
      have hl' : w'.leftover = [] := List.eq_nil_of_length_eq_zero (by simp at hlen'; omega)
      refine ⟨w', ef, ?_⟩
      have htail := W.tail
      have hprod := W.produced
      simp only [Writer.produced, Writer.rest, hl', hll, Sink.written, hp, List.append_nil] at hprod
      have htake := orderBits_inj o (List.append_cancel_right hprod)
      rw [← List.take_append_drop w.inner.pos w'.inner.data, htake]
      rw [hp] at htail
      rw [htail, List.take_append_drop]
    unfold toBytes
    rw [M.bind_ok ew, hfin]
    simp only [hsame, hdata]
  · obtain ⟨r, er, hb⟩ := Fields.Lays.reads fs h (Reader.new { data := store [] L ++ extra }) (Reader.new_at _) rfl (fun c hc => by
      have := farthest_le L c hc
      refine ⟨by simp only [Reader.new, List.length_append]; omega, ?_⟩
      simp only [Reader.new]
      rw [List.drop_append_of_le_length (by omega), List.take_append_of_le_length (by rw [List.length_drop]; omega)]
      exact hpieces c hc)
    have er' : readFrom ((Ty.struct args none [] fs).read m env) 0 (Reader.new { data := store [] L ++ extra }) = (.ok v, r) := by
      simp only [readFrom, Ty.read, seekRead, magicRead]
      exact er
    have hle := lastEnd_le L 0
    unfold fromBytes
    rw [er']
    simp only [hb]
    rw [if_pos (by rw [List.length_append]; omega)]
    have h1 : 8 * lastEnd 0 L / 8 = lastEnd 0 L := by omega
    have h2 : 8 * lastEnd 0 L % 8 = 0 := by omega
    rw [h1, h2]

/-- The layout that `layout` finds is right. -/
theorem layout_lays (m : Machine) (o : Order) : ∀ (l : List JField) {env : Env} {v : Val} {pos : Nat}
    {L : List (Nat × List Byte)}, layout m o l env v pos = some L → (jumpFields m l).Lays m o env v pos L
  | [], env, v, pos, L, h => by
    simp only [layout] at h
    split at h
    · cases h; exact ⟨by assumption, rfl⟩
    · cases h
  | f :: l, env, v, pos, L, h => by
    simp only [layout] at h
    split at h
    · rename_i x xs
      split at h
      · rename_i hc
        simp only [Bool.and_eq_true, decide_eq_true_iff] at hc
        split at h
        · rename_i p bs hland hb
          split at h
          · cases h
          · rename_i hne
            rw [Option.map_eq_some_iff] at h
            obtain ⟨L', hL', rfl⟩ := h
            have hw : ∀ p, Whole p → Align.holds (some 0) p := by
              intro p hp k hk; cases hk; exact hp
            refine ⟨x, xs, p, bs, L', rfl, rfl, hland, hb, ?_, Def.toTy_plain m f.ty, ?_, layout_lays m o l hL'⟩
            · exact DAttrs.fits (fun h1 h2 h3 h4 => Def.fits m o f.ty _ _ _ _ _ _ hc.1.1 h1 h2 h3 h4) hc.1.2 hc.2 hw
                (fun p hp => by have := hp 0 rfl; simpa [Whole] using this)
            · intro hs hbs
              apply hne
              have : f.seek.isSome = true := by
                simpa [JField.toAttrs] using hs
              simp [this, hbs]
        · cases h
      · cases h
    · cases h

/-- **C91** for definitions given as data: the layout is found by computation. -/
theorem C91_checked_formats_that_jump (m : Machine) (o : Order) (l : List JField) (env : Env) (v : Val)
    (L : List (Nat × List Byte)) (h : layout m o l {} v 0 = some L) (hd : Apart L) :
    ∃ out, toBytes ((jumpStruct m l).write m env v) = .ok out ∧
      (∀ c ∈ L, (out.drop c.1).take c.2.length = c.2) ∧
      (∀ i, (∀ c ∈ L, ¬ Covers c i) → out.getD i 0 = 0) ∧ out.length = farthest L ∧
      ∀ extra, fromBytes ((jumpStruct m l).read m env) (out ++ extra) 0 =
        .ok (((out ++ extra).drop (lastEnd 0 L), 0), v) :=
  C91_formats_that_jump_round_trip m o (fun _ => []) (jumpFields m l) env v L (layout_lays m o l h) hd

/-! ### Examples -/

namespace JumpExample

open Example

def u8 : Def := .leaf (some 8) (.uint 1 .unit)

/-- ```
struct Archive {
    offset: u8,
    count: u8,
    #[deku(seek_from_start = "*offset", count = "*count", endian = "big")] items: Vec<u16>,
    #[deku(seek_from_start = "2")] kind: u8,
    #[deku(seek_from_current = "1", endian = "big")] sum: u16,
}
``` -/
def archive : List JField :=
  [{ ty := u8 }, { ty := u8 },
    { seek := some (.start (.field 1)), ty := .vec false (.count (.field 0)) (.leaf (some 16) (.uint 2 (.endian .big))) },
    { seek := some (.start (.lit 2)), ty := u8 },
    { seek := some (.current (.lit 1)), ty := .leaf (some 16) (.uint 2 (.endian .big)) }]

def archiveValue : Val := .ofList [.num 8, .num 2, .ofList [.num 0x0a0b, .num 0x0c0d], .num 7, .num 0x0102]

def archiveLayout : List (Nat × List Byte) := [(0, [8]), (1, [2]), (8, [10, 11, 12, 13]), (2, [7]), (4, [1, 2])]

theorem archive_layout : layout mach .msb0 archive {} archiveValue 0 = some archiveLayout := by decide +kernel

theorem archive_apart : Apart archiveLayout := by
  simp only [Apart, archiveLayout, List.pairwise_cons, List.mem_cons, List.not_mem_nil, or_false, forall_eq_or_imp,
    forall_eq, Covers, List.length_cons, List.length_nil]
  refine ⟨⟨?_, ?_, ?_, ?_⟩, ⟨?_, ?_, ?_⟩, ⟨?_, ?_⟩, ?_, ?_, ?_⟩ <;>
    first | (intro i h1 h2; omega) | simp

example : ∃ out, toBytes ((jumpStruct mach archive).write mach {} archiveValue) = .ok out ∧ out.length = 12 ∧
    fromBytes ((jumpStruct mach archive).read mach {}) out 0 = .ok ((out.drop 6, 0), archiveValue) := by
  obtain ⟨out, h1, _, _, h2, h3⟩ :=
    C91_checked_formats_that_jump mach .msb0 archive {} archiveValue archiveLayout archive_layout archive_apart
  have h3 := h3 []
  rw [List.append_nil] at h3
  exact ⟨out, h1, h2, h3⟩

/-- The bytes: the gaps are zeros. -/
example : toBytes ((jumpStruct mach archive).write mach {} archiveValue) =
    .ok [8, 2, 7, 0, 1, 2, 0, 0, 10, 11, 12, 13] := by decide +kernel

end JumpExample

/-! ### What goes wrong otherwise -/

open JumpExample Example in
/-- Fields that overlap: the second one, at the start again (`seek_rewind`), overwrites the first. -/
theorem C91_overlapping_fields_do_not_come_back :
    let l : List JField := [{ ty := u8 }, { seek := some .rewind, ty := u8 }]
    toBytes ((jumpStruct mach l).write mach {} (.ofList [.num 1, .num 2])) = .ok [2] ∧
    fromBytes ((jumpStruct mach l).read mach {}) [2] 0 = .ok (([], 0), .ofList [.num 2, .num 2]) := by decide +kernel

open JumpExample Example in
/-- `seek_from_end = "-1"`: while writing, the end is the end of what has been written, so that the trailer
overwrites the last byte of the body. The value is accepted and another one is read back. -/
theorem C91_seek_from_end_differs_while_writing :
    let l : List JField := [{ ty := u8 }, { ty := u8 }, { seek := some (.end (.lit (-1))), ty := u8 }]
    toBytes ((jumpStruct mach l).write mach {} (.ofList [.num 1, .num 2, .num 3])) = .ok [1, 3] ∧
    fromBytes ((jumpStruct mach l).read mach {}) [1, 3] 0 = .ok (([], 0), .ofList [.num 1, .num 3, .num 3]) ∧
    fromBytes ((jumpStruct mach l).read mach {}) [1, 2, 3] 0 = .ok (([], 0), .ofList [.num 1, .num 2, .num 3]) := by
  decide +kernel

open JumpExample Example in
/-- An empty list behind a gap: nothing is written there, and reading back fails. -/
theorem C91_empty_list_behind_a_gap_is_not_read :
    let l : List JField := [{ ty := u8 }, { seek := some (.start (.lit 5)), ty := .vec false (.count (.field 0)) u8 }]
    toBytes ((jumpStruct mach l).write mach {} (.ofList [.num 0, .nil])) = .ok [0] ∧
    fromBytes ((jumpStruct mach l).read mach {}) [0] 0 = .err (.incomplete 32) := by decide +kernel

open JumpExample Example in
/-- A bit field before a jump: its bits are dropped. -/
theorem C91_bits_before_a_jump_are_lost :
    let l : List JField := [{ ty := .leaf (some 4) (.uint 1 (.bits 4)) }, { seek := some (.start (.lit 1)), ty := u8 }]
    toBytes ((jumpStruct mach l).write mach {} (.ofList [.num 9, .num 2])) = .ok [0, 2] ∧
    fromBytes ((jumpStruct mach l).read mach {}) [0, 2] 0 = .ok (([], 0), .ofList [.num 0, .num 2]) := by decide +kernel

open JumpExample Example in
/-- `to_slice` leaves what was in the buffer in the gaps, and the number it returns counts the bytes of the
fields: for the archive it says 9 where the output ends at 12. -/
theorem C91_to_slice_counts_the_fields_and_keeps_the_gaps :
    toSlice ((jumpStruct mach archive).write mach {} archiveValue) (List.replicate 14 0xff) =
      (.ok 9, [8, 2, 7, 0xff, 1, 2, 0xff, 0xff, 10, 11, 12, 13, 0xff, 0xff]) := by decide +kernel

end Deku
