import Verif.Spec.CoreFlow
import Verif.Lemmas.Locality
import Verif.Lemmas.Truncate

/-! # Definitions follow the bytes, and notice when they are cut off -/

namespace Deku

variable {fixed inside : Bool}

theorem Follows.assert (b : Bool) : Follows fixed (M.assert b : M Reader Unit) := by
  cases b
  · exact fun _ _ _ _ h => nomatch congrArg Prod.fst h
  · exact Follows.pure ()

/-- Closes goals of the form `Follows fixed f` by following the structure of `f`. -/
macro "follow" "[" ts:term,* "]" : tactic => do
  let ts := ts.getElems
  `(tactic| repeat' with_reducible (first
    $[| apply $ts]* | assumption | exact Follows.pure _ | exact Follows.throw _ | exact Follows.panic
    | exact Follows.assert _ | refine Follows.bind ?_ (fun _ => ?_) | split | dsimp only))

namespace Prim

theorem readBitsUintMsb0_follows (n : Nat) : Follows fixed (Reader.readBitsUintMsb0 n) := by
  by_cases h : 1 ≤ n ∧ n ≤ 64
  · exact (readUint_delivers h.1 h.2).follows
  · intro r a r' _ e
    have hc : (decide (1 ≤ n) && decide (n ≤ 64)) = false := by simp; omega
    rw [Reader.readBitsUintMsb0, hc] at e
    exact nomatch congrArg Prod.fst e

theorem insertZeros_follows (cap i : Nat) : ∀ k l, Follows fixed (insertZeros cap i k l)
  | 0, _ => .pure _
  | k + 1, l => by unfold insertZeros; follow [insertZeros_follows cap i k]

theorem readSliceOrd_follows (W : Nat) (e : Endian) (o : Order) (l : List Bool) :
    Follows fixed (readSliceOrd W e o l) := by
  unfold readSliceOrd; follow [insertZeros_follows]

theorem readSlice_follows (W : Nat) (e : Endian) (l : List Bool) : Follows fixed (readSlice W e l) := by
  unfold readSlice; follow [insertZeros_follows]

theorem readUnsigned_follows (nat : Endian) (W : Nat) (ctx : IntCtx) : Follows fixed (readUnsigned nat W ctx) := by
  cases ctx <;> simp only [readUnsigned, readUBytesOrd, readWhole, readBits, readBitsOrd, readBytesOrd, readU8Bytes,
    Reader.readBytesConstInto_eq] <;>
  follow [readBytes_follows, readBitsInto_follows, readBitsUintMsb0_follows, readSlice_follows, readSliceOrd_follows]

theorem readSigned_follows (nat : Endian) (W : Nat) (ctx : IntCtx) : Follows fixed (readSigned nat W ctx) := by
  cases ctx <;> simp only [readSigned, readSignedWhole, readSignedBits, readSignedBitsOrd, readSignedBytesOrd, readSliceSigned,
    Reader.readBytesConstInto_eq] <;>
  follow [readBytes_follows, readBitsInto_follows, readSliceOrd_follows]

end Prim

theorem Leaf.follows (m : Machine) (l : Leaf) : Follows fixed (l.codec m).read := by
  cases l <;> simp only [Leaf.codec, uintCodec, sintCodec, nonzeroCodec, nonzeroSignedCodec, boolCodec, cstringCodec,
    cstringSizedCodec, unitCodec, Coll.boolRead, Coll.nonzeroRead, Coll.cstringRead, Coll.cstringReadSized, Coll.cstringOf] <;>
  follow [Prim.readUnsigned_follows, Prim.readSigned_follows]
  all_goals exact vecRead_follows (u8Read_delivers m.native).follows _ _ _ nofun

theorem Leaf.notices (m : Machine) (l : Leaf) : Notices inside (l.codec m).read := by
  cases l <;> simp only [Leaf.codec, uintCodec, sintCodec, nonzeroCodec, nonzeroSignedCodec, boolCodec, cstringCodec,
    cstringSizedCodec, unitCodec, Coll.boolRead, Coll.nonzeroRead, Coll.cstringRead, Coll.cstringReadSized, Coll.cstringOf] <;>
  notice [Prim.readUnsigned_notices, Prim.readSigned_notices]
  all_goals exact Coll.vecRead_notices (Coll.u8Read_notices m.native) _ _ _ nofun

theorem DAttrs.streams (a : DAttrs) : a.toAttrs.Streams fixed := ⟨rfl, nofun⟩

theorem Lim.bounded {l : Lim} (h : l ≠ .all) : match l.toLimit with | .end => False | _ => True := by
  cases l <;> simp_all [Lim.toLimit]

mutual

theorem Def.streams (m : Machine) : ∀ d : Def, d.bounded = true → (d.toTy m).Streams fixed
  | .leaf _ l, _ => fun _ => l.follows m
  | .option t, h => Def.streams m t h
  | .array _ t, h => Def.streams m t h
  | .pair a b, h => by
    simp only [Def.bounded, Bool.and_eq_true] at h
    exact ⟨Def.streams m a h.1, Def.streams m b h.2⟩
  | .vec _ l t, h => by
    simp only [Def.bounded, Bool.and_eq_true, decide_eq_true_eq] at h
    exact ⟨Lim.bounded h.1, Def.streams m t h.2⟩
  | .bytes _ _, _ => trivial
  | .struct _ _ fs, h => ⟨rfl, DFields.streams m fs h⟩
  | .enum _ _ id vs, h => by
    refine ⟨?_, DVariants.streams m vs h⟩
    cases id
    · exact fun _ => Leaf.follows m (.uint _ _)
    · trivial

theorem DFields.streams (m : Machine) : ∀ fs : DFields, fs.bounded = true → (fs.toFields m).Streams fixed
  | .nil, _ => trivial
  | .cons a t tl, h => by
    simp only [DFields.bounded, Bool.and_eq_true] at h
    exact ⟨a.streams, Def.streams m t h.1, DFields.streams m tl h.2⟩
  | .temp a t _ tl, h => by
    simp only [DFields.bounded, Bool.and_eq_true] at h
    exact ⟨a.streams, Def.streams m t h.1, DFields.streams m tl h.2⟩

theorem DVariants.streams (m : Machine) : ∀ vs : DVariants, vs.bounded = true → (vs.toVariants m).Streams fixed
  | .nil, _ => trivial
  | .cons _ fs tl, h => by
    simp only [DVariants.bounded, Bool.and_eq_true] at h
    exact ⟨DFields.streams m fs h.1, DVariants.streams m tl h.2⟩

end

/-- What is asked of the definition if the reader has to stay within the input. -/
def Def.flows (inside : Bool) (d : Def) : Prop :=
  d.bounded = true ∧ if inside then d.unpadded true = true else d.unlisted = true

def DFields.flows (inside : Bool) (d : DFields) : Prop :=
  d.bounded = true ∧ if inside then d.unpadded true = true else d.unlisted = true

def DVariants.flows (inside : Bool) (d : DVariants) : Prop :=
  d.bounded = true ∧ if inside then d.unpadded true = true else d.unlisted = true

theorem shortPad_of {n : Option Nat} (h : n.getD 0 < 8) : ShortPad (n.map fun n (_ : Env) => (n : Int)) := by
  intro f hf env
  cases n with
  | none => cases hf
  | some n => cases hf; simp at h ⊢; omega

theorem DAttrs.cuttable {a : DAttrs} (h : inside = true → a.unpadded = true) : a.toAttrs.Cuttable inside := by
  refine ⟨rfl, fun hi => ?_⟩
  have := h hi
  simp only [DAttrs.unpadded, Bool.and_eq_true, decide_eq_true_eq] at this
  exact ⟨shortPad_of this.1, shortPad_of this.2⟩

mutual

theorem Def.cuttable_of (m : Machine) (inside : Bool) : ∀ d : Def, d.flows inside → (d.toTy m).Cuttable inside
  | .leaf _ l, _ => fun _ => l.notices m
  | .option t, h => Def.cuttable_of m _ t h
  | .array _ t, h => Def.cuttable_of m _ t h
  | .pair a b, h => by
    cases inside <;> simp [Def.flows, Def.bounded, Def.unpadded, Def.unlisted] at h <;>
      exact ⟨Def.cuttable_of m _ a ⟨h.1.1, h.2.1⟩, Def.cuttable_of m _ b ⟨h.1.2, h.2.2⟩⟩
  | .vec _ l t, h => by
    cases inside <;> simp [Def.flows, Def.bounded, Def.unpadded, Def.unlisted] at h <;>
      exact ⟨Lim.bounded h.1.1, Def.cuttable_of m _ t ⟨h.1.2, h.2⟩⟩
  | .bytes _ _, h => by
    cases inside <;> simp [Def.flows, Def.bounded, Def.unpadded, Def.unlisted] at h
    exact rfl
  | .struct _ _ fs, h => ⟨rfl, DFields.cuttable_of m _ fs h⟩
  | .enum _ _ id vs, h => by
    refine ⟨?_, DVariants.cuttable_of m _ vs h⟩
    cases id
    · rintro _ _ ⟨⟩
      exact fun _ => Leaf.notices m (.uint _ _)
    · exact nofun

theorem DFields.cuttable_of (m : Machine) (inside : Bool) : ∀ fs : DFields, fs.flows inside → (fs.toFields m).Cuttable inside
  | .nil, _ => trivial
  | .cons a t tl, h => by
    cases inside <;> simp [DFields.flows, DFields.bounded, DFields.unpadded, DFields.unlisted] at h
    · exact ⟨DAttrs.cuttable nofun, Def.cuttable_of m _ t ⟨h.1.1, h.2.1⟩, DFields.cuttable_of m _ tl ⟨h.1.2, h.2.2⟩⟩
    · exact ⟨DAttrs.cuttable fun _ => h.2.1.1, Def.cuttable_of m _ t ⟨h.1.1, h.2.1.2⟩, DFields.cuttable_of m _ tl ⟨h.1.2, h.2.2⟩⟩
  | .temp a t _ tl, h => by
    cases inside <;> simp [DFields.flows, DFields.bounded, DFields.unpadded, DFields.unlisted] at h
    · exact ⟨DAttrs.cuttable nofun, Def.cuttable_of m _ t ⟨h.1.1, h.2.1⟩, DFields.cuttable_of m _ tl ⟨h.1.2, h.2.2⟩⟩
    · exact ⟨DAttrs.cuttable fun _ => h.2.1.1, Def.cuttable_of m _ t ⟨h.1.1, h.2.1.2⟩, DFields.cuttable_of m _ tl ⟨h.1.2, h.2.2⟩⟩

theorem DVariants.cuttable_of (m : Machine) (inside : Bool) : ∀ vs : DVariants, vs.flows inside → (vs.toVariants m).Cuttable inside
  | .nil, _ => trivial
  | .cons _ fs tl, h => by
    cases inside <;> simp [DVariants.flows, DVariants.bounded, DVariants.unpadded, DVariants.unlisted] at h <;>
      exact ⟨DFields.cuttable_of m _ fs ⟨h.1.1, h.2.1⟩, DVariants.cuttable_of m _ tl ⟨h.1.2, h.2.2⟩⟩

end

end Deku
