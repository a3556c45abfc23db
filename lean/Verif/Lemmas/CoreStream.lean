import Verif.Spec.CoreStream
import Verif.Lemmas.Position
import Verif.Lemmas.Sint

/-! # Lemmas: definitions given as data do not notice where the stream comes from -/

namespace Deku

/-! ### writing -/

theorem Coll.cstringWrite_onSink {ψ : Sink → Sink} (hψ : WritesAlike ψ) (nat : Endian) (ctx : IntCtx) (s : List Byte) :
    Commutes (Writer.onSink ψ) (Coll.cstringWrite nat ctx s) := by
  unfold Coll.cstringWrite; exact Coll.writeAll_onSink hψ (Coll.u8Write_onSink hψ nat ctx) _

theorem Leaf.write_onSink {ψ : Sink → Sink} (hψ : WritesAlike ψ) (m : Machine) (l : Leaf) (v : Val) :
    Commutes (Writer.onSink ψ) ((l.codec m).write v) := by
  cases l with
  | uint W ctx => exact uintCodec_write_onSink hψ _ W ctx v
  | sint W ctx => exact sintCodec_write_onSink hψ v
  | nonzero W ctx => simp only [Leaf.codec, nonzeroCodec]; commute [uintCodec_write_onSink hψ]
  | nonzeroSigned W ctx => simp only [Leaf.codec, nonzeroSignedCodec]; commute [sintCodec_write_onSink hψ]
  | bool ctx => simp only [Leaf.codec, boolCodec, Coll.boolWrite]; commute [Prim.writeUnsigned_onSink hψ]
  | cstring => simp only [Leaf.codec, cstringCodec]; commute [Coll.cstringWrite_onSink hψ]
  | cstringSized n => simp only [Leaf.codec, cstringSizedCodec]; commute [Coll.cstringWrite_onSink hψ]
  | unit => simp only [Leaf.codec, unitCodec]; commute []

mutual

theorem Def.unsought {ψ : Sink → Sink} (hψ : WritesAlike ψ) (m : Machine) : ∀ d : Def, (d.toTy m).Unsought ψ
  | .leaf _ l => fun _ v => l.write_onSink hψ m v
  | .option t => by rw [Def.toTy, Ty.Unsought]; exact t.unsought hψ m
  | .array _ t => by rw [Def.toTy, Ty.Unsought]; exact t.unsought hψ m
  | .pair a b => by rw [Def.toTy, Ty.Unsought]; exact ⟨a.unsought hψ m, b.unsought hψ m⟩
  | .vec _ _ t => by rw [Def.toTy, Ty.Unsought]; exact t.unsought hψ m
  | .bytes _ _ => by rw [Def.toTy, Ty.Unsought]; trivial
  | .struct _ _ fs => by rw [Def.toTy, Ty.Unsought]; exact ⟨rfl, fs.unsought hψ m⟩
  | .enum _ _ id vs => by
    rw [Def.toTy, Ty.Unsought]
    refine ⟨?_, ?_, vs.unsought hψ m⟩
    · intro size c h env v
      cases id with
      | typed s W ctx store => cases h; exact uintCodec_write_onSink hψ _ W ctx v
      | arg e => cases h
    · intro _ env v
      cases id with
      | typed s W ctx store => exact uintCodec_write_onSink hψ _ W store v
      | arg e => exact .panic

theorem DFields.unsought {ψ : Sink → Sink} (hψ : WritesAlike ψ) (m : Machine) : ∀ fs : DFields, (fs.toFields m).Unsought ψ
  | .nil => by rw [DFields.toFields, Fields.Unsought]; trivial
  | .cons a t rest => by rw [DFields.toFields, Fields.Unsought]; exact ⟨rfl, t.unsought hψ m, rest.unsought hψ m⟩
  | .temp a t _ rest => by rw [DFields.toFields, Fields.Unsought]; exact ⟨rfl, t.unsought hψ m, rest.unsought hψ m⟩

theorem DVariants.unsought {ψ : Sink → Sink} (hψ : WritesAlike ψ) (m : Machine) : ∀ vs : DVariants,
    (vs.toVariants m).Unsought ψ
  | .nil => by rw [DVariants.toVariants, Variants.Unsought]; trivial
  | .cons a fs rest => by rw [DVariants.toVariants, Variants.Unsought]; exact ⟨fs.unsought hψ m, rest.unsought hψ m⟩

end

theorem Def.toTy_plain (m : Machine) (d : Def) : (d.toTy m).Plain := fun _ hψ => d.unsought hψ m

/-! ### reading -/

theorem Coll.cstringOf_onSrc {ψ : Src → Src} (bs : List Byte) : Commutes (Reader.onSrc ψ) (Coll.cstringOf bs) := by
  unfold Coll.cstringOf; commute []

theorem Leaf.read_onSrc {ψ : Src → Src} (hψ : ReadsAlike ψ) (m : Machine) (l : Leaf) :
    Commutes (Reader.onSrc ψ) (l.codec m).read := by
  cases l with
  | uint W ctx => exact uintCodec_read_onSrc hψ _ W ctx
  | sint W ctx => simp only [Leaf.codec, sintCodec]; commute [Prim.readSigned_onSrc hψ]
  | nonzero W ctx => simp only [Leaf.codec, nonzeroCodec, Coll.nonzeroRead]; commute [Prim.readUnsigned_onSrc hψ]
  | nonzeroSigned W ctx => simp only [Leaf.codec, nonzeroSignedCodec, Coll.nonzeroRead]; commute [Prim.readSigned_onSrc hψ]
  | bool ctx => simp only [Leaf.codec, boolCodec, Coll.boolRead]; commute [Prim.readUnsigned_onSrc hψ]
  | cstring =>
    simp only [Leaf.codec, cstringCodec, Coll.cstringRead]
    commute [Coll.vecRead_onSrc hψ (Coll.u8Read_onSrc hψ m.native), Coll.cstringOf_onSrc]
  | cstringSized n =>
    simp only [Leaf.codec, cstringSizedCodec, Coll.cstringReadSized]
    commute [Coll.vecRead_onSrc hψ (Coll.u8Read_onSrc hψ m.native), Coll.cstringOf_onSrc]
  | unit => simp only [Leaf.codec, unitCodec]; commute []

theorem DAttrs.pipes {a : DAttrs} (h : a.unpadded = true) : a.toAttrs.Pipes := by
  simp only [DAttrs.unpadded, Bool.and_eq_true, decide_eq_true_eq] at h
  refine ⟨rfl, ?_, ?_⟩
  · intro f hf env
    rcases hn : a.padBefore with _ | n
    · simp [DAttrs.toAttrs, hn] at hf
    · simp [DAttrs.toAttrs, hn] at hf
      subst hf
      rw [hn, Option.getD_some] at h
      show (n : Int) < 8
      omega
  · intro f hf env
    rcases hn : a.padAfter with _ | n
    · simp [DAttrs.toAttrs, hn] at hf
    · simp [DAttrs.toAttrs, hn] at hf
      subst hf
      rw [hn, Option.getD_some] at h
      show (n : Int) < 8
      omega

mutual

theorem Def.pipes {ψ : Src → Src} (hψ : ReadsAlike ψ) (lists : Bool) (m : Machine) : ∀ d : Def, d.unpadded lists = true →
    (d.toTy m).Pipes ψ lists
  | .leaf _ l, _ => fun _ => l.read_onSrc hψ m
  | .option t, h => by rw [Def.unpadded] at h; rw [Def.toTy, Ty.Pipes]; exact t.pipes hψ lists m h
  | .array _ t, h => by rw [Def.unpadded] at h; rw [Def.toTy, Ty.Pipes]; exact t.pipes hψ lists m h
  | .pair a b, h => by
    rw [Def.unpadded, Bool.and_eq_true] at h
    rw [Def.toTy, Ty.Pipes]; exact ⟨a.pipes hψ lists m h.1, b.pipes hψ lists m h.2⟩
  | .vec _ _ t, h => by rw [Def.unpadded] at h; rw [Def.toTy, Ty.Pipes]; exact t.pipes hψ lists m h
  | .bytes _ _, h => by rw [Def.unpadded] at h; rw [Def.toTy, Ty.Pipes]; exact h
  | .struct _ _ fs, h => by rw [Def.unpadded] at h; rw [Def.toTy, Ty.Pipes]; exact ⟨rfl, fs.pipes hψ lists m h⟩
  | .enum _ _ id vs, h => by
    rw [Def.unpadded] at h
    rw [Def.toTy, Ty.Pipes]
    refine ⟨?_, vs.pipes hψ lists m h⟩
    intro size c h env
    cases id with
    | typed s W ctx store => cases h; exact uintCodec_read_onSrc hψ _ W ctx
    | arg e => cases h

theorem DFields.pipes {ψ : Src → Src} (hψ : ReadsAlike ψ) (lists : Bool) (m : Machine) : ∀ fs : DFields,
    fs.unpadded lists = true → (fs.toFields m).Pipes ψ lists
  | .nil, _ => by rw [DFields.toFields, Fields.Pipes]; trivial
  | .cons a t rest, h => by
    rw [DFields.unpadded, Bool.and_eq_true, Bool.and_eq_true] at h
    rw [DFields.toFields, Fields.Pipes]; exact ⟨a.pipes h.1.1, t.pipes hψ lists m h.1.2, rest.pipes hψ lists m h.2⟩
  | .temp a t _ rest, h => by
    rw [DFields.unpadded, Bool.and_eq_true, Bool.and_eq_true] at h
    rw [DFields.toFields, Fields.Pipes]; exact ⟨a.pipes h.1.1, t.pipes hψ lists m h.1.2, rest.pipes hψ lists m h.2⟩

theorem DVariants.pipes {ψ : Src → Src} (hψ : ReadsAlike ψ) (lists : Bool) (m : Machine) : ∀ vs : DVariants,
    vs.unpadded lists = true → (vs.toVariants m).Pipes ψ lists
  | .nil, _ => by rw [DVariants.toVariants, Variants.Pipes]; trivial
  | .cons a fs rest, h => by
    rw [DVariants.unpadded, Bool.and_eq_true] at h
    rw [DVariants.toVariants, Variants.Pipes]; exact ⟨fs.pipes hψ lists m h.1, rest.pipes hψ lists m h.2⟩

end

end Deku
