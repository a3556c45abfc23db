import Verif.Lemmas.Portable
import Verif.Lemmas.Wire
import Verif.Spec.Portable

/-! # Sources that mean the same on every machine -/

namespace Deku

open Prim

/-- The context has an endianness. -/
def IntCtx.given : IntCtx → Bool
  | .endian _ => true
  | .endianOrder _ _ => true
  | .endianBits _ _ => true
  | .endianBytes _ _ => true
  | .endianBitsOrder _ _ _ => true
  | .endianBytesOrder _ _ _ => true
  | _ => false

def Leaf.portable : Leaf → Bool
  | .uint W ctx => ctx.given || decide (W = 1)
  | .sint W ctx => ctx.given || (decide (W = 1) && !ctx.isBitsOrder)
  | .nonzero W ctx => ctx.given || decide (W = 1)
  | .nonzeroSigned W ctx => ctx.given || (decide (W = 1) && !ctx.isBitsOrder)
  | .bool _ => true
  | .cstring => true
  | .cstringSized _ => true
  | .unit => true

def DId.portable : DId → Bool
  | .typed _ W ctx store => decide (W = 1) || (ctx.given && store.given)
  | .arg _ => true

def DId.readsId : DId → Bool
  | .typed _ _ _ _ => true
  | .arg _ => false

mutual

def Def.portable : Def → Bool
  | .leaf _ l => l.portable
  | .option t => t.portable
  | .array _ t => t.portable
  | .pair a b => a.portable && b.portable
  | .vec _ _ t => t.portable
  | .bytes _ _ => true
  | .struct _ _ fs => fs.portable
  | .enum _ _ id vs => id.portable && vs.portable id.readsId

def DFields.portable : DFields → Bool
  | .nil => true
  | .cons _ t rest => t.portable && rest.portable
  | .temp _ t _ rest => t.portable && rest.portable

def DFields.portableStored : DFields → Bool
  | .nil => true
  | .cons _ _ rest => rest.portable
  | .temp _ _ _ rest => rest.portable

def DVariants.portable (typed : Bool) : DVariants → Bool
  | .nil => true
  | .cons a fs rest => (if a.kind.isPat && typed then fs.portableStored else fs.portable) && rest.portable typed

end

/-! ### leaves -/

theorem readUnsigned_given {ctx : IntCtx} (h : ctx.given = true) (W : Nat) (e e' : Endian) :
    readUnsigned e W ctx = readUnsigned e' W ctx := by
  revert h
  cases ctx <;> intro h <;> first | exact absurd h Bool.false_ne_true | simp only [readUnsigned]

theorem readSigned_given {ctx : IntCtx} (h : ctx.given = true) (W : Nat) (e e' : Endian) :
    readSigned e W ctx = readSigned e' W ctx := by
  revert h
  cases ctx <;> intro h <;> first | exact absurd h Bool.false_ne_true | simp only [readSigned]

theorem writeUnsigned_given {ctx : IntCtx} (h : ctx.given = true) (W : Nat) (e e' : Endian) :
    writeUnsigned e W ctx = writeUnsigned e' W ctx := by
  revert h
  cases ctx <;> intro h <;> first | exact absurd h Bool.false_ne_true | simp only [writeUnsigned]

theorem writeSigned_given {ctx : IntCtx} (h : ctx.given = true) (W : Nat) (e e' : Endian) :
    writeSigned e W ctx = writeSigned e' W ctx := by
  revert h
  cases ctx <;> intro h <;> first | exact absurd h Bool.false_ne_true | simp only [writeSigned]

theorem uintCodec_portable {W : Nat} {ctx : IntCtx} (h : ctx.given = true ∨ W = 1) (e e' : Endian) :
    uintCodec e W ctx = uintCodec e' W ctx := by
  unfold uintCodec
  rcases h with h | rfl
  · rw [readUnsigned_given h W e e', writeUnsigned_given h W e e']
  · rw [readUnsigned_one ctx e e', writeUnsigned_one ctx e e']

theorem sintCodec_portable {W : Nat} {ctx : IntCtx} (h : ctx.given = true ∨ W = 1 ∧ ctx.isBitsOrder = false)
    (e e' : Endian) : sintCodec e W ctx = sintCodec e' W ctx := by
  unfold sintCodec
  rcases h with h | ⟨rfl, h⟩
  · rw [readSigned_given h W e e', writeSigned_given h W e e']
  · rw [readSigned_one ctx e e', writeSigned_one ctx h e e']

theorem u8Read_portable (e e' : Endian) : Coll.u8Read e = Coll.u8Read e' := by
  unfold Coll.u8Read; rw [readUnsigned_one .unit e e']

theorem u8Write_portable (ctx : IntCtx) (e e' : Endian) : Coll.u8Write e ctx = Coll.u8Write e' ctx := by
  funext b; unfold Coll.u8Write; rw [writeUnsigned_one ctx e e']

theorem magicRead_portable (e e' : Endian) : ∀ l, magicRead e l = magicRead e' l
  | [] => rfl
  | b :: bs => by rw [magicRead, magicRead, u8Read_portable e e', magicRead_portable e e' bs]

theorem magicWrite_portable (l : List Byte) (e e' : Endian) : magicWrite e l = magicWrite e' l := by
  unfold magicWrite; rw [u8Write_portable .unit e e']

theorem Leaf.codec_portable {m m' : Machine} (hm : m.mem = m'.mem) {l : Leaf} (h : l.portable = true) :
    l.codec m = l.codec m' := by
  cases l with
  | uint W ctx => exact uintCodec_portable (by simpa [Leaf.portable] using h) _ _
  | sint W ctx => exact sintCodec_portable (by simpa [Leaf.portable] using h) _ _
  | nonzero W ctx =>
    have h : ctx.given = true ∨ W = 1 := by simpa [Leaf.portable] using h
    simp only [Leaf.codec]
    unfold nonzeroCodec
    rw [uintCodec_portable h m.native m'.native]
    rcases h with h | rfl
    · rw [readUnsigned_given h W m.native m'.native]
    · rw [readUnsigned_one ctx m.native m'.native]
  | nonzeroSigned W ctx =>
    have h : ctx.given = true ∨ W = 1 ∧ ctx.isBitsOrder = false := by simpa [Leaf.portable] using h
    simp only [Leaf.codec]
    unfold nonzeroSignedCodec
    rw [sintCodec_portable h m.native m'.native]
    rcases h with h | ⟨rfl, _⟩
    · rw [readSigned_given h W m.native m'.native]
    · rw [readSigned_one ctx m.native m'.native]
  | bool ctx =>
    simp only [Leaf.codec]
    unfold boolCodec
    rw [readUnsigned_one ctx m.native m'.native, writeUnsigned_one ctx m.native m'.native]
  | cstring =>
    simp only [Leaf.codec]
    unfold cstringCodec Coll.cstringRead Coll.cstringWrite
    rw [hm, u8Read_portable m.native m'.native, u8Write_portable .unit m.native m'.native]
  | cstringSized n =>
    simp only [Leaf.codec]
    unfold cstringSizedCodec Coll.cstringReadSized Coll.cstringWrite
    rw [hm, u8Read_portable m.native m'.native, u8Write_portable (.bytes n) m.native m'.native]
  | unit => rfl

theorem Attrs.read_portable (a : Attrs) (e e' : Endian) : a.read e = a.read e' := by
  funext rd env; unfold Attrs.read; rw [magicRead_portable e e']

theorem Attrs.write_portable (a : Attrs) (e e' : Endian) : a.write e = a.write e' := by
  funext wr env v; unfold Attrs.write; rw [magicWrite_portable _ e e']

theorem DId.toSrc_portable {m m' : Machine} {id : DId} (h : id.portable = true) : id.toSrc m = id.toSrc m' := by
  cases id with
  | typed s W ctx store =>
    have h : W = 1 ∨ ctx.given = true ∧ store.given = true := by simpa [DId.portable] using h
    rw [DId.toSrc, DId.toSrc, uintCodec_portable (h.symm.imp_left And.left) m.native m'.native]
  | arg e => rfl

theorem DId.store_portable {m m' : Machine} {id : DId} (h : id.portable = true) : id.store m = id.store m' := by
  cases id with
  | typed s W ctx store =>
    have h : W = 1 ∨ ctx.given = true ∧ store.given = true := by simpa [DId.portable] using h
    funext env x
    rw [DId.store, DId.store, uintCodec_portable (h.symm.imp_left And.right) m.native m'.native]
  | arg e => rfl

theorem DVariants.firstMatch_any (m m' : Machine) (env : Env) (id : Val) : ∀ (vs : DVariants) (i : Nat),
    (vs.toVariants m).firstMatch env id i = (vs.toVariants m').firstMatch env id i
  | .nil, _ => rfl
  | .cons a fs rest, i => by
    rw [DVariants.toVariants, DVariants.toVariants, Variants.firstMatch, Variants.firstMatch,
      DVariants.firstMatch_any m m' env id rest]

theorem DVariants.defaultAt_any (m m' : Machine) : ∀ (vs : DVariants) (i : Nat),
    (vs.toVariants m).defaultAt i = (vs.toVariants m').defaultAt i
  | .nil, _ => rfl
  | .cons a fs rest, i => by
    rw [DVariants.toVariants, DVariants.toVariants, Variants.defaultAt, Variants.defaultAt,
      DVariants.defaultAt_any m m' rest]

theorem DVariants.select_any (m m' : Machine) (env : Env) (id : Val) (vs : DVariants) :
    (vs.toVariants m).select env id = (vs.toVariants m').select env id := by
  unfold Variants.select; rw [DVariants.firstMatch_any m m', DVariants.defaultAt_any m m']

/-! ### reading -/

variable {m m' : Machine}

mutual

theorem Def.read_portable (hm : m.mem = m'.mem) : ∀ (d : Def), d.portable = true → (d.toTy m).read m = (d.toTy m').read m'
  | .leaf s l, h => by
    funext env; simp only [Def.toTy, Ty.read]; rw [Leaf.codec_portable hm (by simpa [Def.portable] using h)]
  | .option t, h => by
    funext env; simp only [Def.toTy, Ty.read]; rw [Def.read_portable hm t (by simpa [Def.portable] using h)]
  | .array n t, h => by
    funext env; simp only [Def.toTy, Ty.read]; rw [Def.read_portable hm t (by simpa [Def.portable] using h)]
  | .pair a b, h => by
    rw [Def.portable, Bool.and_eq_true] at h
    funext env; simp only [Def.toTy, Ty.read]; rw [Def.read_portable hm a h.1, Def.read_portable hm b h.2]
  | .vec z l t, h => by
    funext env; simp only [Def.toTy, Ty.read]; rw [Def.read_portable hm t (by simpa [Def.portable] using h), hm]
  | .bytes n ctx, h => by funext env; simp only [Def.toTy, Ty.read]
  | .struct args magic fs, h => by
    funext env; simp only [Def.toTy, Ty.read]
    rw [DFields.read_portable hm fs (by simpa [Def.portable] using h), magicRead_portable m.native m'.native]
  | .enum args magic id vs, h => by
    rw [Def.portable, Bool.and_eq_true] at h
    funext env; simp only [Def.toTy, Ty.read]
    rw [magicRead_portable m.native m'.native, DId.toSrc_portable (m' := m') h.1]
    cases id with
    | typed s W ctx store =>
      simp only [DId.toSrc]
      have hv : ∀ env x, (vs.toVariants m).readAt m env x true = (vs.toVariants m').readAt m' env x true :=
        fun env x => funext fun i => DVariants.readAt_portable hm true vs h.2 env x i
      simp only [hv, DVariants.select_any m m']
    | arg e =>
      simp only [DId.toSrc]
      have hv : ∀ env x, (vs.toVariants m).readAt m env x false = (vs.toVariants m').readAt m' env x false :=
        fun env x => funext fun i => DVariants.readAt_portable hm false vs h.2 env x i
      simp only [hv, DVariants.select_any m m']

theorem DFields.read_portable (hm : m.mem = m'.mem) : ∀ (ds : DFields), ds.portable = true → (ds.toFields m).read m = (ds.toFields m').read m'
  | .nil, _ => by funext env; simp only [DFields.toFields, Fields.read]
  | .cons a t rest, h => by
    rw [DFields.portable, Bool.and_eq_true] at h
    funext env; simp only [DFields.toFields, Fields.read]
    rw [Def.read_portable hm t h.1, DFields.read_portable hm rest h.2, Attrs.read_portable _ m.native m'.native]
  | .temp a t v rest, h => by
    rw [DFields.portable, Bool.and_eq_true] at h
    funext env; simp only [DFields.toFields, Fields.read]
    rw [Def.read_portable hm t h.1, DFields.read_portable hm rest h.2, Attrs.read_portable _ m.native m'.native]

theorem DFields.readStored_portable (hm : m.mem = m'.mem) : ∀ (ds : DFields), ds.portableStored = true →
    (ds.toFields m).readStored m = (ds.toFields m').readStored m'
  | .nil, _ => by funext env id; simp only [DFields.toFields, Fields.readStored]
  | .cons a t rest, h => by
    funext env id; simp only [DFields.toFields, Fields.readStored]
    rw [DFields.read_portable hm rest (by simpa [DFields.portableStored] using h)]
  | .temp a t v rest, h => by
    funext env id; simp only [DFields.toFields, Fields.readStored]
    rw [DFields.read_portable hm rest (by simpa [DFields.portableStored] using h)]

theorem DVariants.readAt_portable (hm : m.mem = m'.mem) (typed : Bool) : ∀ (vs : DVariants), vs.portable typed = true → ∀ env x i,
    (vs.toVariants m).readAt m env x typed i = (vs.toVariants m').readAt m' env x typed i
  | .nil, _, env, x, i => by simp only [DVariants.toVariants, Variants.readAt]
  | .cons a fs rest, h, env, x, i => by
    rw [DVariants.portable, Bool.and_eq_true] at h
    simp only [DVariants.toVariants]
    cases i with
    | zero =>
      simp only [Variants.readAt]
      rw [show a.toVAttrs.idPat = a.kind.isPat from rfl]
      by_cases hs : (a.kind.isPat && typed) = true
      · rw [if_pos hs, if_pos hs, DFields.readStored_portable hm fs (by rw [if_pos hs] at h; exact h.1)]
      · rw [if_neg hs, if_neg hs, DFields.read_portable hm fs (by rw [if_neg hs] at h; exact h.1)]
    | succ i =>
      simp only [Variants.readAt]
      exact DVariants.readAt_portable hm typed rest h.2 env x i

end

/-! ### writing -/

mutual

theorem Def.write_portable (hm : m.mem = m'.mem) : ∀ (d : Def), d.portable = true → (d.toTy m).write m = (d.toTy m').write m'
  | .leaf s l, h => by
    funext env v; simp only [Def.toTy, Ty.write]; rw [Leaf.codec_portable hm (by simpa [Def.portable] using h)]
  | .option t, h => by
    funext env v
    cases v <;> simp only [Def.toTy, Ty.write]
    rw [Def.write_portable hm t (by simpa [Def.portable] using h)]
  | .array n t, h => by
    funext env v; simp only [Def.toTy, Ty.write]; rw [Def.write_portable hm t (by simpa [Def.portable] using h)]
  | .pair a b, h => by
    rw [Def.portable, Bool.and_eq_true] at h
    funext env v; simp only [Def.toTy, Ty.write]; rw [Def.write_portable hm a h.1, Def.write_portable hm b h.2]
  | .vec z l t, h => by
    funext env v; simp only [Def.toTy, Ty.write]; rw [Def.write_portable hm t (by simpa [Def.portable] using h)]
  | .bytes n ctx, h => by
    funext env v; simp only [Def.toTy, Ty.write]; rw [u8Write_portable ctx m.native m'.native]
  | .struct args magic fs, h => by
    funext env v; simp only [Def.toTy, Ty.write]
    rw [DFields.write_portable hm fs (by simpa [Def.portable] using h), magicWrite_portable magic m.native m'.native]
  | .enum args magic id vs, h => by
    rw [Def.portable, Bool.and_eq_true] at h
    funext env v
    cases v <;> simp only [Def.toTy, Ty.write]
    rw [magicWrite_portable magic m.native m'.native, DId.toSrc_portable (m' := m') h.1,
      DId.store_portable (m' := m') h.1, DVariants.writeAt_portable hm _ vs h.2]

theorem DFields.write_portable (hm : m.mem = m'.mem) : ∀ (ds : DFields), ds.portable = true →
    (ds.toFields m).write m = (ds.toFields m').write m'
  | .nil, _ => by funext env all v; simp only [DFields.toFields, Fields.write]
  | .cons a t rest, h => by
    rw [DFields.portable, Bool.and_eq_true] at h
    funext env all v
    cases v <;> simp only [DFields.toFields, Fields.write]
    rw [Def.write_portable hm t h.1, DFields.write_portable hm rest h.2, Attrs.write_portable _ m.native m'.native]
  | .temp a t v rest, h => by
    rw [DFields.portable, Bool.and_eq_true] at h
    funext env all x; simp only [DFields.toFields, Fields.write]
    rw [Def.write_portable hm t h.1, DFields.write_portable hm rest h.2, Attrs.write_portable _ m.native m'.native]

theorem DFields.writeStored_portable (hm : m.mem = m'.mem) (store : Env → Val → M Writer Unit) : ∀ (ds : DFields), ds.portableStored = true →
    (ds.toFields m).writeStored m store = (ds.toFields m').writeStored m' store
  | .nil, _ => by funext env v; simp only [DFields.toFields, Fields.writeStored]
  | .cons a t rest, h => by
    funext env v
    cases v <;> simp only [DFields.toFields, Fields.writeStored]
    rw [DFields.write_portable hm rest (by simpa [DFields.portableStored] using h)]
  | .temp a t v rest, h => by
    funext env v; simp only [DFields.toFields, Fields.writeStored]

theorem DVariants.writeAt_portable (hm : m.mem = m'.mem) (typed : Bool) : ∀ (vs : DVariants), vs.portable typed = true →
    ∀ env id store i v, (vs.toVariants m).writeAt m env id store i v = (vs.toVariants m').writeAt m' env id store i v
  | .nil, _, env, id, store, i, v => by simp only [DVariants.toVariants, Variants.writeAt]
  | .cons a fs rest, h, env, id, store, i, v => by
    rw [DVariants.portable, Bool.and_eq_true] at h
    simp only [DVariants.toVariants]
    cases i with
    | zero =>
      have hs : (if a.toVAttrs.idPat = true then (fs.toFields m).writeStored m store env v else
          (fs.toFields m).write m env v v) =
          (if a.toVAttrs.idPat = true then (fs.toFields m').writeStored m' store env v else
          (fs.toFields m').write m' env v v) := by
        rw [show a.toVAttrs.idPat = a.kind.isPat from rfl]
        by_cases hk : a.kind.isPat = true
        · have h1 : fs.portableStored = true := by
            cases typed with
            | true => simpa [hk] using h.1
            | false =>
              have : fs.portable = true := by simpa using h.1
              cases fs with
              | nil => rfl
              | cons a t rest => rw [DFields.portable, Bool.and_eq_true] at this; rw [DFields.portableStored]; exact this.2
              | temp a t v rest => rw [DFields.portable, Bool.and_eq_true] at this; rw [DFields.portableStored]; exact this.2
          rw [if_pos hk, if_pos hk, DFields.writeStored_portable hm store fs h1]
        · rw [if_neg hk, if_neg hk, DFields.write_portable hm fs (by simpa [hk] using h.1)]
      unfold Variants.writeAt
      dsimp only
      rw [hs]
    | succ i =>
      simp only [Variants.writeAt]
      exact DVariants.writeAt_portable hm typed rest h.2 env id store i v

end

/-! ### from sources -/

theorem intArgs_given {args : List Arg} {ctx : IntCtx} (h : intArgs args = some ctx) (he : ∃ e, .endian e ∈ args) :
    ctx.given = true := by
  obtain ⟨e, he⟩ := he
  unfold intArgs at h
  split at h <;> first | (cases h; first | rfl | (simp at he; done)) | cases h

theorem intArgs_both {args : List Arg} {ctx : IntCtx} (h : intArgs args = some ctx)
    (hb : ¬ ((∃ n, .bits n ∈ args) ∧ ∃ o, .order o ∈ args)) : ctx.isBitsOrder = false := by
  unfold intArgs at h
  split at h <;> first | (cases h; first | rfl | (simp at hb; done)) | cases h

theorem nonzeroArgs_given {args : List Arg} {ctx : IntCtx} (h : nonzeroArgs args = some ctx)
    (he : ∃ e, .endian e ∈ args) : ctx.given = true := by
  obtain ⟨e, he⟩ := he
  unfold nonzeroArgs at h
  split at h <;> first | (cases h; first | rfl | (simp at he; done)) | cases h

theorem nonzeroArgs_both {args : List Arg} {ctx : IntCtx} (h : nonzeroArgs args = some ctx) :
    ctx.isBitsOrder = false := by
  unfold nonzeroArgs at h
  split at h <;> first | (cases h; rfl) | cases h

/-- What is known about the arguments. -/
structure Known (endian both : Bool) (args : List Arg) : Prop where
  endian : endian = true → ∃ e, .endian e ∈ args
  both : both = false → ¬ ((∃ n, .bits n ∈ args) ∧ ∃ o, .order o ∈ args)

theorem Base.leaf_portable {e b : Bool} {args : List Arg} (k : Known e b args) {t : Base}
    (h : t.portable e b = true) {l : Leaf} (hl : t.leaf args = some l) : l.portable = true := by
  cases t with
  | uint W =>
    simp only [Base.leaf, Option.map_eq_some_iff] at hl
    obtain ⟨ctx, h1, rfl⟩ := hl
    simp only [Base.portable, Bool.or_eq_true, decide_eq_true_eq] at h
    simp only [Leaf.portable, Bool.or_eq_true, decide_eq_true_eq]
    exact h.imp_left fun h => intArgs_given h1 (k.endian h)
  | sint W =>
    simp only [Base.leaf, Option.map_eq_some_iff] at hl
    obtain ⟨ctx, h1, rfl⟩ := hl
    simp only [Base.portable, Bool.or_eq_true, Bool.and_eq_true, decide_eq_true_eq, Bool.not_eq_true'] at h
    simp only [Leaf.portable, Bool.or_eq_true, Bool.and_eq_true, decide_eq_true_eq, Bool.not_eq_true']
    exact h.imp (fun h => intArgs_given h1 (k.endian h)) fun h => ⟨h.1, intArgs_both h1 (k.both h.2)⟩
  | nonzero W =>
    simp only [Base.leaf, Option.map_eq_some_iff] at hl
    obtain ⟨ctx, h1, rfl⟩ := hl
    simp only [Base.portable, Bool.or_eq_true, decide_eq_true_eq] at h
    simp only [Leaf.portable, Bool.or_eq_true, decide_eq_true_eq]
    exact h.imp_left fun h => nonzeroArgs_given h1 (k.endian h)
  | nonzeroSigned W =>
    simp only [Base.leaf, Option.map_eq_some_iff] at hl
    obtain ⟨ctx, h1, rfl⟩ := hl
    simp only [Base.portable, Bool.or_eq_true, decide_eq_true_eq] at h
    simp only [Leaf.portable, Bool.or_eq_true, Bool.and_eq_true, decide_eq_true_eq, Bool.not_eq_true']
    exact h.imp (fun h => nonzeroArgs_given h1 (k.endian h)) fun h => ⟨h, nonzeroArgs_both h1⟩
  | bool =>
    simp only [Base.leaf, Option.map_eq_some_iff] at hl
    obtain ⟨ctx, h1, rfl⟩ := hl
    rfl
  | cstring =>
    simp only [Base.leaf] at hl
    split at hl <;> cases hl <;> rfl
  | unit => cases hl; rfl

theorem evalOpt_isSome {α β : Type} {f : α → Option β} {x : Option α} {y : Option β} (h : evalOpt f x = some y) :
    y.isSome = x.isSome := by
  cases x with
  | none => cases h; rfl
  | some a =>
    simp only [evalOpt, Option.map_eq_some_iff] at h
    obtain ⟨b, _, rfl⟩ := h
    rfl

theorem CtxArg.eval_list {env : List Arg} : ∀ {l : List CtxArg} {ctx : List Arg}, l.mapM (·.eval env) = some ctx →
    (l.any CtxArg.isEndian = true → ∃ e, .endian e ∈ ctx) ∧ (∀ n, .bits n ∉ ctx) ∧ (l = [] → ctx = [])
  | [], ctx, h => by
    rw [List.mapM_nil] at h
    cases h
    exact ⟨fun h => (nomatch h), fun n h => (nomatch h), fun _ => rfl⟩
  | a :: l, ctx, h => by
    rw [List.mapM_cons] at h
    simp only [Option.bind_eq_bind, Option.bind_eq_some_iff, Option.pure_def, Option.some.injEq] at h
    obtain ⟨x, h1, xs, h2, rfl⟩ := h
    obtain ⟨i1, i2, _⟩ := CtxArg.eval_list h2
    have hx : (∀ n, x ≠ .bits n) ∧ (a.isEndian = true → ∃ e, x = .endian e) := by
      cases a with
      | endian g =>
        simp only [CtxArg.eval, Option.map_eq_some_iff] at h1
        obtain ⟨e, _, rfl⟩ := h1
        exact ⟨fun n h => (nomatch h), fun _ => ⟨e, rfl⟩⟩
      | order g =>
        simp only [CtxArg.eval, Option.map_eq_some_iff] at h1
        obtain ⟨e, _, rfl⟩ := h1
        exact ⟨fun n h => (nomatch h), fun h => (nomatch h)⟩
      | num e =>
        cases h1
        exact ⟨fun n h => (nomatch h), fun h => (nomatch h)⟩
    refine ⟨fun h => ?_, fun n h => ?_, fun h => (nomatch h)⟩
    · rw [List.any_cons, Bool.or_eq_true] at h
      rcases h with h | h
      · obtain ⟨e, rfl⟩ := hx.2 h
        exact ⟨e, by simp⟩
      · obtain ⟨e, he⟩ := i1 h
        exact ⟨e, by simp [he]⟩
    · rcases List.mem_cons.1 h with h | h
      · exact hx.1 n h.symm
      · exact i2 n h

theorem SAttrs.known {c : Container} {env : List Arg} {a : SAttrs} {endian : Option Endian} {order : Option Order}
    {ctx : List Arg} (h1 : evalOpt (·.endian env) (a.endian.or c.endian) = some endian)
    (h2 : evalOpt (·.order env) (a.order.or c.order) = some order) (h3 : a.ctx.mapM (·.eval env) = some ctx) :
    Known (a.givesEndian c) (a.givesBoth c) (fieldArgs endian a.bits a.bytes order ctx) := by
  have e1 := evalOpt_isSome h1
  have e2 := evalOpt_isSome h2
  obtain ⟨k1, k2, k3⟩ := CtxArg.eval_list h3
  rw [Option.isSome_or] at e1 e2
  constructor
  · intro h
    simp only [SAttrs.givesEndian, Bool.or_eq_true] at h
    rcases h with h | h
    · cases endian with
      | none => simp only [Option.isSome_none] at e1; simp_all
      | some e => exact ⟨e, by simp [fieldArgs]⟩
    · obtain ⟨e, he⟩ := k1 h
      exact ⟨e, by simp [fieldArgs, he]⟩
  · rintro h ⟨⟨n, hn⟩, o, ho⟩
    simp only [SAttrs.givesBoth, Bool.and_eq_false_iff] at h
    rcases h with h | h
    · cases hb : a.bits with
      | some n => rw [hb] at h; cases h
      | none => simp [fieldArgs, hb, k2] at hn
    · simp only [Bool.or_eq_false_iff, Bool.not_eq_false', List.isEmpty_iff] at h
      cases order with
      | some o => simp_all
      | none => simp [fieldArgs, k3 h.2] at ho

theorem SId.elab_portable {c : Container} {env : List Arg} {p : Bool} {id : SId} {d : DId}
    (h : id.portable c p = true) (hd : id.elab c env p = some d) : d.portable = true := by
  cases id with
  | ctx e => cases hd; rfl
  | typed W idEndian bits bytes =>
    simp only [SId.elab, Option.bind_eq_bind, Option.bind_eq_some_iff, Option.pure_def, Option.some.injEq] at hd
    obtain ⟨endian, h1, order, h2, ctx, h3, stored, h4, store, h5, rfl⟩ := hd
    have e1 := evalOpt_isSome h1
    have e4 := evalOpt_isSome h4
    rw [Option.isSome_or] at e1
    simp only [SId.portable, Bool.or_eq_true, decide_eq_true_eq, Bool.and_eq_true, Bool.not_eq_true'] at h
    simp only [DId.portable, Bool.or_eq_true, decide_eq_true_eq, Bool.and_eq_true]
    have fin : endian.isSome = true → stored.isSome = true → ctx.given = true ∧ store.given = true := by
      intro he hs
      obtain ⟨e, rfl⟩ := Option.isSome_iff_exists.1 he
      obtain ⟨s, rfl⟩ := Option.isSome_iff_exists.1 hs
      exact ⟨intArgs_given h3 ⟨e, by simp [fieldArgs]⟩, intArgs_given h5 ⟨s, by simp [fieldArgs]⟩⟩
    rcases h with (h | h) | h
    · exact .inl h
    · refine .inr (fin (by simp [e1, h]) ?_)
      rw [e4]
      split <;> simp [h]
    · rw [if_neg (by simp [h.1])] at e4
      rw [Option.isSome_or] at e4
      exact .inr (fin (by simp [e1, h.2]) (by simp [e4, h.2]))

mutual

theorem STy.elab_portable : ∀ (t : STy) (e b : Bool) (lim : Option Lim) (args : List Arg) (d : Def), Known e b args →
    t.portable e b = true → t.elab lim args = some d → d.portable = true
  | .base t, e, b, lim, args, d, k, h, hd => by
    rw [STy.elab] at hd
    split at hd
    · cases hd
    · simp only [Option.bind_eq_bind, Option.bind_eq_some_iff, Option.pure_def, Option.some.injEq] at hd
      obtain ⟨l, h1, rfl⟩ := hd
      rw [STy.portable] at h
      rw [Def.portable]
      exact Base.leaf_portable k h h1
  | .option t, e, b, lim, args, d, k, h, hd => by
    simp only [STy.elab, Option.bind_eq_bind, Option.bind_eq_some_iff, Option.pure_def, Option.some.injEq] at hd
    obtain ⟨x, h1, rfl⟩ := hd
    rw [STy.portable] at h
    rw [Def.portable]
    exact STy.elab_portable t e b lim args x k h h1
  | .array n t, e, b, lim, args, d, k, h, hd => by
    simp only [STy.elab, Option.bind_eq_bind, Option.bind_eq_some_iff, Option.pure_def, Option.some.injEq] at hd
    obtain ⟨x, h1, rfl⟩ := hd
    rw [STy.portable] at h
    rw [Def.portable]
    exact STy.elab_portable t e b lim args x k h h1
  | .pair t u, e, b, lim, args, d, k, h, hd => by
    simp only [STy.elab, Option.bind_eq_bind, Option.bind_eq_some_iff, Option.pure_def, Option.some.injEq] at hd
    obtain ⟨x, h1, y, h2, rfl⟩ := hd
    rw [STy.portable, Bool.and_eq_true] at h
    rw [Def.portable, STy.elab_portable t e b lim args x k h.1 h1, STy.elab_portable u e b lim args y k h.2 h2]
    rfl
  | .vec z t, e, b, lim, args, d, k, h, hd => by
    cases lim with
    | none => cases hd
    | some l =>
      simp only [STy.elab, Option.bind_eq_bind, Option.bind_eq_some_iff, Option.pure_def, Option.some.injEq] at hd
      obtain ⟨x, h1, rfl⟩ := hd
      rw [STy.portable] at h
      rw [Def.portable]
      exact STy.elab_portable t e b none args x k h h1
  | .struct c fs, e, b, lim, args, d, k, h, hd => by
    rw [STy.elab] at hd
    split at hd
    · cases hd
    · simp only [Option.bind_eq_bind, Option.bind_eq_some_iff, Option.pure_def, Option.some.injEq] at hd
      obtain ⟨env, _, ds, h2, rfl⟩ := hd
      rw [STy.portable] at h
      rw [Def.portable]
      exact SFields.elab_portable c fs env ds h h2
  | .enum c id vs, e, b, lim, args, d, k, h, hd => by
    rw [STy.elab] at hd
    split at hd
    · cases hd
    · simp only [Option.bind_eq_bind, Option.bind_eq_some_iff, Option.pure_def, Option.some.injEq] at hd
      obtain ⟨env, _, did, h2, ds, h3, rfl⟩ := hd
      rw [STy.portable, Bool.and_eq_true] at h
      rw [Def.portable, SId.elab_portable h.1 h2, SVariants.elab_portable c vs env id.size did.readsId (by
        cases id with
        | ctx e => intro W hW; cases hW
        | typed W x y z =>
          intro _ _
          simp only [SId.elab, Option.bind_eq_bind, Option.bind_eq_some_iff, Option.pure_def, Option.some.injEq] at h2
          obtain ⟨_, _, _, _, _, _, _, _, _, _, rfl⟩ := h2
          rfl) ds h.2 h3]
      rfl

theorem SFields.elab_portable (c : Container) : ∀ (fs : SFields) (env : List Arg) (ds : DFields),
    fs.portable c = true → fs.elab c env = some ds → ds.portable = true
  | .nil, env, ds, h, hd => by rw [SFields.elab] at hd; cases hd; rfl
  | .cons a t rest, env, ds, h, hd => by
    obtain ⟨endian, order, ctx, dflt, d, rest', h1, h2, h3, h4, h5, h6, h7, h8⟩ := SFields.elab_cons c env a t rest ds hd
    rw [SFields.portable, Bool.and_eq_true] at h
    have hr := SFields.elab_portable c rest env rest' h.2 h6
    have ht : d.portable = true := by
      rcases h5 with ⟨n, u, _, _, _, rfl⟩ | h5
      · rfl
      · exact STy.elab_portable t _ _ _ _ d (SAttrs.known h1 h2 h3) h.1 h5
    rcases h8 with ⟨_, rfl⟩ | ⟨v, _, rfl⟩ <;> rw [DFields.portable, ht, hr] <;> rfl

theorem SFields.elabStored_portable (c : Container) (typed : Option Nat) : ∀ (fs : SFields) (env : List Arg)
    (ds : DFields), fs.portableStored c = true → fs.elabStored c env typed = some ds →
    ds.portableStored = true ∧ ∃ W, typed = some W
  | .nil, env, ds, h, hd => by cases hd
  | .cons a t rest, env, ds, h, hd => by
    obtain ⟨W, _, rest2, rest', hW, e, h4, rfl⟩ := SFields.elabStored_inv c env _ _ ds hd
    obtain rfl : rest = rest2 := by cases e; rfl
    rw [SFields.portableStored] at h
    rw [DFields.portableStored]
    exact ⟨SFields.elab_portable c rest env rest' h h4, W, hW⟩

theorem SVariants.elab_portable (c : Container) : ∀ (vs : SVariants) (env : List Arg) (typed : Option Nat) (ty : Bool)
    (_ : ∀ W, typed = some W → ty = true) (ds : DVariants), vs.portable c = true → vs.elab c env typed = some ds →
    ds.portable ty = true
  | .nil, env, typed, ty, hty, ds, h, hd => by rw [SVariants.elab] at hd; cases hd; rfl
  | .cons a fs rest, env, typed, ty, hty, ds, h, hd => by
    obtain ⟨x, vs, h1, hv, rfl⟩ := SVariants.elab_cons c env typed a fs rest ds hd
    rw [SVariants.portable, Bool.and_eq_true] at h
    rw [DVariants.portable, SVariants.elab_portable c rest env typed ty hty vs h.2 hv, Bool.and_true]
    by_cases hk : a.kind.isPat = true
    · rw [if_pos hk] at h h1
      obtain ⟨hs, W, hW⟩ := SFields.elabStored_portable c typed fs env x h.1 h1
      rw [hk, hty W hW]
      exact hs
    · rw [if_neg hk] at h h1
      rw [if_neg (by simp [hk])]
      exact SFields.elab_portable c fs env x h.1 h1

end

theorem STy.compile_portable {t : STy} {d : Def} (h : t.Portable) (hd : t.compile = some d) : d.portable = true :=
  STy.elab_portable t false false none [] d ⟨fun h => (nomatch h), fun _ h => by simp at h⟩ h hd

end Deku
