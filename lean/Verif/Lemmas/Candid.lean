import Verif.Lemmas.Talk
import Verif.Lemmas.Io
import Verif.Lemmas.Chain
import Verif.Spec.Candid

/-!
# Reading in whole bytes reports the errors of the stream
-/

namespace Deku

variable {α β : Type} {strict : Bool}

/-- Seeks that no `NoSeek` allows. -/
def ReadCall.toEnd : ReadCall → Bool
  | .seek (.end _) => true
  | _ => false

/-- The program gives up as soon as a call fails, with the error of the call; if it succeeds, nothing is
left over. If `strict`, it does not ask for more on its own, unless it has looked where the stream ends. -/
def Talk.Frank : Bool → Talk ReadCall ReadCall.Answer (Res α × ReadState) → Prop
  | strict, .done x => (∀ a, x.1 = .ok a → x.2.1 = none) ∧ (strict = true → ¬ Reported .unexpectedEof x.1)
  | strict, .call c k => ∀ a : c.Answer, match c.failure a with
    | none => (k a).Frank (strict && !c.toEnd)
    | some e => ∃ x, k a = .done x ∧ Reported e x.1

/-- With nothing left over, the computation is such a program. -/
def Candid (strict : Bool) (f : M Reader α) : Prop := ∃ t : ReadTalk α,
  (∀ r : Reader, r.leftover = none → f r = match t.run Src.impl (none, r.bitsRead) r.inner with
    | (x, h, s) => (x, { inner := s, leftover := h.1, bitsRead := h.2 })) ∧
  ∀ n, (t (none, n)).Frank strict

theorem Reported.err {e : IoKind} {x : Res α} (h : Reported e x) : ∃ d, x = .err d ∧ Reported (α := β) e (.err d) := by
  rcases h with h | ⟨h, n, hn⟩
  · exact ⟨_, h, .inl rfl⟩
  · exact ⟨_, hn, .inr ⟨h, n, rfl⟩⟩

theorem Talk.Frank.mono {t : Talk ReadCall ReadCall.Answer (Res α × ReadState)} :
    ∀ {a b : Bool}, (b = true → a = true) → t.Frank a → t.Frank b := by
  induction t with
  | done x => exact fun h ht => ⟨ht.1, fun hb => ht.2 (h hb)⟩
  | call c k ih =>
    intro a b h ht y
    have h1 := ht y
    revert h1
    split
    · exact ih _ (by revert h; cases a <;> cases b <;> simp)
    · exact id

theorem Talk.Frank.and {t : Talk ReadCall ReadCall.Answer (Res α × ReadState)} {a : Bool} (b : Bool) (h : t.Frank a) :
    t.Frank (a && b) := h.mono (by cases a <;> simp)

theorem Talk.Frank.bind {t : Talk ReadCall ReadCall.Answer (Res α × ReadState)}
    {g : Res α × ReadState → Talk ReadCall ReadCall.Answer (Res β × ReadState)}
    (herr : ∀ e h, g (.err e, h) = .done (.err e, h))
    (hp : ∀ h, g (.panic, h) = .done (.panic, h)) : ∀ {strict : Bool}, t.Frank strict →
    (∀ a n, (g (.ok a, (none, n))).Frank strict) → (t.bind g).Frank strict := by
  induction t with
  | done x =>
    intro strict ht hok
    obtain ⟨x, lo, n⟩ := x
    cases x with
    | ok a =>
      have h := ht.1 a rfl
      simp only at h
      subst h
      exact hok a n
    | err e =>
      simp only [Talk.bind]; rw [herr]
      refine ⟨fun a h => (nomatch h), fun hs h => ht.2 hs ?_⟩
      obtain ⟨d, h1, h2⟩ := h.err (β := α)
      cases h1
      exact h2
    | panic =>
      simp only [Talk.bind]; rw [hp]
      refine ⟨fun a h => (nomatch h), fun hs h => ?_⟩
      obtain ⟨d, h1, h2⟩ := h.err (β := α)
      cases h1
  | call c k ih =>
    intro strict ht hok
    simp only [Talk.bind, Talk.Frank] at ht ⊢
    intro a
    have h := ht a
    split at h
    · exact ih a h fun b n => (hok b n).mono (by cases strict <;> simp)
    · obtain ⟨⟨x, hd⟩, h1, h2⟩ := h
      obtain ⟨d, h3, h4⟩ := h2.err (β := β)
      simp only at h3
      subst h3
      rw [h1]
      simp only [Talk.bind]
      rw [herr]
      exact ⟨_, rfl, h4⟩

/-- Not an error of a stream, and no request for more. -/
def DekuError.own : DekuError → Bool
  | .incomplete _ => false
  | .io _ => false
  | _ => true

theorem not_reported_own {e : DekuError} (h : e.own = true) : ¬ Reported .unexpectedEof (.err e : Res α) := by
  rintro (h1 | ⟨_, n, h1⟩) <;> cases h1 <;> cases h

theorem not_reported_ok {a : α} : ¬ Reported .unexpectedEof (.ok a) := by
  rintro (h1 | ⟨_, n, h1⟩) <;> cases h1

theorem not_reported_panic : ¬ Reported .unexpectedEof (.panic : Res α) := by
  rintro (h1 | ⟨_, n, h1⟩) <;> cases h1

namespace Candid

theorem mk {f : M Reader α} (t : ReadTalk α)
    (h : ∀ (s : Src) (n : Nat), f { inner := s, leftover := none, bitsRead := n } =
      ((((t (none, n)).run Src.impl s).1).1, { inner := ((t (none, n)).run Src.impl s).2, leftover := ((t (none, n)).run Src.impl s).1.2.1, bitsRead := ((t (none, n)).run Src.impl s).1.2.2 }))
    (hf : ∀ n, (t (none, n)).Frank strict) : Candid strict f := by
  refine ⟨t, fun r hr => ?_, hf⟩
  have := h r.inner r.bitsRead
  obtain ⟨i, l, b⟩ := r
  simp only at hr
  subst hr
  exact this

theorem weaken {f : M Reader α} (h : Candid true f) : Candid strict f := by
  obtain ⟨t, h1, h2⟩ := h
  exact ⟨t, h1, fun n => (h2 n).mono fun _ => rfl⟩

theorem pure (a : α) : Candid strict (Pure.pure a : M Reader α) :=
  .mk (fun h => .done (.ok a, h)) (fun _ _ => rfl) fun _ => ⟨fun _ _ => rfl, fun _ => not_reported_ok⟩

theorem throw {e : DekuError} (h : e.own = true) : Candid strict (M.throw e : M Reader α) :=
  .mk (fun h => .done (.err e, h)) (fun _ _ => rfl) fun _ => ⟨fun _ _ => rfl, fun _ => not_reported_own h⟩

theorem throw_any {e : DekuError} : Candid false (M.throw e : M Reader α) :=
  .mk (fun h => .done (.err e, h)) (fun _ _ => rfl) fun _ => ⟨fun _ _ => rfl, fun h => nomatch h⟩

theorem panic : Candid strict (M.panic : M Reader α) :=
  .mk (fun h => .done (.panic, h)) (fun _ _ => rfl) fun _ => ⟨fun _ _ => rfl, fun _ => not_reported_panic⟩

theorem assert (b : Bool) : Candid strict (M.assert b : M Reader Unit) := by
  cases b
  · exact .mk (fun h => .done (.panic, h)) (fun _ _ => rfl) fun _ => ⟨fun _ _ => rfl, fun _ => not_reported_panic⟩
  · exact .mk (fun h => .done (.ok (), h)) (fun _ _ => rfl) fun _ => ⟨fun _ _ => rfl, fun _ => not_reported_ok⟩

theorem modify {g : Reader → Reader}
    (h : ∀ (s s' : Src) (n : Nat), g { inner := s, leftover := none, bitsRead := n } =
      { inner := s, leftover := none, bitsRead := (g { inner := s', leftover := none, bitsRead := n }).bitsRead }) :
    Candid strict (M.modify g) :=
  .mk (fun h => .done (.ok (), (none, (g { inner := { data := [] }, leftover := none, bitsRead := h.2 }).bitsRead)))
    (fun s n => by rw [M.modify_run, h s { data := [] }]; rfl) fun _ => ⟨fun _ _ => rfl, fun _ => not_reported_ok⟩

/-- On success nothing is left over. -/
theorem _root_.Deku.Talk.Frank.left {S : Type} (impl : Impl ReadCall ReadCall.Answer S)
    (t : Talk ReadCall ReadCall.Answer (Res α × ReadState)) : ∀ {strict : Bool}, t.Frank strict → ∀ s a,
    (t.run impl s).1.1 = .ok a → (t.run impl s).1.2.1 = none := by
  induction t with
  | done x => exact fun ht s a h => ht.1 a h
  | call c k ih =>
    intro strict ht s a h
    simp only [Talk.run] at h ⊢
    have h1 := ht (impl s c).1
    split at h1
    · exact ih _ h1 _ a h
    · obtain ⟨x, h1, h2⟩ := h1
      rw [h1] at h
      simp only [Talk.run] at h
      obtain ⟨d, h3, _⟩ := h2.err (β := α)
      rw [h3] at h
      cases h

theorem bind {f : M Reader α} {g : α → M Reader β} (hf : Candid strict f) (hg : ∀ a, Candid strict (g a)) : Candid strict (f >>= g) := by
  obtain ⟨tf, hf, ff⟩ := hf
  obtain ⟨tg, hg⟩ := Classical.axiomOfChoice hg
  refine .mk (fun h => (tf h).bind fun y => match y with
    | (.ok a, h') => tg a h'
    | (.err e, h') => .done (.err e, h')
    | (.panic, h') => .done (.panic, h')) (fun s n => ?_) fun n => ?_
  · have e := hf { inner := s, leftover := none, bitsRead := n } rfl
    have fr := ff n
    simp only [ReadTalk.run] at e
    rw [M.bind_def, e]
    simp only [Talk.run_bind]
    have hk := Talk.Frank.left Src.impl _ fr s
    revert hk
    rcases (tf (none, n)).run Src.impl s with ⟨⟨x, lo, n'⟩, s'⟩
    intro hk
    cases x with
    | ok a =>
      have hl := hk a rfl
      simp only at hl
      subst hl
      exact (hg a).1 _ rfl
    | err e => rfl
    | panic => rfl
  · refine Talk.Frank.bind ?_ ?_ (ff n) ?_
    · exact fun _ _ => rfl
    · exact fun _ => rfl
    · exact fun a n => (hg a).2 n

theorem get {g : Reader → M Reader β} (h : ∀ (s s' : Src) (n : Nat),
      g { inner := s, leftover := none, bitsRead := n } = g { inner := s', leftover := none, bitsRead := n })
    (hg : ∀ n, Candid strict (g { inner := { data := [] }, leftover := none, bitsRead := n })) : Candid strict (M.get >>= g) := by
  obtain ⟨tg, hg⟩ := Classical.axiomOfChoice hg
  refine .mk (fun hd => tg hd.2 hd) (fun s n => ?_) fun n => (hg n).2 n
  rw [M.get_bind_run, h s { data := [] } n]
  exact (hg n).1 _ rfl

/-- A read, the error of which is passed on. -/
theorem ioRead {n : Nat} {g : Except IoKind (List Byte) → M Reader β}
    (he : ∀ e, ∃ d, g (.error e) = M.throw d ∧ (d = .io e ∨ e = .unexpectedEof ∧ ∃ k, d = .incomplete k))
    (hg : ∀ bs, Candid strict (g (.ok bs))) : Candid strict (Reader.ioRead n >>= g) := by
  obtain ⟨tg, hg⟩ := Classical.axiomOfChoice hg
  obtain ⟨d, hd⟩ := Classical.axiomOfChoice he
  refine .mk (fun h => .call (.readExact n) fun x => match x with
    | .ok bs => tg bs h
    | .error e => .done (.err (d e), h)) (fun s k => ?_) fun k => ?_
  · simp only [Talk.run, Src.impl]
    have e : Reader.ioRead n { inner := s, leftover := none, bitsRead := k } =
      (.ok (s.readExact n).1, { inner := (s.readExact n).2, leftover := none, bitsRead := k }) := rfl
    rw [M.bind_ok e]
    rcases s.readExact n with ⟨x, s'⟩
    cases x with
    | ok bs => exact (hg bs).1 _ rfl
    | error e => simp only [(hd e).1]; rfl
  · intro a
    cases a with
    | ok bs => exact ((hg bs).2 k).and _
    | error e =>
      refine ⟨_, rfl, ?_⟩
      rcases (hd e).2 with h | ⟨h, j, hj⟩
      · exact .inl (by rw [h])
      · exact .inr ⟨h, j, by rw [hj]⟩

end Candid

/-- Closes goals of the form `Candid strict f` by following the structure of `f`, with the given lemmas for
the calls in it. -/
macro "candid" "[" ts:term,* "]" : tactic => do
  let ts := ts.getElems
  `(tactic| repeat' with_reducible (first
    $[| apply $ts]* | assumption | exact Candid.pure _ | exact Candid.throw rfl | exact Candid.panic
    | exact Candid.assert _ | exact Candid.modify (by with_unfolding_all exact fun _ _ _ => rfl)
    | refine Candid.get (by with_unfolding_all exact fun _ _ _ => rfl) (fun _ => ?_)
    | refine Candid.ioRead (by with_unfolding_all exact fun e => by cases e <;> first | exact ⟨_, rfl, .inl rfl⟩ | exact ⟨_, rfl, .inr ⟨rfl, _, rfl⟩⟩) (fun _ => ?_)
    | refine Candid.bind ?_ (fun _ => ?_) | split | dsimp only))

namespace Reader

theorem seek_candid {p : SeekFrom} {g : Except IoKind Nat → M Reader β}
    (he : ∀ e, g (.error e) = M.throw (.io e)) (hg : ∀ n, Candid strict (g (.ok n))) : Candid strict (Reader.seek p >>= g) := by
  obtain ⟨tg, hg⟩ := Classical.axiomOfChoice hg
  refine .mk (fun h => .call (.seek p) fun x => match x with
    | .ok n => tg n (none, n * 8)
    | .error e => .done (.err (.io e), (none, h.2))) (fun s k => ?_) fun k => ?_
  · simp only [Talk.run, Src.impl]
    rw [M.bind_def]
    simp only [seek]
    rcases s.seek p with ⟨x, s'⟩
    cases x with
    | ok n => exact (hg n).1 _ rfl
    | error e => simp only [he e]; rfl
  · intro a
    cases a with
    | ok n => exact ((hg n).2 _).and _
    | error e => exact ⟨_, rfl, .inl rfl⟩

theorem readBytes_candid (n : Nat) (o : Order) : Candid strict (readBytes n o) := by
  unfold readBytes; candid []

theorem readBytesConstInto_candid (n : Nat) (o : Order) : Candid strict (readBytesConstInto n o) := by
  unfold readBytesConstInto; candid []

theorem skipBits_candid {n : Nat} (h : n % 8 = 0) (o : Order) : Candid strict (skipBits n o) := by
  unfold skipBits
  have h0 : Candid strict (do let _ ← readBitsInto (n % 8) o; pure () : M Reader Unit) := by
    rw [h]; unfold readBitsInto; simp only [if_true]; candid []
  refine .get (fun _ _ _ => rfl) fun k => ?_
  show Candid strict (if n / 8 ≠ 0 then _ else _)
  split
  · refine .get (fun _ _ _ => rfl) fun k => ?_
    exact .bind (.assert _) fun _ => seek_candid (fun _ => rfl) fun _ => h0
  · exact h0

end Reader

namespace Prim

theorem insertZeros_candid (cap i : Nat) : ∀ k l, Candid strict (insertZeros cap i k l : M Reader _)
  | 0, _ => .pure _
  | k + 1, l => by unfold insertZeros; candid [insertZeros_candid cap i k]

theorem readSliceOrd_candid (W : Nat) (e : Endian) (o : Order) (l : List Bool) : Candid strict (readSliceOrd W e o l) := by
  unfold readSliceOrd; candid [insertZeros_candid]

theorem readSlice_candid (W : Nat) (e : Endian) (l : List Bool) : Candid strict (readSlice W e l) := by
  unfold readSlice; candid [insertZeros_candid]

theorem readUnsigned_candid (nat : Endian) (W : Nat) {ctx : IntCtx} (h : ctx.isBits = false) :
    Candid strict (readUnsigned nat W ctx) := by
  cases ctx <;> simp only [IntCtx.isBits, Bool.true_eq_false] at h <;>
  simp only [readUnsigned, readUBytesOrd, readWhole, readBytesOrd, readU8Bytes] <;>
  candid [Reader.readBytesConstInto_candid, Reader.readBytes_candid, readSlice_candid, readSliceOrd_candid]

theorem readSigned_candid (nat : Endian) (W : Nat) {ctx : IntCtx} (h : ctx.isBits = false) :
    Candid strict (readSigned nat W ctx) := by
  cases ctx <;> simp only [IntCtx.isBits, Bool.true_eq_false] at h <;>
  simp only [readSigned, readSignedWhole, readSignedBytesOrd] <;>
  candid [Reader.readBytesConstInto_candid, Reader.readBytes_candid, readSliceOrd_candid]

end Prim

namespace Coll

variable {σ : Type}

theorem srcPosition_candid : Candid strict (srcCall Src.streamPosition) :=
  .mk (fun h => .call .position fun x => match x with
    | .ok n => .done (.ok n, h)
    | .error e => .done (.err (.io e), h)) (fun s h => by
    simp only [srcCall, Talk.run, Src.impl]
    rcases s.streamPosition with ⟨x, s'⟩
    cases x <;> rfl) fun n a => by
    cases a with
    | ok k => exact ⟨fun _ _ => rfl, fun _ => not_reported_ok⟩
    | error e => exact ⟨_, rfl, .inl rfl⟩

theorem srcSeek_candid (p : SeekFrom) : Candid strict (srcCall fun s => s.seek p) :=
  .mk (fun h => .call (.seek p) fun x => match x with
    | .ok n => .done (.ok n, h)
    | .error e => .done (.err (.io e), h)) (fun s h => by
    simp only [srcCall, Talk.run, Src.impl]
    rcases s.seek p with ⟨x, s'⟩
    cases x <;> rfl) fun n a => by
    cases a with
    | ok k => exact ⟨fun _ _ => rfl, fun _ => not_reported_ok⟩
    | error e => exact ⟨_, rfl, .inl rfl⟩

theorem srcEnd_candid {i : Int} {g : Nat → M Reader β} (hg : ∀ n, Candid false (g n)) :
    Candid strict (srcCall (fun s => s.seek (.end i)) >>= g) := by
  obtain ⟨tg, hg⟩ := Classical.axiomOfChoice hg
  refine .mk (fun h => .call (.seek (.end i)) fun x => match x with
    | .ok n => tg n h
    | .error e => .done (.err (.io e), h)) (fun s k => ?_) fun k a => ?_
  · simp only [Talk.run, Src.impl]
    rw [M.bind_def]
    simp only [srcCall]
    rcases s.seek (.end i) with ⟨x, s'⟩
    cases x with
    | ok n => exact (hg n).1 _ rfl
    | error e => rfl
  · cases a with
    | ok n => exact ((hg n).2 _).mono (by simp [ReadCall.toEnd])
    | error e => exact ⟨_, rfl, .inl rfl⟩

theorem readExact_candid (n : Nat) : Candid strict (readExact n) := by
  unfold readExact usize
  refine .bind srcPosition_candid fun pos => srcEnd_candid fun stop => ?_
  candid [srcSeek_candid, Reader.readBytes_candid, Candid.throw_any]

theorem vecLoop_candid {read : M Reader α} (h : Candid strict read) (pred : Nat → α → σ → Bool × σ)
    (start : Nat) : ∀ mem st, Candid strict (vecLoop read pred start mem st)
  | 0, _ => by unfold vecLoop; candid []
  | mem + 1, st => by unfold vecLoop; candid [vecLoop_candid h pred start mem]

theorem vecRead_candid {read : M Reader α} (h : Candid strict read) (mem size : Nat)
    (l : Limit α σ) (hl : l ≠ .end) : Candid strict (vecRead mem size read l) := by
  cases l <;> simp only [vecRead, vecWithPredicate, usize, withCapacity] <;>
  first
  | exact absurd rfl hl
  | candid [vecLoop_candid h]

theorem arrayRead_candid {read : M Reader α} (h : Candid strict read) : ∀ n, Candid strict (arrayRead read n)
  | 0 => .pure _
  | n + 1 => by have := arrayRead_candid h n; unfold arrayRead; candid []

theorem u8Read_candid (nat : Endian) : Candid strict (u8Read nat) := by
  have := Prim.readUnsigned_candid (strict := strict) nat 1 (ctx := .unit) rfl
  unfold u8Read; candid []

theorem cstringOf_candid (bs : List Byte) : Candid strict (cstringOf bs) := by
  unfold cstringOf; candid []

end Coll

theorem magicRead_candid (nat : Endian) : ∀ l, Candid strict (magicRead nat l)
  | [] => .pure _
  | b :: l => by have := magicRead_candid nat l; unfold magicRead; candid [Coll.u8Read_candid]

theorem padRead_candid (o : Option Order) {pad : Option (Env → Int)} (h : ∀ f, pad = some f → ∀ env, f env % 8 = 0)
    (env : Env) : Candid strict (padRead o pad env) := by
  cases pad with
  | none => exact .pure _
  | some f =>
    have := h f rfl env
    unfold padRead padSize
    by_cases hc : 0 ≤ f env ∧ f env < 2 ^ 64
    · simp only [hc, and_self, if_true]
      exact Reader.skipBits_candid (by omega) _
    · simp only [hc, if_false]
      exact .throw rfl

theorem seekRead_candid (s : Option (Env → Option SeekFrom)) (env : Env) : Candid strict (seekRead s env) := by
  unfold seekRead
  split
  · exact .pure _
  · split
    · exact .panic
    · exact Reader.seek_candid (fun _ => rfl) fun _ => .pure _

/-- Paddings of whole bytes, and a `map` that does not make up errors of the stream. -/
def Attrs.Whole (a : Attrs) : Prop :=
  (∀ f, a.padBefore = some f → ∀ env, f env % 8 = 0) ∧ (∀ f, a.padAfter = some f → ∀ env, f env % 8 = 0) ∧
  ∀ env v e, a.map env v = .error e → e.own = true

mutual

/-- The paddings are of whole bytes, there is no `read_all`, and the types with their own implementation pass on
the errors of the stream. -/
def Ty.Candid : Ty → Prop
  | .prim _ c => ∀ env, Deku.Candid true (c env).read
  | .option t => t.Candid
  | .array _ t => t.Candid
  | .pair a b => a.Candid ∧ b.Candid
  | .vec _ l t => (match l with | .end => False | _ => True) ∧ t.Candid
  | .bytes _ _ => True
  | .struct _ _ _ fs => fs.Candid
  | .enum _ _ id _ vs => (∀ size c, id = .typed size c → ∀ env, Deku.Candid true (c env).read) ∧ vs.Candid

def Fields.Candid : Fields → Prop
  | .nil => True
  | .cons a t rest => a.Whole ∧ t.Candid ∧ rest.Candid
  | .temp a t _ rest => a.Whole ∧ t.Candid ∧ rest.Candid

def Variants.Candid : Variants → Prop
  | .nil => True
  | .cons _ fs rest => fs.Candid ∧ rest.Candid

end

theorem Attrs.read_candid {a : Attrs} (ha : a.Whole) (nat : Endian) {rd : Env → M Reader Val}
    (hrd : ∀ env, Candid strict (rd env)) (env : Env) : Candid strict (a.read nat rd env) := by
  have hb := fun o => padRead_candid (strict := strict) o ha.1
  have hf := fun o => padRead_candid (strict := strict) o ha.2.1
  have hm : ∀ env v, Candid strict (a.applyMap env v) := by
    intro env v
    unfold Attrs.applyMap
    split
    · exact .pure _
    · rename_i e he
      exact .throw (ha.2.2 _ _ _ he)
  unfold Attrs.read Attrs.value Attrs.check
  candid [seekRead_candid, magicRead_candid, hb, hf, hrd, hm]

theorem LimitE.eval_candid (l : LimitE) (hl : match l with | .end => False | _ => True) (env : Env)
    {f : Limit Val (List Val) → M Reader β} (h : ∀ lim, lim ≠ .end → Candid strict (f lim)) : Candid strict (l.eval env >>= f) := by
  cases l with
  | «end» => exact hl.elim
  | «until» p => exact h _ (fun h => nomatch h)
  | count n =>
    simp only [LimitE.eval, M.bind_assoc, toUsize]
    refine .bind (by candid []) fun k => h (.count k) fun h => nomatch h
  | bytes n =>
    simp only [LimitE.eval, M.bind_assoc, toUsize]
    refine .bind (by candid []) fun k => h (.bytes k) fun h => nomatch h
  | bits n =>
    simp only [LimitE.eval, M.bind_assoc, toUsize]
    refine .bind (by candid []) fun k => h (.bits k) fun h => nomatch h

mutual

theorem Ty.read_candid (m : Machine) : ∀ (t : Ty), t.Candid → ∀ env, Candid true (t.read m env)
  | .prim _ c, h, env => by simpa [Ty.read] using (h env)
  | .option t, h, env => by
    have := t.read_candid m h env
    simp only [Ty.read]; candid []
  | .array n t, h, env => by
    have ht := t.read_candid m h env
    simp only [Ty.read]; candid [Coll.arrayRead_candid ht]
  | .pair a b, h, env => by
    have h1 := a.read_candid m h.1 env
    have h2 := b.read_candid m h.2 env
    simp only [Ty.read]; candid []
  | .vec size l t, h, env => by
    have ht := t.read_candid m h.2 env
    simp only [Ty.read]
    exact l.eval_candid h.1 env fun lim hl => .bind (Coll.vecRead_candid ht m.mem size lim hl) fun _ => .pure _
  | .bytes n _, _, env => by
    simp only [Ty.read, toUsize]; candid [Coll.readExact_candid]
  | .struct args sk magic fs, h, env => by
    have hf := fs.read_candid m h
    simp only [Ty.read]
    candid [seekRead_candid, magicRead_candid, hf]
  | .enum args magic id store vs, h, env => by
    obtain ⟨hid, hv⟩ := h
    cases id with
    | ctx e =>
      simp only [Ty.read, dispatch]
      candid [magicRead_candid, vs.readAt_candid m hv]
    | typed size c =>
      have hc := hid size c rfl
      simp only [Ty.read, dispatch]
      candid [magicRead_candid, vs.readAt_candid m hv, hc]

theorem Fields.read_candid (m : Machine) : ∀ (fs : Fields), fs.Candid → ∀ env, Candid true (fs.read m env)
  | .nil, _, _ => by simp only [Fields.read]; exact .pure _
  | .cons a t tl, h, env => by
    obtain ⟨ha, ht, hr⟩ := h
    simp only [Fields.read]
    candid [Attrs.read_candid ha m.native (t.read_candid m ht), tl.read_candid m hr]
  | .temp a t _ tl, h, env => by
    obtain ⟨ha, ht, hr⟩ := h
    simp only [Fields.read]
    candid [Attrs.read_candid ha m.native (t.read_candid m ht), tl.read_candid m hr]

theorem Fields.readStored_candid (m : Machine) : ∀ (fs : Fields), fs.Candid → ∀ env v, Candid true (fs.readStored m env v)
  | .nil, _, _, _ => by simp only [Fields.readStored]; exact .pure _
  | .cons a t tl, h, env, v => by
    have hr := tl.read_candid m h.2.2
    simp only [Fields.readStored]; candid [hr]
  | .temp a t _ tl, h, env, v => by
    have hr := tl.read_candid m h.2.2
    simp only [Fields.readStored]; candid [hr]

theorem Variants.readAt_candid (m : Machine) : ∀ (vs : Variants), vs.Candid → ∀ env v b i, Candid true (vs.readAt m env v b i)
  | .nil, _, _, _, _, _ => by simp only [Variants.readAt]; exact .panic
  | .cons a fs tl, h, env, v, b, 0 => by
    have h1 := fs.readStored_candid m h.1
    have h2 := fs.read_candid m h.1
    simp only [Variants.readAt]; candid [h1, h2]
  | .cons a fs tl, h, env, v, b, i + 1 => by
    simp only [Variants.readAt]; exact tl.readAt_candid m h.2 env v b i

end

/-! ### definitions made of the types of `src/impls` -/

theorem uintCodec_candid (nat : Endian) (W : Nat) {ctx : IntCtx} (h : ctx.isBits = false) :
    Candid strict (uintCodec nat W ctx).read := by
  have := Prim.readUnsigned_candid (strict := strict) nat W h
  unfold uintCodec; candid []

theorem Leaf.read_candid (m : Machine) (l : Leaf) (h : l.inBytes = true) : Candid strict (l.codec m).read := by
  cases l with
  | uint W ctx => exact uintCodec_candid _ W (by simpa [Leaf.inBytes] using h)
  | sint W ctx =>
    have := Prim.readSigned_candid (strict := strict) m.native W (ctx := ctx) (by simpa [Leaf.inBytes] using h)
    simp only [Leaf.codec, sintCodec]; candid []
  | nonzero W ctx =>
    have := Prim.readUnsigned_candid (strict := strict) m.native W (ctx := ctx) (by simpa [Leaf.inBytes] using h)
    simp only [Leaf.codec, nonzeroCodec, Coll.nonzeroRead]; candid []
  | nonzeroSigned W ctx =>
    have := Prim.readSigned_candid (strict := strict) m.native W (ctx := ctx) (by simpa [Leaf.inBytes] using h)
    simp only [Leaf.codec, nonzeroSignedCodec, Coll.nonzeroRead]; candid []
  | bool ctx =>
    have := Prim.readUnsigned_candid (strict := strict) m.native 1 (ctx := ctx) (by simpa [Leaf.inBytes] using h)
    simp only [Leaf.codec, boolCodec, Coll.boolRead]; candid []
  | cstring =>
    simp only [Leaf.codec, cstringCodec, Coll.cstringRead]
    have := fun (p : Byte → Unit → Bool × Unit) => Coll.vecRead_candid (strict := strict) (Coll.u8Read_candid m.native) m.mem 1 (.until p ()) (fun h => nomatch h)
    candid [this, Coll.cstringOf_candid]
  | cstringSized n =>
    simp only [Leaf.codec, cstringSizedCodec, Coll.cstringReadSized]
    have := Coll.vecRead_candid (strict := strict) (σ := Unit) (Coll.u8Read_candid m.native) m.mem 1 (.count n) (fun h => nomatch h)
    candid [Coll.cstringOf_candid]
  | unit => simp only [Leaf.codec, unitCodec]; candid []

theorem DAttrs.toAttrs_whole {a : DAttrs} (h : a.inBytes = true) : a.toAttrs.Whole := by
  simp only [DAttrs.inBytes, Bool.and_eq_true] at h
  refine ⟨fun f hf env => ?_, fun f hf env => ?_, fun _ _ _ h => (nomatch h)⟩
  · cases hp : a.padBefore with
    | none => simp [DAttrs.toAttrs, hp] at hf
    | some n =>
      have h := h.1
      simp [hp] at h
      have hf : some (fun _ : Env => (n : Int)) = some f := by simpa [DAttrs.toAttrs, hp] using hf
      cases hf
      show (n : Int) % 8 = 0
      omega
  · cases hp : a.padAfter with
    | none => simp [DAttrs.toAttrs, hp] at hf
    | some n =>
      have h := h.2
      simp [hp] at h
      have hf : some (fun _ : Env => (n : Int)) = some f := by simpa [DAttrs.toAttrs, hp] using hf
      cases hf
      show (n : Int) % 8 = 0
      omega

mutual

theorem Def.toTy_candid (m : Machine) : ∀ d : Def, d.inBytes = true → (d.toTy m).Candid
  | .leaf _ l, h => fun _ => l.read_candid m h
  | .option t, h => by rw [Def.toTy, Ty.Candid]; exact t.toTy_candid m h
  | .array _ t, h => by rw [Def.toTy, Ty.Candid]; exact t.toTy_candid m h
  | .pair a b, h => by
    simp only [Def.inBytes, Bool.and_eq_true] at h
    rw [Def.toTy, Ty.Candid]; exact ⟨a.toTy_candid m h.1, b.toTy_candid m h.2⟩
  | .vec _ l t, h => by
    simp only [Def.inBytes, Bool.and_eq_true, decide_eq_true_eq] at h
    rw [Def.toTy]
    show (match l.toLimit with | .end => False | _ => True) ∧ (t.toTy m).Candid
    refine ⟨?_, t.toTy_candid m h.2⟩
    have h1 := h.1
    cases l <;> first | exact absurd rfl h1 | exact trivial
  | .bytes _ _, _ => by rw [Def.toTy, Ty.Candid]; trivial
  | .struct _ _ fs, h => by rw [Def.toTy, Ty.Candid]; exact fs.toFields_candid m h
  | .enum _ _ id vs, h => by
    simp only [Def.inBytes, Bool.and_eq_true] at h
    rw [Def.toTy, Ty.Candid]
    refine ⟨?_, vs.toVariants_candid m h.2⟩
    intro size c hc env
    cases id with
    | typed s W ctx store => cases hc; exact uintCodec_candid _ W (by simpa [DId.inBytes] using h.1)
    | arg e => cases hc

theorem DFields.toFields_candid (m : Machine) : ∀ fs : DFields, fs.inBytes = true → (fs.toFields m).Candid
  | .nil, _ => by rw [DFields.toFields, Fields.Candid]; trivial
  | .cons a t tl, h => by
    simp only [DFields.inBytes, Bool.and_eq_true] at h
    rw [DFields.toFields, Fields.Candid]
    exact ⟨a.toAttrs_whole h.1.1, t.toTy_candid m h.1.2, tl.toFields_candid m h.2⟩
  | .temp a t _ tl, h => by
    simp only [DFields.inBytes, Bool.and_eq_true] at h
    rw [DFields.toFields, Fields.Candid]
    exact ⟨a.toAttrs_whole h.1.1, t.toTy_candid m h.1.2, tl.toFields_candid m h.2⟩

theorem DVariants.toVariants_candid (m : Machine) : ∀ vs : DVariants, vs.inBytes = true → (vs.toVariants m).Candid
  | .nil, _ => by rw [DVariants.toVariants, Variants.Candid]; trivial
  | .cons a fs tl, h => by
    simp only [DVariants.inBytes, Bool.and_eq_true] at h
    rw [DVariants.toVariants, Variants.Candid]
    exact ⟨fs.toFields_candid m h.1, tl.toVariants_candid m h.2⟩

end

/-! ### What this means on a stream -/

theorem Talk.Frank.told {S : Type} (impl : Impl ReadCall ReadCall.Answer S) :
    ∀ {strict : Bool} (t : Talk ReadCall ReadCall.Answer (Res α × ReadState)), t.Frank strict → ∀ s : S,
    Told (t.log impl s) (t.run impl s).1.1
  | _, .done x, _, s => .inl fun a h => nomatch h
  | _, .call c k, h, s => by
    have h1 := h (impl s c).1
    simp only [Talk.log, Talk.run]
    split at h1
    · rename_i hc
      rw [hc]
      rcases Talk.Frank.told impl _ h1 (impl s c).2 with h2 | ⟨l, e, h2, h3, h4⟩
      · refine .inl fun a ha => ?_
        rcases List.mem_cons.1 ha with rfl | ha
        · rfl
        · exact h2 a ha
      · refine .inr ⟨none :: l, e, by rw [h2]; rfl, fun a ha => ?_, h4⟩
        rcases List.mem_cons.1 ha with rfl | ha
        · rfl
        · exact h3 a ha
    · rename_i e hc
      obtain ⟨x, h2, h3⟩ := h1
      rw [hc, h2]
      exact .inr ⟨[], e, rfl, fun a h => (nomatch h), h3⟩

/-- Calls that succeed on a stream that keeps the contract are answered as on the bytes. -/
theorem Talk.run_fine {S : Type} {impl : Impl ReadCall ReadCall.Answer S} {data : List Byte} {R : S → Nat → Prop}
    (hr : Honest impl data R) : ∀ (t : Talk ReadCall ReadCall.Answer α) (s : S) (src : Src), src.data = data →
    src.faults = noFaults → R s src.pos → (∀ a ∈ t.log impl s, a = none) →
    (t.run impl s).1 = (t.run Src.impl src).1 ∧ (t.run Src.impl src).2.data = data ∧
      R (t.run impl s).2 (t.run Src.impl src).2.pos
  | .done x, s, src, hd, _, hp, _ => ⟨rfl, hd, hp⟩
  | .call c k, s, src, hd, hf, hp, hl => by
    subst hd
    simp only [Talk.log, List.mem_cons, forall_eq_or_imp] at hl
    obtain ⟨h0, hl⟩ := hl
    simp only [Talk.run]
    have key : ∃ src', Src.impl src c = ((impl s c).1, src') ∧ src'.data = src.data ∧ src'.faults = noFaults ∧
        R (impl s c).2 src'.pos := by
      cases c with
      | readExact n =>
        have h := (hr.readExact s src.pos n hp).1
        rcases hi : impl s (.readExact n) with ⟨x, s'⟩
        rw [hi] at h0 h
        cases x with
        | error e => cases h0
        | ok bs =>
          obtain ⟨h1, rfl, h3⟩ := h bs s' rfl
          exact ⟨{ src with calls := src.calls + 1, pos := src.pos + n }, by simp [Src.impl, Src.readExact, hf, noFaults, h1], rfl, hf, h3⟩
      | seek p =>
        have h := (hr.seek s src.pos p hp).1
        rcases hi : impl s (.seek p) with ⟨x, s'⟩
        rw [hi] at h0 h
        cases x with
        | error e => cases h0
        | ok n =>
          obtain ⟨h1, h3⟩ := h n s' rfl
          exact ⟨{ src with calls := src.calls + 1, pos := n }, by simp [Src.impl, Src.seek, hf, noFaults, h1], rfl, hf, h3⟩
      | position =>
        have h := (hr.position s src.pos hp).1
        rcases hi : impl s .position with ⟨x, s'⟩
        rw [hi] at h0 h
        cases x with
        | error e => cases h0
        | ok n =>
          obtain ⟨rfl, h3⟩ := h n s' rfl
          exact ⟨{ src with calls := src.calls + 1 }, by simp [Src.impl, Src.streamPosition, hf, noFaults], rfl, hf, h3⟩
    obtain ⟨src', h1, h2, h3, h4⟩ := key
    rw [h1]
    exact Talk.run_fine hr _ _ src' h2 h3 h4 hl

theorem Candid.talk {strict : Bool} {f : M Reader α} (h : Candid strict f) (ha : Asks f) :
    ∃ t : ReadTalk α, t.Is f ∧ ∀ n, (t (none, n)).Frank strict := by
  obtain ⟨t, h1, h2⟩ := h
  obtain ⟨u, h3⟩ := ha
  refine ⟨fun h => match h with | (none, n) => t (none, n) | h => u h, fun r => ?_, h2⟩
  obtain ⟨i, l, b⟩ := r
  cases l with
  | none => exact h1 _ rfl
  | some l => exact h3 _

end Deku
