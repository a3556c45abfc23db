import Verif.Lemmas.Endless
import Verif.Lemmas.Layer
import Verif.Lemmas.Examples

/-!
# Errors of the stream are the result: C104

A definition in whole bytes, on a stream of any type. Nothing is assumed about the stream in the first
theorem: it may answer what it likes.
-/

namespace Deku

theorem Def.frank (m : Machine) (d : Def) (hd : d.inBytes = true) (env : Env) :
    ∃ t : ReadTalk Val, t.Is (readFrom ((d.toTy m).read m env) 0) ∧ ∀ n, (t (none, n)).Frank true := by
  have hc : Candid true (readFrom ((d.toTy m).read m env) 0) := by
    simp only [readFrom, ne_eq, not_true_eq_false, if_false]
    exact Ty.read_candid m _ (d.toTy_candid m hd) env
  exact hc.talk (readFrom_asks (Ty.read_asks m _ (d.toTy_asks m) env) 0)

theorem ReadTalk.fromReader_reported {S : Type} {t : ReadTalk Val} {impl : Impl ReadCall ReadCall.Answer S} {s : S}
    {e : IoKind} (h : Reported e ((t (none, 0)).run impl s).1.1) : Reported e (t.fromReader impl s) := by
  obtain ⟨x, h6, h7⟩ := h.err (β := Nat × Val)
  simp only [ReadTalk.fromReader, ReadTalk.run]
  rcases hr : (t (none, 0)).run impl s with ⟨⟨y, hh⟩, s'⟩
  rw [hr] at h6
  simp only at h6
  subst h6
  exact h7

theorem ReadTalk.fromReader_told {S : Type} {t : ReadTalk Val} {impl : Impl ReadCall ReadCall.Answer S} {s : S}
    (h : Told ((t (none, 0)).log impl s) ((t (none, 0)).run impl s).1.1) :
    Told ((t (none, 0)).log impl s) (t.fromReader impl s) := by
  rcases h with h | ⟨l, e, h3, h4, h5⟩
  · exact .inl h
  · exact .inr ⟨l, e, h3, h4, fromReader_reported h5⟩

theorem ReadTalk.Is.src {f : M Reader Val} {t : ReadTalk Val} (h : t.Is (readFrom f 0)) (src : Src) :
    Deku.fromReader f src 0 = t.fromReader Src.impl src := by
  unfold Deku.fromReader ReadTalk.fromReader
  rw [h]
  simp only [Reader.new]
  rcases t.run Src.impl (none, 0) src with ⟨x, hh, s'⟩
  cases x <;> rfl

theorem ReadTalk.fromReader_congr {S T : Type} {t : ReadTalk Val} {impl : Impl ReadCall ReadCall.Answer S}
    {jmpl : Impl ReadCall ReadCall.Answer T} {s : S} {s' : T}
    (h : ((t (none, 0)).run impl s).1 = ((t (none, 0)).run jmpl s').1) :
    t.fromReader impl s = t.fromReader jmpl s' := by
  simp only [ReadTalk.fromReader, ReadTalk.run]
  revert h
  rcases (t (none, 0)).run impl s with ⟨⟨x, hh⟩, _⟩
  rcases (t (none, 0)).run jmpl s' with ⟨⟨y, hh'⟩, _⟩
  intro h
  simp only [Prod.mk.injEq] at h
  obtain ⟨rfl, rfl⟩ := h
  cases x <;> rfl

/-- **C104.** `from_reader` of a definition in whole bytes gives up at the first call on the stream that
fails and returns its error; the end of the stream is reported as `Incomplete`. If it returns anything else,
no call has failed. This holds on streams of any type, whatever they answer. On a stream that keeps the
contract of `Read` and `Seek` with the bytes `data`, what it returns if no call has failed is what it returns
on these bytes. -/
theorem C104_errors_of_the_stream_are_the_result (m : Machine) (d : Def) (hd : d.inBytes = true) (env : Env) :
    ∃ t : ReadTalk Val, t.Is (readFrom ((d.toTy m).read m env) 0) ∧
      ∀ (S : Type) (impl : Impl ReadCall ReadCall.Answer S) (s : S),
        Told ((t (none, 0)).log impl s) (t.fromReader impl s) ∧
        ∀ (data : List Byte) («at» : S → Nat → Prop), Honest impl data «at» → «at» s 0 →
          t.fromReader impl s = fromReader ((d.toTy m).read m env) { data := data } 0 ∨
          ∃ e, some e ∈ (t (none, 0)).log impl s ∧ Reported e (t.fromReader impl s) := by
  obtain ⟨t, h1, h2⟩ := d.frank m hd env
  refine ⟨t, h1, fun S impl s => ?_⟩
  have h := ReadTalk.fromReader_told (Talk.Frank.told impl _ (h2 0) s)
  refine ⟨h, fun data R hr hs => ?_⟩
  rcases h with h | ⟨l, e, h3, h4, h5⟩
  · refine .inl ?_
    rw [h1.src]
    exact ReadTalk.fromReader_congr (Talk.run_fine hr _ s { data := data } rfl rfl hs h).1
  · exact .inr ⟨e, by rw [h3]; simp, h5⟩

/-- **C104.** Between layers: the kind of an error of the stream survives the way up and down again, and so
does its being the end of the stream: an error becomes that of the end if and only if it is `Incomplete` or
that of the end. What is not an error of the stream comes back as one. -/
theorem C104_kinds_survive (e : DekuError) (k : IoKind) :
    (DekuError.ofIo k).toIo = k ∧ (e.toIo = .unexpectedEof ↔ (∃ n, e = .incomplete n) ∨ e = .io .unexpectedEof) ∧
    (DekuError.ofIo e.toIo = e ↔ ∃ k, e = .io k) := by
  refine ⟨rfl, ?_, ?_⟩
  · cases e <;> simp [DekuError.toIo, IoKind.invalidData, IoKind.notFound]
  · cases e <;> simp [DekuError.toIo, DekuError.ofIo]

/-- **C104.** A stream that unwraps frames, which it reads with deku and `?`, from an input that ends after
some frame, or within one, is a stream of their payloads: every program has the result it has on these. -/
theorem C104_frames_are_a_stream {α : Type} (f : M Reader α) (t : ReadTalk α) (ht : t.Is f) (frame : M Reader Val)
    (payload : Val → List Byte) (input data : List Byte) (e : DekuError) (hf : Framed frame payload input data e)
    (he : (∃ n, e = .incomplete n) ∨ e = .io .unexpectedEof) :
    (t.run (Unwrap.impl frame payload) (none, 0) { input := input }).1 =
      (f (Reader.new { data := data, faults := unseekable })).1 := by
  have h := Unwrap.run_eq (((C104_kinds_survive e .unexpectedEof).2.1).2 he) (t (none, 0)) { input := input }
    { data := data, faults := unseekable } rfl rfl ⟨rfl, by simp, data, hf, rfl⟩
  rw [ht]
  simp only [Reader.new, ReadTalk.run]
  exact congrArg (·.1) h

/-- **C104.** What is not a frame below is reported by the definition above, if it is one in whole bytes, with
the kind of the error, if and only if the message is not complete in the payloads of the frames before: otherwise
it is read, or refused, as if there was nothing else. -/
theorem C104_a_bad_frame_is_reported (m : Machine) (d : Def) (hd : d.inBytes = true) (env : Env) :
    ∃ t : ReadTalk Val, t.Is (readFrom ((d.toTy m).read m env) 0) ∧
      ∀ (frame : M Reader Val) (payload : Val → List Byte) (input data : List Byte) (e : DekuError) (x y : Res (Nat × Val)),
        Framed frame payload input data e →
        t.fromReader (Unwrap.impl frame payload) { input := input } = x →
        fromReader ((d.toTy m).read m env) { data := data, faults := unseekable } 0 = y →
        (Reported .unexpectedEof y → Reported e.toIo x) ∧ (¬ Reported .unexpectedEof y → x = y) := by
  obtain ⟨t, h1, h2⟩ := d.frank m hd env
  refine ⟨t, h1, fun frame payload input data e x y hf hx hy => ?_⟩
  subst hx hy
  rw [h1.src]
  rcases Unwrap.run_frank _ (h2 0) { input := input } { data := data, faults := unseekable } rfl rfl
    ⟨rfl, by simp, data, hf, rfl⟩ with ⟨h3, h4⟩ | ⟨h3, h4⟩
  · have h5 : ¬ Reported .unexpectedEof (t.fromReader Src.impl { data := data, faults := unseekable }) := by
      intro h
      apply h4
      simp only [ReadTalk.fromReader, ReadTalk.run] at h
      revert h
      rcases (t (none, 0)).run Src.impl { data := data, faults := unseekable } with ⟨⟨z, hh⟩, _⟩
      intro h
      cases z with
      | ok a => rcases h with h | ⟨_, _, h⟩ <;> cases h
      | panic => rcases h with h | ⟨_, _, h⟩ <;> cases h
      | err z =>
        obtain ⟨q, g1, g2⟩ := h.err (β := Val)
        cases g1
        exact g2
    exact ⟨fun h => absurd h h5, fun _ => ReadTalk.fromReader_congr h3⟩
  · have h5 := ReadTalk.fromReader_reported h4
    exact ⟨fun _ => ReadTalk.fromReader_reported h3, fun h => absurd h5 h⟩

/-! ### A message in two frames -/

namespace CandidExample

def mach : Machine := { native := .little, mem := 2 ^ 40 }

/-- `#[deku(magic = b"\x7e")] struct { len: u8, #[deku(count = "len")] payload: Vec<u8> }`. -/
def frame : Def := .struct [] [0x7e] (.cons {} (.leaf (some 8) (.uint 1 .unit))
  (.cons {} (.vec false (.count (.field 0)) (.leaf (some 8) (.uint 1 .unit))) .nil))

def payload (v : Val) : List Byte := (v.elems[1]?.getD Val.nil).elems.map Val.toByte

/-- `struct { #[deku(endian = "big")] size: u16, #[deku(until = "|x| *x == 0")] text: Vec<u8>, b: bool }`. -/
def message : Def := .struct [] [] (.cons {} (.leaf (some 16) (.uint 2 (.endian .big)))
  (.cons {} (.vec false (.until 0) (.leaf (some 8) (.uint 1 .unit))) (.cons {} (.leaf (some 8) (.bool .unit)) .nil)))

def frames : M Reader Val := (frame.toTy mach).read mach {}

/-- Two frames, then the end. -/
def good : List Byte := [0x7e, 3, 1, 2, 5, 0x7e, 3, 6, 0, 1]

/-- A frame, then something else. -/
def bad : List Byte := [0x7e, 3, 1, 2, 5, 0x7f, 3, 6, 0, 1]

example : message.inBytes = true := by decide

theorem good_framed : ∃ n, Framed frames payload good [1, 2, 5, 6, 0, 1] (.incomplete n) := by
  have h1 : fromBytes frames good 0 = .ok (([0x7e, 3, 6, 0, 1], 0), .ofList [.num 3, .ofList [.num 1, .num 2, .num 5]]) := by decide +kernel
  have h2 : fromBytes frames [0x7e, 3, 6, 0, 1] 0 = .ok (([], 0), .ofList [.num 3, .ofList [.num 6, .num 0, .num 1]]) := by decide +kernel
  have h3 : fromBytes frames [] 0 = .err (.incomplete 8) := by decide +kernel
  exact ⟨8, .next (data := [6, 0, 1]) h1 (by decide) (.next (data := []) h2 (by decide) (.stop h3))⟩

theorem bad_framed : Framed frames payload bad [1, 2, 5] .parse := by
  have h1 : fromBytes frames bad 0 = .ok (([0x7f, 3, 6, 0, 1], 0), .ofList [.num 3, .ofList [.num 1, .num 2, .num 5]]) := by decide +kernel
  have h2 : fromBytes frames [0x7f, 3, 6, 0, 1] 0 = .err .parse := by decide +kernel
  exact .next (data := []) h1 (by decide) (.stop h2)

/-- The message is read across the frames, and the error of the bad one comes out. -/
example : ∃ t : ReadTalk Val, t.Is (readFrom ((message.toTy mach).read mach {}) 0) ∧
    t.fromReader (Unwrap.impl frames payload) { input := good } =
      .ok (48, .ofList [.num 0x0102, .ofList [.num 5, .num 6, .num 0], .num 1]) ∧
    t.fromReader (Unwrap.impl frames payload) { input := bad } = .err (.io .invalidData) := by
  obtain ⟨t, h1, h2⟩ := C104_a_bad_frame_is_reported mach message (by decide) {}
  refine ⟨t, h1, ?_, ?_⟩
  · obtain ⟨n, hn⟩ := good_framed
    have e : fromReader ((message.toTy mach).read mach {}) { data := [1, 2, 5, 6, 0, 1], faults := unseekable } 0 =
        .ok (48, .ofList [.num 0x0102, .ofList [.num 5, .num 6, .num 0], .num 1]) := by decide +kernel
    refine ((h2 _ _ _ _ _ _ _ hn rfl e).2 ?_)
    rintro (h | ⟨_, _, h⟩) <;> cases h
  · have e : fromReader ((message.toTy mach).read mach {}) { data := [1, 2, 5], faults := unseekable } 0 =
        .err (.incomplete 8) := by decide +kernel
    rcases (h2 _ _ _ _ _ _ _ bad_framed rfl e).1 (.inr ⟨rfl, _, rfl⟩) with h | ⟨h, _⟩
    · exact h
    · cases h

/-- The errors of a failing disk. -/
def flaky : Src := { data := [1, 2, 5, 6, 0, 1], faults := { fails := fun i => if i = 3 then some (0, .other 5) else none } }

example : fromReader ((message.toTy mach).read mach {}) flaky 0 = .err (.io (.other 5)) := by decide +kernel

/-- `struct { #[deku(bits = 4)] a: u8, b: u16, #[deku(bits = 4)] c: u8 }`: whole bytes in all, but not each field. -/
def shifted : Def := .struct [] [] (.cons {} (.leaf (some 4) (.uint 1 (.bits 4)))
  (.cons {} (.leaf (some 16) (.uint 2 .unit)) (.cons {} (.leaf (some 4) (.uint 1 (.bits 4))) .nil)))

/-- `struct { #[deku(read_all)] a: Vec<u8> }`. -/
def allOf : Def := .struct [] [] (.cons {} (.vec false .all (.leaf (some 8) (.uint 1 .unit))) .nil)

/-- A stream whose call number `n` fails once. -/
def failsAt (n : Nat) (data : List Byte) : Src :=
  { data := data, faults := { fails := fun i => if i = n then some (0, .other 5) else none } }

end CandidExample

open CandidExample in
/-- **Outside of C104**: a definition with a field that starts in the middle of a byte reads on after a failed
call, with a zero for the byte that did not come. -/
theorem C104_fields_between_bytes_make_up_data :
    shifted.inBytes = false ∧
    fromReader ((shifted.toTy mach).read mach {}) (failsAt 9 [0xff, 0xff, 0xff]) 0 =
      .ok (24, .ofList [.num 15, .num 0xffff, .num 15]) ∧
    fromReader ((shifted.toTy mach).read mach {}) (failsAt 1 [0xff, 0xff, 0xff]) 0 =
      .ok (24, .ofList [.num 15, .num 0x0ff0, .num 15]) := by
  decide +kernel

open CandidExample in
/-- and so does `read_all`, whose look for the end takes the error of the stream for a byte. -/
theorem C104_read_all_makes_up_data :
    allOf.inBytes = false ∧
    fromReader ((allOf.toTy mach).read mach {}) (failsAt 9 [7, 8]) 0 = .ok (16, .ofList [.ofList [.num 7, .num 8]]) ∧
    fromReader ((allOf.toTy mach).read mach {}) (failsAt 0 [7, 8]) 0 =
      .ok (24, .ofList [.ofList [.num 0, .num 7, .num 8]]) := by
  decide +kernel

open CandidExample in
/-- **Outside of C104**: on a stream that hands out `data` and then fails for good with anything but the end,
such as a connection that was reset, a `read_all` of single bytes never ends: it takes every failed look for the
end for one more byte, until the memory is exhausted, however much there is. -/
theorem C104_read_all_never_ends (m : Machine) (env : Env) (data : List Byte) (e : IoKind) (he : e ≠ .unexpectedEof) :
    fromReader ((allOf.toTy m).read m env) (breaksDown data e) 0 = .panic := by
  have h1 := Coll.vecEndLoop_stuck (data := data) he (read := (uintCodec m.native 1 .unit).read) (by
    intro r b hb
    refine ⟨.num (endianNat m.native [b]), r.bitsRead + 8, ?_⟩
    simp [uintCodec, Prim.readUnsigned, Prim.readWhole, Reader.readBytesConstInto, Reader.readBytesLeftover, bind, M.bind, M.get, M.modify, pure, M.pure, hb]) m.mem { inner := breaksDown data e } ⟨rfl, rfl, rfl, fun _ => rfl⟩
  rcases hx : Coll.vecEndLoop (uintCodec m.native 1 .unit).read m.mem { inner := breaksDown data e } with ⟨x, r⟩
  rw [hx] at h1
  simp only at h1
  subst h1
  simp [fromReader, readFrom, allOf, Def.toTy, DFields.toFields, Ty.read, Fields.read, seekRead, magicRead, Attrs.read, DAttrs.toAttrs, padRead, Attrs.value, Lim.toLimit, Attrs.isRead, LimitE.eval, Coll.vecRead, Coll.vecToEnd, Leaf.codec, Reader.new, hx, bind, M.bind, M.get, pure, M.pure]

/-- The same stream, ending instead of failing, is read to its end. -/
example : fromReader ((CandidExample.allOf.toTy CandidExample.mach).read CandidExample.mach {}) (breaksDown [7, 8] .unexpectedEof) 0 =
    .ok (16, .ofList [.ofList [.num 7, .num 8]]) := by decide +kernel

example : IoKind.other 5 ≠ .unexpectedEof := by decide

end Deku
