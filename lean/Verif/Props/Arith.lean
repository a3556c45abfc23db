import Verif.Lemmas.ArithBoth
import Verif.Props.CoreRead

/-!
# Property C92: arithmetic in attributes
-/

namespace Deku

/-- **C92.** If no expression can leave its type (`exact`), the reader with fixed size arithmetic does what the reader
with unbounded numbers does: on any source, in any state of the reader, with and without overflow checks. -/
theorem C92_reading_is_exact (m : Machine) (ar : Arith) (d : Def) (sp : Spans) (env : Env)
    (hd : d.valid m.native = true) (he : d.exact ar (some m.native) sp = true) (henv : sp.holds env) :
    d.readIn m ar env = (d.toTy m).read m env := Def.readIn_eq m ar d sp env hd he henv

/-- **C92.** The same for writing a value of the type. -/
theorem C92_writing_is_exact (m : Machine) (ar : Arith) (d : Def) (sp : Spans) (env : Env) (v : Val)
    (hd : d.valid m.native = true) (he : d.exact ar none sp = true) (henv : sp.holds env) (hv : d.has v = true) :
    d.writeIn m ar env v = (d.toTy m).write m env v := Def.writeIn_eq m ar d sp env v hd he henv hv

theorem holds_none : Spans.holds {} {} := by
  constructor <;> intro i a b h <;> simp at h

theorem exact_release (ar : Arith) (b : Bool) : ∀ (d : Def) (rd : Option Endian) (sp : Spans),
    d.exact { ar with release := b } rd sp = d.exact ar rd sp := by
  intro d rd sp
  have hs : ∀ (sp : Spans) (e : Expr), Arith.span { ar with release := b } sp e = ar.span sp e := by
    intro sp e; cases e <;> rfl
  have ho : ∀ (sp : Spans) (e : Expr), Arith.ok { ar with release := b } sp e = ar.ok sp e := by
    intro sp e; cases e <;> rfl
  have hc : ∀ (sp : Spans) (c : Cond), Arith.okCond { ar with release := b } sp c = ar.okCond sp c := by
    intro sp c
    induction c with
    | eq x y => simp only [Arith.okCond, ho]
    | lt x y => simp only [Arith.okCond, ho]
    | not c ih => simp only [Arith.okCond, ih]
    | and c d h1 h2 => simp only [Arith.okCond, h1, h2]
    | or c d h1 h2 => simp only [Arith.okCond, h1, h2]
  have hl : ∀ (sp : Spans) (l : Lim), Arith.okLim { ar with release := b } sp l = ar.okLim sp l := by
    intro sp l; cases l <;> simp only [Arith.okLim, ho]
  have hi : ∀ (sp : Spans) (es : List Expr), Arith.inside { ar with release := b } sp es = ar.inside sp es := by
    intro sp es; simp only [Arith.inside, show Arith.span { ar with release := b } sp = ar.span sp from funext (hs sp)]
  have hok : ∀ sp : Spans, Arith.ok { ar with release := b } sp = ar.ok sp := fun sp => funext (ho sp)
  have ha : ∀ (a : DAttrs) (sp : Spans), a.exact { ar with release := b } rd sp = a.exact ar rd sp := by
    intro a sp
    simp only [DAttrs.exact]
    cases a.cond <;> cases a.assertEq <;> simp only [hc, ho]
  have has : ∀ (a : DAttrs) (sp : Spans) (t : Span), a.span { ar with release := b } rd sp t = a.span ar rd sp t := by
    intro a sp t
    simp only [DAttrs.span]
    cases a.assertEq <;> simp only [hs]
  revert sp
  refine Def.rec (motive_1 := fun d => ∀ sp, d.exact { ar with release := b } rd sp = d.exact ar rd sp)
    (motive_2 := fun fs => (∀ sp, fs.exact { ar with release := b } rd sp = fs.exact ar rd sp) ∧
      ∀ s sp, fs.exactStored { ar with release := b } rd s sp = fs.exactStored ar rd s sp)
    (motive_3 := fun vs => ∀ id sp, vs.exact { ar with release := b } rd id sp = vs.exact ar rd id sp)
    ?_ ?_ ?_ ?_ ?_ ?_ ?_ ?_ ?_ ?_ ?_ ?_ ?_ d
  · intro size l sp; simp only [Def.exact]
  · intro t ih sp; simp only [Def.exact, ih]
  · intro n t ih sp; simp only [Def.exact, ih]
  · intro x y h1 h2 sp; simp only [Def.exact, h1, h2]
  · intro z l t ih sp; simp only [Def.exact, ih, hl]
  · intro n c sp; simp only [Def.exact, ho]
  · intro args magic fs ih sp; simp only [Def.exact, ih.1, hok, hi]
  · intro args magic id vs ih sp
    simp only [Def.exact, ih, hok, hi]
  · exact ⟨fun sp => by simp only [DFields.exact], fun s sp => by simp only [DFields.exactStored]⟩
  · intro a t fs h1 h2
    exact ⟨fun sp => by simp only [DFields.exact, ha, has, h1, h2.1], fun s sp => by simp only [DFields.exactStored, h2.1]⟩
  · intro a t value fs h1 h2
    exact ⟨fun sp => by simp only [DFields.exact, ha, has, h1, h2.1], fun s sp => by simp only [DFields.exactStored, h2.1]⟩
  · intro id sp; simp only [DVariants.exact]
  · intro a fs vs h1 h2 id sp
    simp only [DVariants.exact, h1.1, h1.2, h2]

/-- **C92.** So a build without overflow checks and one with them read the same from every source, and write the same
for every value of the type. -/
theorem C92_debug_and_release_agree (m : Machine) (ar : Arith) (d : Def) (sp : Spans) (env : Env)
    (hd : d.valid m.native = true) (henv : sp.holds env) :
    (d.exact ar (some m.native) sp = true →
      d.readIn m { ar with release := true } env = d.readIn m { ar with release := false } env) ∧
    (d.exact ar none sp = true → ∀ v, d.has v = true →
      d.writeIn m { ar with release := true } env v = d.writeIn m { ar with release := false } env v) := by
  constructor
  · intro he
    rw [C92_reading_is_exact m _ d sp env hd (by rw [exact_release]; exact he) henv,
      C92_reading_is_exact m _ d sp env hd (by rw [exact_release]; exact he) henv]
  · intro he v hv
    rw [C92_writing_is_exact m _ d sp env v hd (by rw [exact_release]; exact he) henv hv,
      C92_writing_is_exact m _ d sp env v hd (by rw [exact_release]; exact he) henv hv]

/-- **C92.** A definition that is safe (C64) and whose expressions are exact is parsed without a panic, also one in an
expression; and what was parsed is written without one. -/
theorem C92_parse_and_serialise_without_panics (m : Machine) (ar : Arith) (d : Def) (t : Stage)
    (hd : d.valid m.native = true) (ht : d.typed = true) (hs : d.safe m {} .fresh = some t)
    (he : d.exact ar (some m.native) {} = true) (he' : d.exact ar none {} = true) (data : List Byte)
    (hmem : 8 * data.length + 1 ≤ m.mem) :
    (∃ e, fromBytes (d.readIn m ar {}) data 0 = .err e) ∨
    ∃ rest v, fromBytes (d.readIn m ar {}) data 0 = .ok (rest, v) ∧ d.has v = true ∧
      toBytes (d.writeIn m ar {} v) ≠ .panic := by
  rw [C92_reading_is_exact m ar d {} {} hd he holds_none]
  rcases C64_parse_and_serialise_without_panics m d t hd ht hs data hmem with h | ⟨rest, v, h1, h2, h3⟩
  · exact .inl h
  · refine .inr ⟨rest, v, h1, h2, ?_⟩
    rw [C92_writing_is_exact m ar d {} {} v hd he' holds_none h2]
    exact h3

/-! ### Examples -/

namespace ArithExample

/-- ```
struct Sized { #[deku(bits = b)] len: u8, #[deku(count = "e")] items: Vec<u8> }
``` -/
def sized (b : Nat) (e : Expr) : Def :=
  .struct [] [] (.cons {} (.leaf (some b) (.uint 1 (.bits b)))
    (.cons {} (.vec false (.count e) (.leaf (some 8) (.uint 1 .unit))) .nil))

/-- `len * 4`. -/
def times4 : Expr := .op .mul (.field 0) (.lit 4)

/-- Everything is computed in a `u8`. -/
def inU8 : Arith := { bits := fun _ => 8 }

/-- Everything is computed in a `usize`. -/
def inUsize : Arith := { bits := fun _ => 64 }

/-- Four bits times four fit in a `u8`, eight bits times four do not; in a `usize` they do. -/
example : (sized 4 times4).exact inU8 (some .little) {} = true ∧ (sized 8 times4).exact inU8 (some .little) {} = false ∧
    (sized 8 times4).exact inUsize (some .little) {} = true ∧ (sized 8 times4).exact inU8 none {} = true := by
  decide +kernel

/-- The header with four bits is read with `u8` arithmetic as with unbounded numbers. -/
example (r : Reader) (release : Bool) :
    (sized 4 times4).readIn CoreExample.large { inU8 with release := release } {} r =
      ((sized 4 times4).toTy CoreExample.large).read CoreExample.large {} r := by
  rw [C92_reading_is_exact _ _ _ {} {} (by decide +kernel) (by cases release <;> decide +kernel) holds_none]

/-- A trailer which is there if `len - 4 > limit`, with an assertion on the length before; `-` panics below 0. -/
def trailer : Def :=
  .struct [] [] (.cons {} (.leaf (some 8) (.nonzero 1 .unit))
    (.cons { assertEq := some (.op .add (.op .sub (.field 0) (.lit 1)) (.lit 1)) } (.leaf (some 8) (.uint 1 .unit))
      (.cons { cond := some (.lt (.lit 3) (.op .sub (.field 0) (.lit 1))), skip := some .write } (.leaf (some 8) (.uint 1 .unit)) .nil)))

/-- `a: NonZeroU8`, `assert_eq = "a.get() - 1 + 1"` and, on what the assertion has bounded, `cond = "3 < b - 1"`. -/
example : trailer.exact { inU8 with minus := true } (some .little) {} = true ∧
    trailer.exact { inU8 with minus := true } none {} = true ∧ trailer.valid .little = true ∧
    trailer.has (.ofList [.num 7, .num 7, .num 9]) = true := by decide +kernel

/-- On writing it is enough that the value is one of the type. -/
example (v : Val) (h : trailer.has v = true) :
    trailer.writeIn CoreExample.large { inU8 with minus := true } {} v =
      (trailer.toTy CoreExample.large).write CoreExample.large {} v :=
  C92_writing_is_exact _ _ _ {} {} v (by decide +kernel) (by decide +kernel) holds_none h

example (data : List Byte) (h : data.length ≤ 2 ^ 30) :
    (∃ e, fromBytes ((sized 4 times4).readIn CoreExample.large inU8 {}) data 0 = .err e) ∨
    ∃ rest v, fromBytes ((sized 4 times4).readIn CoreExample.large inU8 {}) data 0 = .ok (rest, v) ∧
      (sized 4 times4).has v = true ∧ toBytes ((sized 4 times4).writeIn CoreExample.large inU8 {} v) ≠ .panic :=
  C92_parse_and_serialise_without_panics CoreExample.large inU8 _ .fresh (by decide +kernel) (by decide +kernel)
    (by decide +kernel) (by decide +kernel) (by decide +kernel) data
    (by have : CoreExample.large.mem = 2 ^ 40 := rfl
        omega)

end ArithExample

open ArithExample

/-- Without the check: `count = "len * 4"` with `len: u8`. With overflow checks the input decides whether the parser
panics; without them 64 elements are asked for and none is read, and the parser does not say so. -/
theorem C92_a_product_overflows :
    fromBytes ((sized 8 times4).readIn CoreExample.large inU8 {}) [64, 1, 2] 0 = .panic ∧
    fromBytes ((sized 8 times4).readIn CoreExample.large { inU8 with release := true } {}) [64, 1, 2] 0 =
      .ok (([1, 2], 0), .ofList [.num 64, .ofList []]) ∧
    (∃ e, fromBytes ((sized 8 times4).readIn CoreExample.large inUsize {}) [64, 1, 2] 0 = .err e) := by
  refine ⟨by decide +kernel, by decide +kernel, .incomplete 8, by decide +kernel⟩

/-- `count = "len - 4"`, as lengths that include the header are often handled: an input with a length below 4 panics, or
asks for 255 elements. -/
theorem C92_a_difference_underflows :
    let d := sized 8 (.op .sub (.field 0) (.lit 4))
    d.exact { inU8 with minus := true } (some .little) {} = false ∧ d.exact inU8 (some .little) {} = true ∧
    fromBytes (d.readIn CoreExample.large { inU8 with minus := true } {}) [3, 1, 2] 0 = .panic ∧
    fromBytes (d.readIn CoreExample.large { inU8 with minus := true, release := true } {}) (3 :: List.replicate 255 7) 0 =
      .ok (([], 0), .ofList [.num 3, .ofList (List.replicate 255 (.num 7))]) ∧
    fromBytes (d.readIn CoreExample.large inU8 {}) [3, 1, 2] 0 = .ok (([1, 2], 0), .ofList [.num 3, .ofList []]) := by
  decide +kernel

/-- On writing the value decides: with overflow checks a panic, without them an assertion that does not hold is
accepted. -/
theorem C92_writing_can_overflow :
    let d : Def := .struct [] [] (.cons {} (.leaf (some 8) (.uint 1 .unit))
      (.cons { assertEq := some times4 } (.leaf (some 8) (.uint 1 .unit)) .nil))
    let v : Val := .ofList [.num 65, .num 4]
    d.exact inU8 none {} = false ∧ d.has v = true ∧
    toBytes (d.writeIn CoreExample.large inU8 {} v) = .panic ∧
    toBytes (d.writeIn CoreExample.large { inU8 with release := true } {} v) = .ok [65, 4] ∧
    toBytes (d.writeIn CoreExample.large inUsize {} v) = .err .assertion := by
  decide +kernel

theorem readField_plain (ar : Arith) (native : Endian) (rd : Env → M Reader Val) (env : Env) :
    ar.readField {} native rd env = rd (env.at 0) := Arith.bind_pure_right (rd (env.at 0))

/-- The reader of the struct, when the first byte is 0 or 255 and the count panics for it. -/
theorem sized_panics {m : Machine} {ar : Arith} {e : Expr} {b : Byte} (hb : b = 0 ∨ b = 255)
    (h : ar.eval { vars := [.num b.toNat] } e = none) : fromBytes ((sized 8 e).readIn m ar {}) [b] 0 = .panic := by
  have hl : ∀ r : Reader, Arith.limit ar { vars := [.num b.toNat] } (.count e) r = (.panic, r) := by
    intro r
    simp only [Arith.limit, Arith.get, h, Arith.must, M.panic_bind_run]
  have hr : ∃ r', (uintCodec m.native 1 (.bits 8)).read (Reader.new { data := [b] }) = (.ok (.num b.toNat), r') := by
    rcases hb with rfl | rfl <;> cases m.native <;> exact ⟨_, rfl⟩
  obtain ⟨r', hr⟩ := hr
  have hf : ar.readField {} m.native (Def.readIn m ar (.leaf (some 8) (.uint 1 (.bits 8)))) {}
      (Reader.new { data := [b] }) = (.ok (.num b.toNat), r') := by
    rw [readField_plain, Def.readIn]
    exact hr
  have hall : (sized 8 e).readIn m ar {} (Reader.new { data := [b] }) = (.panic, r') := by
    simp only [sized, Def.readIn, DFields.readIn, Arith.args, magicRead, M.pure_bind_run]
    simp only [Def.readIn] at hf
    rw [M.bind_ok hf]
    have hg : ar.readField {} m.native (Def.readIn m ar (.vec false (.count e) (.leaf (some 8) (.uint 1 .unit))))
        { vars := [.num b.toNat] } r' = (.panic, r') := by
      rw [readField_plain, Def.readIn]
      have hp : ∀ {β : Type} (f : Limit Val (List Val) → M Reader β) (r : Reader),
          (Arith.limit ar (Env.at { vars := [.num b.toNat] } 0) (.count e) >>= f) r = (.panic, r) := by
        intro β f r
        rw [M.bind_def]
        have := hl r
        rw [show Arith.limit ar (Env.at { vars := [.num b.toNat] } 0) (.count e) r = _ from this]
      exact hp _ r'
    simp only [Def.readIn] at hg
    have he : ({} : Env).push (.num b.toNat) = { vars := [.num b.toNat] } := rfl
    rw [M.bind_def, M.bind_def, he, hg]
  unfold fromBytes
  simp only [readFrom, ne_eq, not_true_eq_false, if_false]
  rw [hall]

/-- **C92.** On a count that is one operation on a byte and a literal the check is tight: if it is rejected, there is an
input on which the build with overflow checks panics. -/
theorem C92_rejected_counts_panic (m : Machine) (o : Op) (n k : Nat) (hn : 8 ≤ n) (hk : k < 2 ^ n)
    (h : (sized 8 (.op o (.field 0) (.lit k))).exact { bits := fun _ => n, minus := true } (some m.native) {} = false) :
    ∃ b : Byte, fromBytes ((sized 8 (.op o (.field 0) (.lit k))).readIn m { bits := fun _ => n, minus := true } {}) [b] 0 =
      .panic := by
  have hp : 256 ≤ 2 ^ n := Nat.pow_le_pow_right (n := 2) (by omega) hn
  have hs : o.span n true (0, 255) (k, k) = none := by
    have hm : (Leaf.uint 1 (.bits 8)).span (some m.native) = some (0, 255) := by cases m.native <;> rfl
    have h1 : ∀ x : Span, x.isSome = false → x = none := fun x hx => by cases x <;> simp_all
    apply h1
    have hl : (k : Int) < 2 ^ n := by exact_mod_cast hk
    simpa [sized, Def.exact, DFields.exact, DAttrs.exact, DAttrs.span, DAttrs.mayDefault, Arith.inside, Arith.okLim,
      Arith.ok, Arith.span, Expr.span, Spans.push, Def.span, hm, Span.cast, show 255 < 2 ^ n by omega, hl] using h
  have hrun : ∀ b : Byte, Arith.run { bits := fun _ => n, minus := true } n { vars := [.num b.toNat] }
      (.op o (.field 0) (.lit k)) = Arith.op { bits := fun _ => n, minus := true } n o b.toNat k := by
    intro b
    have hlt : b.toNat < 2 ^ n := Nat.lt_of_lt_of_le b.isLt hp
    have hl : (0 : Int) ≤ k ∧ (k : Int) < (2 ^ n : Nat) := ⟨by omega, by exact_mod_cast hk⟩
    have hc : Arith.cast n ((Expr.field 0).eval { vars := [.num b.toNat] }) = b.toNat := by
      simp only [Expr.eval, List.getElem?_cons_zero, Arith.cast]
      rw [← Int.natCast_emod, Int.toNat_natCast, Nat.mod_eq_of_lt hlt]
    simp only [Arith.run, hc, if_pos hl, Int.toNat_natCast]
  have hgo : ∀ b : Byte, (b = 0 ∨ b = 255) → Arith.op { bits := fun _ => n, minus := true } n o b.toNat k = none →
      fromBytes ((sized 8 (.op o (.field 0) (.lit k))).readIn m { bits := fun _ => n, minus := true } {}) [b] 0 = .panic := by
    intro b hb h
    refine sized_panics hb ?_
    simp only [Arith.eval, hrun, h, Option.map_none]
  cases o with
  | add =>
    refine ⟨255, hgo 255 (.inr rfl) ?_⟩
    simp only [Op.span] at hs
    split at hs
    · cases hs
    · rename_i hlt
      simp only [Arith.op, Arith.fit]
      rw [if_neg (by exact hlt)]
      rfl
  | mul =>
    refine ⟨255, hgo 255 (.inr rfl) ?_⟩
    simp only [Op.span] at hs
    split at hs
    · cases hs
    · rename_i hlt
      simp only [Arith.op, Arith.fit]
      rw [if_neg (by exact hlt)]
      rfl
  | sub =>
    refine ⟨0, hgo 0 (.inl rfl) ?_⟩
    simp only [Op.span] at hs
    split at hs
    · rename_i hlt
      simp only [Arith.op, Arith.diff]
      rw [if_neg (by have := hlt.2; show ¬ k ≤ 0; omega)]
      rfl
    · cases hs
  | min => simp [Op.span] at hs
  | max => simp [Op.span] at hs

/-- `len * 4` in a `u8`, `len + 1` in a `u8`, `len - 4` in a `usize` are rejected. -/
example : (sized 8 (.op .mul (.field 0) (.lit 4))).exact { bits := fun _ => 8, minus := true } (some .little) {} = false ∧
    (sized 8 (.op .add (.field 0) (.lit 1))).exact { bits := fun _ => 8, minus := true } (some .little) {} = false ∧
    (sized 8 (.op .sub (.field 0) (.lit 4))).exact { bits := fun _ => 64, minus := true } (some .little) {} = false := by
  decide +kernel

end Deku
