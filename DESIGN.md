# A formal model of deku in Lean 4

The code is `/repo` (deku at the pinned commit). Nothing of it is executed here: the model is a
hand transcription of the Rust source, function by function, into total Lean functions. Every
definition cites the file and lines it models.

`properties.jsonl` lists the properties, `MANIFEST.json` says for each one what is proved and by which
theorems, `seeded/LOG.jsonl` records the wrong programs the theorems were tested on.

## Trusted base

* Lean 4.33.0's kernel and its three standard axioms `propext`, `Classical.choice`, `Quot.sound`.
  Every property theorem depends on a subset of these three. `lean/Verif/Audit.lean` checks this during
  the build: it collects the axioms of every theorem named `Deku.Cnn_…` and fails on any other.
  No axioms are added; there is no `sorry`, `admit`, `native_decide`, `bv_decide`, `implemented_by` or
  `unsafe`. Concrete cases are evaluated by the kernel (`decide`, `decide +kernel`).
* The transcription of the Rust text into the definitions under `lean/Verif/Model/`. To check it, the
  vectors of the repository's own tests and doc comments are replayed on the model in
  `lean/Verif/Conformance.lean` and `lean/Verif/ConformanceImpls.lean`, the examples in the documentation of the
  crate (src/attributes.rs, src/lib.rs) in `lean/Verif/ConformanceDocs.lean`. These are tests of the transcription, not proofs of any property.
* The specification vocabulary in `lean/Verif/Spec/`, which the statements use.
* What the Rust standard library and the `bitvec` and `no_std_io` crates do, as far as it is used
  (next section).

## What is modelled

| Part of the code | Lean module |
| --- | --- |
| bit and byte lists, integers as byte strings | `Verif/Bits.lean` |
| `DekuError`, `NeedSize` (`src/error.rs`); results, panics, the state monad | `Verif/Model/Error.lean` |
| `Read`/`Seek`/`Write` of cursors over bytes, with fault schedules | `Verif/Model/Stream.lean` |
| The scopes of names in emitted code: parameters, `let`s, patterns, temporary fields, offsets (C95) | `Verif/Model/Names.lean` |
| Discriminants as ids: numbering by the compiler, which declarations the macros accept, the sizes of the unsafe reads of the tag (C98) | `Verif/Model/Discriminant.lean` |
| `update` of structs without names: assignments by the number of the field in the source (C99) | `Verif/Model/Tuple.lean` |
| `apply_replacements` on the text of attributes, with `str::contains` and `str::replace` (C100) | `Verif/Model/Text.lean` |
| What `emit_field_read`, `emit_field_write` and `emit_field_update` emit for a field from the full set of its attributes, with `FieldData::validate` and `any_field_set`; the seeks of types (C101) | `Verif/Model/Emit.lean` |
| A user's program: a message behind the number of its bytes, with `reader`, `writer`, `ReadExact`, `TryFrom` and `to_bytes` (C102). The type inside is any reader and writer; what the user does with an error of the payload is a parameter | `Verif/Model/Envelope.lean` |
| `From<DekuError> for io::Error` and back (src/error.rs:177-220), kinds only; a `Read` of a user that unwraps frames | `Verif/Model/Layer.lean` |
| `reader` and `writer` on a variant, with the types of the arms (C105). The name `__deku_variant_id` is not available to them | `Verif/Model/VariantFns.lean` |
| Integers whose size is an expression in a field before (C107, C108) | `Verif/Model/Sized.lean` |
| Types that contain themselves: unrolled as deep as the stack has room, then a panic (C97) | `Verif/Model/Recursive.lean` |
| `HashMap` and `HashSet` as types of fields: values without order, the order of the iterator a parameter (C96) | `Verif/Model/Hash.lean` |
| `read_exact`, `write_all`, `BufReader`, `BufWriter` of the standard library, on devices with short transfers and interruptions (C93, C94) | `Verif/Model/Io.lean` |
| `src/noseek.rs` | `Verif/Model/NoSeek.lean`, `Verif/Model/Stream.lean` |
| `src/reader.rs` | `Verif/Model/Reader.lean` |
| `src/writer.rs` | `Verif/Model/Writer.lean` |
| `BoundedBitVec` (`src/lib.rs`); reader and writer again, with it and machine words | `Verif/Model/Bounded.lean` |
| `src/impls/primitive.rs` | `Verif/Model/Primitive.lean` |
| `src/impls/{vec,slice,tuple,option,bool,nonzero,cstring,hashmap,hashset}.rs` | `Verif/Model/Containers.lean` |
| the same `slice.rs` with the memory its unsafe code works on | `Verif/Model/Unsafe.lean` |
| code emitted by `deku-derive` (`deku_read.rs`, `deku_write.rs`, `deku_size.rs`), `update`, `deku_id` | `Verif/Model/Derive.lean` |
| `DekuUpdate::update` of structs and enums (`deku_write.rs:85, 158-168, 343-356, 408-425`) | `Verif/Model/Update.lean` |
| the leaves of definitions, from the above | `Verif/Model/Leaves.lean` |
| definitions written down as data (no attribute expressions as Lean functions) | `Verif/Model/Core.lean` |
| the same with expressions computed in types of fixed size, with and without overflow checks | `Verif/Model/Arith.lean` |
| structs of such definitions with `seek_*` attributes as data | `Verif/Model/Seek.lean` |
| what the macros make of attributes as written: inheritance, `gen_field_args`, `gen_id_args`, `validate`, trait resolution | `Verif/Model/Source.lean` |
| what is different without feature `bits`: padding, offsets, `finalize`, `validate` | `Verif/Model/NoBits.lean` |
| what is different in a release build: wrapping arithmetic, no `debug_assert!` | `Verif/Model/Release.lean`, `Verif/Model/ReleaseMaps.lean` |
| `to_bytes`, `to_slice`, `to_bits`, `from_bytes`, `from_reader`, `TryFrom` | `Verif/Model/Toplevel.lean` |

`Verif/Spec` has the vocabulary of the statements, `Verif/Lemmas` the proofs' groundwork, `Verif/Props`
the property theorems, each with examples and counterexamples beside it.

### Conventions

* A computation is `M σ α = σ → Res α × σ`. The state is kept also when the result is an error, so the
  effects of failing calls are visible. `Res` has three outcomes: `ok`, `err DekuError`, `panic`. Every
  `assert!`, slice-bounds check, arithmetic underflow and `debug_assert!` that can fire is an
  explicit `panic`: a debug build is modelled. `Model/Release.lean` has the functions again as they are in a
  release build, and C83 relates the two.
* A source is a byte list with a position and a *fault schedule*: a function from the index of the
  call made to an optional pair of a number of bytes transferred and an error kind. A theorem over all
  sources ranges over all fault schedules. A sink is a byte buffer with a position, an optional
  capacity (slice cursor) and a fault schedule. `seekable := false` is a stream wrapped in `NoSeek`.
* Integers are natural numbers below `256 ^ W` (`W` bytes), signed ones are `Int`s through two's
  complement, floats are their bit patterns.
* `bitvec` slices are lists of booleans, most significant bit first; `load_be`/`store_be` are
  `ofBits`/`bitsBE`. `BoundedBitVec` is a list of bits with the capacity checks made explicit;
  C58 shows that this picture is faithful for the pending bits of reader and writer.
* A derived definition is data: `Ty`, `Fields`, `Variants` with `Attrs`. `Ty.read`, `Ty.write`,
  `Ty.size` are the code the macros emit for it. Attribute expressions are arbitrary total functions of
  what is in scope (`Env`: context arguments, earlier fields, `deku::bit_offset`), so a theorem over all
  definitions ranges over all expressions. Leaves are arbitrary pairs of a reader and a writer
  (`Codec`); a theorem that needs something of the leaves says so, and the integers are proved to have it.
* `Machine.mem` is the number of elements a collection can hold: asking for more capacity panics, and
  so does pushing one more element. Loops over elements of no bits therefore end in a panic.
* Default cargo features (`std`, `alloc`, `bits`, `descriptive-errors`); `bits` turned off is in `Model/NoBits.lean` and C73. Error message texts and
  logging are dropped, error kinds are kept.

### Not modelled

* The text-level work of the proc macro (but see C100): parsing attributes, name resolution (but see C95), type checking of emitted
  code (`Model/Source.lean` starts from parsed attributes and models which context arguments a type takes). A definition that does not compile may still have a model.
* Panics inside attribute expressions; expressions with side effects other than the state of `until`. The
  operations in expressions of `Model/Core.lean` are those that cannot fail (`+`, `*`, `saturating_sub`, `min`,
  `max`; `/`, `%`, `&`, `>>` with a literal), on unsigned numbers of a type that is wide enough; what happens in a
  type that is not is in `Model/Arith.lean` and C92, for expressions that are computed in one type each.
* `reader`/`writer` attributes on a variant are only in C105; on a field they are a leaf `Codec`.
* `ctx_default` other than numbers, endianness and bit order (`Model/Source.lean`); generated constructors and `TryInto`.
* Overflow of `usize`/`u64` counters and positions (`bits_read` after 2^61 bytes). Multiplications by 8
  of a size given by the input are modelled, and panic.
* `Cow`, `Box`, `Arc`, `Rc`, `&T`: they delegate with one call (what this allows, recursive types, is C97). `Ipv4Addr`, `Ipv6Addr` are the `u32` and
  `u128` they delegate to. `()` reads and writes nothing.
* `no_std` differences (`NoSeek::seek` panics there). Release builds of code
  without feature `bits`; profiles in which only some crates have overflow checks.
* Time and memory use, other than `Machine.mem`, the size of values (C88) and the number of calls to the source (C89).
  Bitvec internals.
* `NoSeek` keeps its own position, which differs from that of the stream after a `read_exact` that
  failed half-way (C52); `Src.seek` uses the position of the stream.

## Method per property

Where a property as stated is false of the code, the negation is proved on a concrete witness
and the strongest true fragment is proved under a `_partial` name; the status is then `partial`.

* **C01, C02, C03, C04, C09** Refinement. The abstract state of a reader is the list of bits not yet
  read: pending bits followed by those of the remaining bytes, in the given bit order. Each entry point
  is shown to take a prefix of it; sequences of reads by induction (`Lemmas/Reader`, `Spec/Stream`).
* **C05** `end` leaves the abstract state unchanged; interleavings with reads by induction over programs.
* **C06** `skip_bits` against dropping a prefix of the abstract state.
* **C07** The three routes to an integer (64-bit accumulator, whole bytes, slices) against one
  specification on bits (`Spec/Int`).
* **C08, C14** For every fault schedule: a call that fails is either reported or the path is one of the
  listed ones that swallow it (`Spec/Faults`).
* **C10, C11, C12** Refinement of the writer to appending to a list of bits, one per bit order
  (`Lemmas/Writer`, `Spec/Output`).
* **C13** Simulation between the two sinks, closed under the writer's calls (`Spec/Sink`).
* **C15–C25** Integers: the bits written and the bits read are the same function of value, endianness,
  size and order; the round trip follows from C01/C02 and C10/C11 (`Lemmas/IntCodec`, `IntRound`,
  `IntWrite`). Acceptance is proved for every writer state, also mixed orders (`Lemmas/WriterTotal`).
  Where a round trip is false, `Props/IntExact.lean` determines for every accepted value what comes back.
* **C26** Sequences of groups of fields in alternating orders, by induction over groups (`Lemmas/Switch`).
* **C27–C35** Parametric in the reader and writer of the elements: the loops are compared with a
  recursive specification (`Spec/Sequence`); round trips from that of the elements.
* **C36, C37, C38** `Ty.Fits` says that a value can be written and read back by a definition at a set
  of alignments, built up from field-wise conditions. `FitsSound` proves by mutual induction over
  `Ty`/`Fields`/`Variants` that it implies the round trip at every alignment, before any further data.
* **C39, C41, C42, C54** Field-wise: `Attrs.read`, `Attrs.write` for arbitrary types of fields.
* **C40** Mutual induction: every value a definition returns or accepts satisfies `Asserted`; and the
  first field that violates is where it stops.
* **C43** Invariant of the loop of assignments; the round trip through C36.
* **C44, C45, C47, C48** `Lawful` reading: a mutual induction shows that every format without seeks and
  `read_all` reads a segment of the stream, that `bits_read` counts it, and that the result depends on
  nothing else. From this accounting, chaining, locality, offsets.
* **C46** Mutual induction over regular definitions: size written = size read = `SIZE_BITS`.
* **C49** Mutual induction: whenever reading takes a list of bits and returns a value, writing it
  gives these bits (`Ty.Canon`).
* **C50** Mutual induction: reading from a state that meets an invariant does not panic and keeps it
  (`Ty.Safe`); a structural condition (`Ty.Tame`) implies it.
* **C51, C52, C53** Direct.
* **C55** `Commutes φ f`: the computation does the same after the change `φ` of its state (here: the
  stream loses the ability to seek). It is closed under the constructs of the monad and every function
  that does not seek has it, up to `Ty.read` and `Ty.write` by mutual induction.
* **C56** The same for a relation between two readers, one of which has only a part of the input:
  `Notices f` says that `f` reports `Incomplete` there or keeps the relation and its result.
* **C57** Invariant "less than a byte is pending" with `Quiet f`: `f` does not panic and keeps it when it
  succeeds; mutual induction for `Ty.write` on values of the type's shape (`Ty.Writes`).
* **C58** Refinement: a second transcription of reader and writer with the storage byte, its stale bits
  and `u64`/`u128` arithmetic simulates the first one (`Sim`), function by function.
* **C59** `Commutes` again: the change is now putting bytes and calls before the stream (`Src.after`,
  `Sink.after`). Sequences of messages by induction; that the sink stands at its end after each message
  follows from commuting with cutting it off there (`Sink.cut`), and that it goes on to accept everything from commuting
  with a change that moves only sinks that can fail (`Sink.shy`). For all definitions given as data: `Props/CoreStream`.
* **C60** Decision logic: the three matches over the variants are compared arm by arm.
* **C61, C62** The core language (`Model/Core.lean`) writes a definition down as data, with named leaves and
  expressions; `Def.toTy` gives the code. `Spec/Core.lean` has the checks, all of them computable. That a
  checked definition meets the conditions of C36, C46 and C57 is shown by induction over definitions,
  so that nothing is assumed of the leaves.
* **C63** `Yields R f`: whatever state `f` starts in, a success has a value of `R`; induction over the
  definition, down to the bits that integers are made of (`Lemmas/Yields`, `Lemmas/CoreTyped`).
* **C64** `Def.safe` (`Spec/CoreSafe.lean`) is an abstract interpretation: it computes the stage of the
  reader and upper bounds of the numbers in scope. Its soundness is that `some` implies the condition of
  C50, by induction over the definition; loops use a stage that one more round does not leave.

* **C65** Refinement with an invariant: before slot `i` is read, the first `i` slots are initialised and the
  others are not.
* **C66** `Def.Conforms` (`Spec/Conform.lean`) is a relation between definition, scope and value that does not
  mention the code: expressions *denote* numbers in a scope of fields in source order. `Yields` again, by
  induction over the definition; two small inductions over the loop of `Vec` for `count` and `until`.

* **C67** `SAttrs.limits` lists the limits written, `SAttrs.limit` is the one in the code: case analysis over
  the five attributes. That limits are kept by parsed values follows from C66 through `STy.elab`.
* **C68** `STy.spread` writes the attributes of a type on its fields; that `STy.elab` gives the same
  definition is shown by induction over the source.
* **C69, C70** `STy.plain` looks at the attributes only. Induction over `STy.elab`: the definition is plain;
  induction over definitions: `Def.check` succeeds on plain ones and `Def.refusal` has nothing to refuse. The rest
  is C61 and C62.
* **C71** Case analysis over the four attributes, then C17/C20 for the integer.
* **C72** `STy.wire` (`Spec/Wire.lean`) computes the bits a source describes from its attributes alone: there is no
  reader, writer, context type or generated definition in it. Induction over the source, following `STy.elab`: wherever
  the generated writer succeeds, in any state at any alignment, it has written these bits. That they are parsed
  follows with C61, as what is written is unique. `STy.has` and `STy.sized` are the values and sizes of a source;
  by induction they are those of the definition.
* **C74** The same description in either bit order: it is a list of pieces, each with its bits in this order and whether
  it is given in bytes. The induction is that of C72; bytes at a byte write the same in both orders, so only in Lsb0
  pieces of bytes have to begin at bytes (`STy.even`, `onBytes`). C72 is the case Msb0.
* **C75** `STy.consistent` (`Spec/Consistent.lean`) says, from the attributes alone, which values a source describes: numbers
  in range, lists of the length their limit says, skipped fields with their default, ids that select their variant. It
  mentions neither reader nor writer. `STy.aligned` says that bytes read by the byte path begin at bytes. Induction over
  the source, following `STy.elab`, with the writer and the reader side by side (`Carries`): the pieces of C74 are
  written and parsed. Unlike C74, nothing is assumed about the writer succeeding or a check of the definition.
* **C76** `STy.parse` (`Spec/Parse.lean`) is a parser of bit lists made from the attributes: which value the input starts
  with and what is left, that there is none, or that nothing is said (`unclear`). It knows no reader state, leftover bits
  or context types. Induction over the source (`Decodes`): a reader that is in order and has these bits left does what the
  parser says; one that is to be refused fails or is beyond the end, which it stays. `STy.clear` is a static check that
  nothing is unclear: abstract interpretation with the positions within a byte (`Phases`), closed under loops.
* **C77** `STy.faithful` (`Spec/Faithful.lean`) is a static check that what is parsed is described. The induction is over
  the source and only about the two descriptions, the parser of C76 and the values and pieces of C75 (`Parser.Gives`): the
  bits taken are as many as the pieces of the value have, the same without paddings (`Spells`), and the value is
  consistent. What the code does then follows from C75 and C76.
* **C78** Case distinction over what the type of the field gives; no induction.
* **C79** The parser of C76 says why there is no value (`Why`): the first thing that is wrong. The induction of C76
  (`Agrees`) carries it: what the code returns then is the error that belongs to the reason. A padding cut in whole bytes
  (`beyond`) is not reported where it happens; that this is the only exception without paddings is an induction over the
  source (`Avoids`), and C56 tells what happens then.
* **C80** Relation `Below e f g` between computations: `g` does what `f` does, unless `f` ends with `e` (`Parse` for
  reading, a panic for writing). It is closed under everything the emitted code is made of; induction over definitions.
  Sources that grow are proved to compile to code that grows; for values of the old type the writers are equal.
* **C81** Equality of functions. Integers: with an endianness in the context the code does not use that of the machine;
  for one byte the branches for the two are compared, among them `read_bits_uint_msb0` with `read_bits_into` on every
  reader (`Lemmas/Portable.lean`). Then by induction over definitions: the endianness of the machine is used for these
  integers, `magic` and `Vec<u8>` only. A check on sources, by flags for what is given, implies that on definitions.
* **C82** Relation `Leads Q f g`: `g` does what `f` does and then reads some fields of `Q` (`LeadsW` for writing), shown by
  induction over the place of the addition (`Edit`), so that the path to it is all that has to be looked at; for sources
  also over what the macro makes of them (`Lemmas/AppendSource`). The prefix on the wire is again commuting with
  `Sink.after`.
* **C83** Simulation. Every function in which a `debug_assert!` or a checked operation occurs is given again without
  it (`Model/Release.lean`); `Follows f g` says that `g` does what `f` does wherever `f` does not panic. It is shown
  function by function up to `from_bytes` and `to_bytes` (`Lemmas/Release.lean`); loops by induction, definitions by
  mutual induction. With C61, C62 and C64 there are no panics to except for checked definitions. What the release
  build does where the debug build panics is shown on witnesses.
* **C84** Equational reasoning in the monad of the model. "Means the same" (`Ty.Same`) is an equation between parsers and
  one between serialisers, so it holds in every state, on every source and sink and inside every other definition. Moving
  fields into a struct is an induction over the fields before, with attribute expressions replaced by ones that look at the
  other scope (`under`); lists by induction over the loops. Congruences for structs, variants, fields, options, tuples,
  arrays and lists let the laws be applied anywhere and one after the other. The laws are about definitions after the
  inheritance of `endian` and `bit_order` has been worked out: a nested struct inherits nothing by itself.
* **C85** The program is two inductive relations (`Spec/Receive.lean`) over any parser: `Drains` (the loop on one buffer)
  and `Gets` (the pieces), so nothing is assumed about ending. From C56 (an input cut off is `Incomplete`, or what is
  missing makes no difference) follows by induction on `Drains` that more bytes do not change what has been delivered,
  and by induction on `Gets` that all pieces together do what the whole does. The loop ends because each message
  consumes a bit (`hungry`, as in C64). `arrived` says which messages are complete in what has arrived; it uses the
  lengths of the messages only. That C56 applies to a definition is found out by computation (`Def.cuttable`,
  `Spec/CoreFlow.lean`), which also gives C44, C48 and C56 for definitions that are given as data.
* **C86** `STy.closing n` (`Spec/ReadAll.lean`) puts `bits_read = n` for `read_all`; `STy.openEnded` is the static check
  that `read_all` is only at the end. The parser of C76 is monotone in its input (`Parser.Mono`), and at the end of the
  input a list that goes on to the end and one with the size of what is left take the same (`Parser.Ends`, induction
  over sources); the same number serves every such list because at most one of them is read. That the source with sizes
  is written, sized, ordered, clear and faithful exactly as the one with `read_all` is an induction each. C75, C76 and C77
  of the source with sizes then give the properties of the one with `read_all`.
* **C87** `STy.loose` (`Spec/Lengths.lean`) takes away the limits that are the length of the list because the field they name
  holds that length, as a temporary field or by `update`. A value that the loose source describes is one that the source
  describes (`STy.of_loose`, induction over sources with an invariant on what the fields before hold), so C75 applies.
  `Model/Update.lean` has `update` of structs and enums with such attributes; after it the fields hold the lengths by C43.
* **C88** `Light` (`Lemmas/Weight.lean`): a parser whose results weigh at most `B + K·bits`. It composes along sequences
  because the bits add up; a list of elements that read something pays for the fixed part of every element with a bit.
  Induction over definitions, from the movement lemmas of C50.
* **C89** `Calls` (`Lemmas/Calls.lean`) bounds the calls of every primitive by a constant, on any source, faulty or not.
  `Busy` (`Lemmas/Busy.lean`) is an amortised bound: calls so far plus `K` times what is left of the input grow by at most
  `B`; after an error nothing is left. A round of a list takes a bit (`Eats`, C50), which pays for the next round; `Vec<u8>`
  with a count asks for the length of the stream first, so its reads are paid for too. Mutual induction on definitions
  (`Def.busy`).
* **C90** `Props/Examples.lean`, `ExampleEnum.lean`, `ExampleFrame.lean`, `ExampleMain.lean`. The example programs as
  sources of `Model/Source`, with the bytes of a value given by arithmetic on its fields. `both_ways` turns C75 into
  "written as these bytes, and read back whatever follows", given that the bits of the bytes are the described ones, which
  is shown per example. That any twenty bytes are a header is by splitting bytes; that fewer are incomplete is C56 on the
  bytes extended by zeros; that headers out of range are refused is C62. `Ipv4Addr` is read as its `u32`, and the pattern
  `&id if id > 6` is given as the range 7..=255.
* **C91** `Spec/Jumps.lean`, `Lemmas/Jumps.lean`, `Props/Jumps.lean`. A layout is a list of pieces: where each field
  begins, and its bytes when it is written alone. Nothing that writes without seeking notices whether a sink whose
  position is behind its end has already been filled with zeros (C55's commutation argument for `Sink.fillIf`), so a
  field is written anywhere as it is at the end of the data; the contents afterwards are the pieces stored one after the
  other. Partial as stated for every format with seeks: see finding 41.
* **C92** `Model/Arith.lean`, `Spec/Arith.lean`, `Lemmas/Arith*.lean`, `Props/Arith.lean`. A second interpreter of
  definitions evaluates every expression where the emitted code does, in a type of `n` bits; a panic or a wrapped
  result is possible. `Def.exact` is an interval analysis with the ranges of the fields (of the bits read, or of the
  type when writing), arguments and assertions. By induction over the definition the two interpreters are the same
  function of the state on accepted definitions; the ranges are postconditions of every reader in every state
  (`Lemmas/ArithExpr`: what is read into `n` bits is below `2 ^ n`, also from a source that fails). Tightness: a rejected
  count on one operation has a panicking input, for all operations, sizes and literals.
* **C93** `Spec/Talk.lean`, `Spec/Io.lean`, `Lemmas/Talk.lean`, `Lemmas/Io.lean`, `Props/Io.lean`. `Asks f`: the
  computation is a program (a tree of calls, with a branch for each answer) run on the stream of `Model/Stream.lean`. It
  is closed under the constructs of the monad and every reader function has it, up to `Ty.read` by mutual induction. A
  program is then run on a stream of any type; a simulation between that stream and the one of the model, by induction
  over the program, needs only the contract. `Honest` streams need a fault schedule that is built along the way. That
  files and `BufReader` keep the contract is an invariant (bytes in the buffer are those after the position) and, for the
  loop of `read_exact`, induction on a bound of the number of calls.
* **C94** The same for writers without `seek_*` (`Lemmas/Tell.lean`, `Lemmas/IoOut.lean`, `Props/IoOut.lean`). Partial:
  finding 44.
* **C95** `Model/Names.lean` has reading and writing once more with the scopes of the emitted code: a function from names
  to values that `let`s, parameters and patterns extend, and the offset. `NTy.toTy` replaces names by the numbers of
  `Model/Derive.lean`; by induction on definitions both directions are those of the result (`Lemmas/Names.lean`). The
  invariant of writing is that the scope agrees with the one of reading except for the fields to come, whose values
  it has already. Expressions are arbitrary functions of the scope; `Ignores` says semantically that one does not
  mention a name, and `NExpr` has a syntactic criterion. Renaming (`Lemmas/Rename.lean`) needs no condition. Partial:
  what the hypothesis `Settled` excludes is false (finding 45).
* **C96** `Model/Hash.lean` makes `HashMap` and `HashSet` leaves of a definition. A value of a map is the list of its
  entries sorted by an injective code, so that equal maps have equal values (`C96_same_map_iff_same_lookup`); the order in
  which it is written is an arbitrary permutation `iter`. Reading is that of a list of pairs, followed by a function
  (`mapCodec_read`), since the loops commute with a conversion of the elements; writing is that of the permuted list
  (`mapCodec_write`). A list of distinct keys is the map it is made into (`mapOf_iter`), so `Ty.Fits` of the list gives
  `Ty.Fits` of the map, and C36 applies to everything that contains it. Equality of keys is equality of values: an
  implementation of `Eq` for a key type that identifies more is not modelled.
* **C97** A recursive type is a family of bodies `F`, functions of what stands for the types inside of them, applied as
  often as the stack has room for; below that is a panic (`Model/Recursive.lean`). The bodies are given by a grammar
  (`Shape`), and by induction over it a body is monotone in "the same or a panic" (`Shape.under`), so larger stacks agree
  with smaller ones unless these overflow. For the bound, `Guarded` says that something is read before a type occurs
  again, and by induction over it two bodies agree on readers from which the types inside agree after one more bit
  (`Guarded.eqOn`); induction over the number of bits left (`unrollOn_eqOn`) shows that what is below 8 calls per byte does
  not matter. With something below that fails instead of a panic, C50 applies to the unrolled type.
* **C98** A declaration is a list of variants with an optional number each. `numbers` computes the numbers as the compiler
  does; `C98_numbering` shows that this is the only assignment that obeys the rule of the language reference, stated
  positionally (`Numbered`). `declared` turns a declaration into the variants of `Model/Derive.lean`, and the theorems about
  reading and writing are about `Ty.read` and `Ty.write` of the resulting enum, with an arbitrary codec for the id whose
  soundness is a hypothesis. Order and growth are statements about `select`; `C98_discriminants_are_ids` is an equation
  between the two enums. The acceptance checks of the macros (`reads`, `writes`) and the sizes of the two unsafe reads are
  transcribed separately. That the first bytes of a value with `repr` are the tag is taken from the language reference.
  Which numbers a type holds is pinned by `C98_numbers_of_a_type`, for every width.
* **C99** `Fields.updateStruct` follows the numbers the macro emits: `self.N` with the number in the source. It is
  compared with `Fields.update`, which C43 and C87 are about: equal for named fields, equal for tuple structs in which no
  temporary field precedes an updated one, and in all others there is an updated field that is never assigned.
  Whether the assigned places exist is a separate check (`Fields.assignable`): always with names, not always without.
* **C100** The specification is a relation (`Rewritten`): the text is a sequence of names with `deku::` before them, which
  are replaced, and of characters at which no such name begins, which are kept. That one `str::replace` satisfies it for one
  name is by induction over the text; that four of them, one after the other, satisfy it for four names, because no name
  begins inside of a replacement and no replacement completes a name (`Rewritten.pass`, `Rewritten.back`).
* **C101** The three functions that emit the code of a field are transcribed as functions from the full set of attributes,
  with their texts, to a tree in which these texts appear. An attribute has no effect if no change of it that is accepted
  changes the tree (`Idle`). The tables in `Spec/Emit.lean` are stated in terms of the attributes and proved to be exact, one
  attribute after the other. The tree leaves out the lets of the offsets and the logging; two texts that mean the same count
  as different. Because exchanging two attributes would keep all tables, `C101_padding_is_where_it_was_asked_for` states
  which text goes where.
* **C102** The answer of `from_bytes` is computed for every input (`C102_the_answer`) and compared with a specification that
  knows the number and the payload only. Everything about receiving follows from it and the loop of C85, for which only the
  answers at the start of a byte matter (`Gets.congr`); nothing is assumed of the type inside, so types with `read_all`, which
  C85 excludes, can be received this way. Depth by induction.
* **C103** `Spec/Patch.lean` defines ways down into a value (`Go`), replacing what is there (`put`), and computes from the
  attributes alone what is at a place, how many bits are before it and whether anything else depends on it (`spot`): a
  field is a place if it is parsed, has no `assert_eq` and no expression of a later field (condition, count, `ctx`)
  mentions it; an element is one unless the list has an `until`. `spot_sound` (induction over the way) splits the
  description of C74/C75 into what is before, at and behind the place, for the old value and for every other of the same
  form. It needs that descriptions depend on the environment only through the expressions that are written
  (`fields_wire_agree`, `fields_consistent_agree`) and on the value, for temporary fields, only through the lengths of lists.
  The rest follows from C75. Sources with custom readers and writers, `seek`, `map` and identifiers that are computed are
  not in the source model and not here.
* **C104** `Spec/Candid.lean` defines the log of a conversation with a stream (the error of every call, or none) and what it
  is for the result to tell of it (`Told`: no call has failed, or only the last one, and its kind is the result).
  `Lemmas/Candid.lean` proves for the conversations of all code of definitions in whole bytes (`Def.inBytes`, computed) that a
  failed call ends them with its error and that they do not say `Incomplete` or `Io` on their own account (`Frank`).
  `Model/Layer.lean` has the conversions of errors and a stream of a user that unwraps frames; it is related call by call to a
  stream of the payloads, up to the broken frame. Not covered: `read_all` and fields that are not in whole bytes, where it is
  false (finding 53).
* **C105** `Model/VariantFns.lean` adds `reader` and `writer` of variants to the enums of `Model/Derive.lean`, with the types of the
  emitted arms. Compiling is decided by the types of the arms, for lists of variants of any length; the rest is equality of
  programs with those of `Ty.enum`, and composition of `SoundOn` as in C36.
* **C106** As C94, with a stronger statement about the programs: `Talk.Straight` says that a call that fails ends the program
  with its error. `Lemmas/Play.lean` follows the code of the writer and of the derive as `Lemmas/Tell.lean` does, and turns such
  a program into a list of blocks and a result; the rest is induction over the blocks, for sinks with a contract and for slices.
* **C107** The definition is a `Ty` of two fields, of which the second has a codec that depends on the environment. For sizes in range
  the theorems of C01 about contexts apply, once the context that the attributes give is shown to have the size (`ctx_shape`). For
  all other sizes the read is evaluated after the first byte (`record_first`), by cases on the attributes, so that every first
  byte is covered: in range, beyond the type, zero, and the sizes that a `u8` ignores (`Sizing.oneByte`).
* **C108** As C107 with the theorems of C18 about signed contexts. `Sizing.signExtends` says for which attributes and sizes the reader
  extends the sign, apart from the contexts of the model.
* **C109** What a writer has taken in is seen as one string: the bits of the bytes in the sink and the pending bits. `Mixed.lay` says for
  each pair of bit orders (of the writes before and of this one) where the bits of a write go; it is a function on lists of
  anything, so that it commutes with `map` and gives a permutation. Each of the four functions of the writer is shown to do what `lay`
  says, for every leftover and length. The permutation of a sequence is what the writes make of the list of indices.
* **C110** Each unsigned write is a sequence of the calls of C109 whose sizes and bit orders depend on the context only, and whose bits are
  those of the field (`writeUnsigned_moves`), so a list of fields is too, and C109 gives the bytes back to the bits. The bits
  determine the values by the specification of C03.
* **C111** What is to be read is one string, the pending bits and the bits of the bytes behind them; seen from the other order it is
  `Mixed.turned`. A read takes the front of the string in its own order (`picks`, `leaves`, on lists of anything), which commutes
  with `map` and loses nothing, so the permutation is what the reads make of the list of indices.
* **C112** From C109 and C111: the bits of the output are `lay` of the two groups and of the padding, the bits read are `picked` from
  them. Behind whole bytes and in front of whole bytes both have closed forms if the groups fill a byte; by induction any number of
  them do. The converse takes ones for the first group and zeros for the second: where the ones must be for the reader to
  find them leaves only n + m = 8, and Msb0 before a long Lsb0 group needs one more witness.
* **C113** As C112 for fields: a field with `bits` of less than a byte is one group (`writeUnsigned_moves`, which covers the accumulator
  path), read from the bits that C111 says; a field of whole bytes keeps the alignment. Induction over the header.
* **C114** The reader and writer of the derived struct are equal to the sequences of C113 (`intStruct_read`, `intStruct_write`, by
  induction on the fields), whose reading lemma holds with any whole bytes behind. For the converse every byte string of the right
  length is the image of some values (`HeadSlot.covers`), so that the first theorem applies to it.
  Shorter inputs are starts of such inputs, and C56 applies.
* **C115** The header is written to a byte boundary, and the tag left in the writer is that of its last field with `bits` (`steps_slots`,
  which gives the tag too); there the body is sound by C61 in Lsb0, whose fields may start with any tag, or in Msb0 if the tag is Msb0.
  Both parts are read by the bytes they wrote (`ReadsBytes`). The condition is needed: a witness where a 12 bit field changes.
  A list of headers is written as one longer header (C113), and read element by element, each by its own bytes
  (with `read_all` from a reader that may have a peeked byte, `reads_slots`).
  Behind a body the header is written from a writer with any tag (`head_follows`), so there is no condition.
* **C73** The functions of `Model/Derive.lean` that padding occurs in are given again with the padding code as a
  parameter. Simulation: readers with the same position, count and peeked byte stay so through every piece of code, or
  the one without `bits` runs out of data and the other has skipped beyond the end and stays there. Induction over
  definitions, then over sources: one without the attributes of the feature never makes a bit-sized context.

## Findings

Behaviour of the code that contradicts what one would expect, each with a theorem that shows it on a
concrete input (names as in `MANIFEST.json`).

Reader and writer:

1. I/O errors other than end-of-file are swallowed by the whole-byte loops of `read_bits_into`, by byte
   reads in mid-byte and by `end()`: the data is made up of zeros (`C08_…_swallows_error`).
2. `skip_bits` forgets a byte that `end()` has peeked at, succeeds beyond the end of the input, and
   sets `bits_read` to the absolute position of the stream (`C06_…`). On a stream that is not at its
   start, padding of a byte makes `from_reader` return a wrong number of bits, and lists limited by
   `bytes_read` or `bits_read` end too early (`C59_padding_…`).
3. A read of 0 bytes panics while a peeked byte is pending (`C04_zero_bytes_after_end_panics`), which a
   derived reader with an empty `Vec<u8>` inside a `read_all` list runs into
   (`C50_empty_bytes_in_read_all_panic`).
4. `to_bits` of Lsb0 output with pending bits is not a prefix of `to_bytes` in either reading of the bits
   (`C12_to_bits_lsb0`). A long Lsb0 write on a fresh writer comes out byte-reversed
   (`C11_long_lsb0_write_on_fresh_writer`).
5. Seeking a writer drops the pending bits; a failed seek of a reader does (`C51_…_loses_pending_bits`).
6. Padding, magic and whole-byte fields in the middle of an Lsb0 byte move bits and are not read back
   (`C25_counterexample`, `C39_magic_between_lsb0_fields_is_not_read_back`,
   `C41_padding_in_another_order_moves_bits`, `C26_counterexample`).
7. With `NoSeek`, `Vec<u8>` with a count, padding of a byte and offsets of a byte fail, though the
   format has no seek attribute (`C55_…_seeks`). After a failed `read_exact` the position is wrong
   (`C52_failed_read_exact_miscounts`).
8. A writer that is used after an error of the sink panics in debug builds, as the byte that could not
   be written is still pending (`C57_writing_on_after_an_error_panics`).

Integers:

9. Big endian Lsb0 bit fields of 9 bits up to one less than the type lose their middle bits
   (`C17_counterexample`, `C20_big_lsb0_loses_bits`); one that was read may be refused by the writer
   (`C49_lsb0_big_endian_is_rejected`).
10. Signed bit fields with a bit order are range-checked as unsigned (`C19_counterexample`). Signed
    fields of a whole number of bytes less than the type are not sign-extended
    (`C18_counterexample`, `C24_counterexample`).
11. `bytes = n` truncates values that do not fit (`C22_larger_values_truncated`); `u8` ignores the size
    (`C21_u8_ignores_size`, `C46_bytes_of_u8_are_not_used`).
12. Fields of 0 bits panic on some paths (`C20_zero_bits_panics`, `C50_zero_bits_panic`,
    `C57_zero_bits_panics`).

Collections:

13. Elements with `size_of::<T>() == 0` are never read, though they may have a magic or padding
    (`C27_…`, `C28_…`, `C29_…`, `C30_zero_sized_elements_are_not_read`).
14. A count from the input is passed to `Vec::with_capacity` unchecked and can panic or abort
    (`C27_large_count_panics`, `C50_large_count_panics`); size limits overflow when multiplied by 8
    (`C50_large_size_limit_panics`, `C50_large_byte_count_panics`).
15. `Vec<u8>` with a count ignores the bit order and is read as Lsb0: in the middle of an Msb0 byte it
    does not read the bytes written (`C35_fast_path_ignores_the_bit_order`,
    `C49_unaligned_bytes_are_mirrored`). It ignores `bits` and `bytes` too, which the writer does not
    (`C35_fast_path_ignores_the_size`, `C36_byte_list_with_bits_does_not_round_trip`). It panics beyond the end of the input
    (`C35_panics_after_skip_beyond_end`, `C50_bytes_beyond_the_end_panic`), so that a message received
    only in part panics where `Incomplete` is due (`C56_cut_in_padding_panics`).
16. `read_all` after leading padding of a byte loses a byte (`C30_leading_padding_loses_a_byte`);
    padding bits at the end can be read as further elements (`C30_padding_becomes_elements`).
17. Elements that seek back make the size computation underflow (`C50_elements_that_seek_back_panic`);
    elements of padding only never end (`C50_padding_elements_never_end`).

Derive:

18. The id stored in an `id_pat` variant is written with `id_endian` only: an enum with `endian` alone
    writes it in native order (`C38_counterexample_endian_only`, `C81_stored_ids_differ`). The first field of an `id_pat` variant
    is written like this also if the id comes from the context, when it is an ordinary field that is
    read with its own attributes (`C37_context_id_pattern_field_loses_its_attributes`,
    `C37_context_id_pattern_field_loses_its_size`).
19. `cond` is ignored on write (`C42_counterexample_cond_is_ignored_on_write`).
20. A `temp` field without `temp_value` is read but not written (`C49_temporary_field_is_lost`).
21. `update` expressions that refer to updated fields need another `update`
    (`C43_dependent_updates_need_another_update`).
22. `from_bytes` of an Lsb0 message that ends inside a byte returns a rest whose offset is then skipped
    in Msb0 order (`C44_lsb0_rest_is_read_again`).
23. `TryFrom` rejects what `to_bytes` produced if the message is not a whole number of bytes
    (`C45_partial_byte_is_rejected`).
24. `SIZE_BITS` counts fields that are skipped, does not count temporary ones, counts `bits` once on
    an array and believes `bytes` on `u8` (`C46_…`).
25. A `seek_*` expression out of range, which may depend on the value, panics
    (`C57_seek_out_of_range_panics`).
26. The writer's `bit_offset` does not count pending bits; the offset counts from the start of the input
    rather than of the message (`C47_…`).
27. `deku_id` of a value in the `default` variant is the id of that variant, not the one that was read
    (`C60_default_variant_reports_another_id`); with discriminants it fails
    (`C60_discriminant_is_not_reported`).
28. `until` together with `count`, `bytes_read` or `bits_read` is accepted and one of the two is silently
    ignored (`C67_until_is_ignored_with_count`, `C67_bits_read_is_ignored_with_until`); no other combination of
    limits is (`C67_what_is_ignored`).
29. `bytes` with `bit_order` and without `endian`, and `bits` or `bytes` on a `NonZero` type without
    `endian`, pass the checks of the macro and do not compile
    (`C71_accepted_by_the_macro_but_not_by_the_compiler`).
30. Without feature `bits` padding beyond the end of the data is an error, with it `from_reader` accepts it
    (`C73_padding_beyond_the_end`); elements with padding read with `read_all` come out differently
    (`C73_padding_after_a_peek`); every offset but 0 panics (`C73_offsets_panic_without_bits`); and `read_all` with
    another limit is not refused (`C73_conflicting_limits_accepted`).
31. A message in a `default` variant that has an `id` is written with that id, not the one that was read; negative
    numbers in `bits` with a `bit_order` are parsed and cannot be written; a field with `cond` and `default` is written
    where it was not parsed (`C77_these_are_parsed_and_not_written_again`).
32. An `i8` with `bits = 0` and `bit_order = "msb"` panics when written on a big endian machine and writes nothing on
    a little endian one (`C81_empty_signed_fields_differ`).
33. In a release build a size in bytes is multiplied by 8 modulo 2^64: a message that says `bytes_read` is `2^61 + 1`
    is accepted with one byte of contents. A debug build panics (`C83_size_wraps_around`; the same for maps
    and sets, `C83_map_size_wraps_around`).
34. In a release build the check that a `Vec<u8>` has enough input left before memory is allocated does nothing behind
    the end of the input, for the difference wraps around; the count of the message decides how much is allocated
    (`C83_positions_wrap_around`). Lists whose elements seek backwards are read in a release build and panic in a debug
    build.
35. After a sink has refused the pending byte, calling `finalize` again panics in a debug build and writes the byte in a
    release build (`C83_finalize_after_a_failure`).
36. A `Vec` of zero-sized elements is not read at all, whatever its `count`, but written
    (`C84_a_vec_of_zero_sized_elements_is_not_read`); an array of them is read.
37. A program that receives messages panics if what has arrived ends before a padding with a `Vec<u8>` with a `count`
    behind it (`C85_a_piece_that_ends_before_a_padding_panics`): the padding moves past the end without an error, and
    the size left is computed by a subtraction. The number in `Incomplete` is that of the bits that were asked for, not
    of those missing: waiting for as many deadlocks (`C85_incomplete_asks_for_more_than_is_missing`). A struct that is
    one list with `read_all` makes the usual loop endless (`C85_read_all_ends_with_the_piece`).
38. A list with `read_all` of elements that end within a byte is read back with other elements made of the bits that
    fill the last byte (`C86_elements_are_made_of_the_filling`). A field, a padding or a second list after one with
    `read_all` is accepted by the macro; no value with something there is read back (`C86_nothing_is_left_for_what_follows`).
39. `update()` of a struct does not update the structs in its fields, although they have `update` too: to_bytes after it
    writes stale inner counts (`C87_update_does_not_reach_what_is_inside`). A `temp_value` with `as` loses the high bits of a
    length without an error, where `update` fails (`C87_long_lists_have_wrong_temp_lengths`).
40. A list with a count whose elements read nothing (all fields skipped, say) can be made as long as the count allows by an
    input that has nothing but the count (`C88_elements_that_read_nothing_multiply`); only elements of size 0 are
    exempt. With a `u32` count, four bytes make four thousand million elements. If the elements have padding, each seeks
    beyond the end of the input, and the parser succeeds all the same (`C89_elements_that_read_nothing_call`).
41. Formats with seeks (`C91_…`): `seek_from_end` is relative to what has been written so far, so a trailer overwrites
    the body (`C91_seek_from_end_differs_while_writing`); an empty list behind a gap is written as nothing and refused
    when read (`C91_empty_list_behind_a_gap_is_not_read`); `to_slice` returns the number of bytes of the fields, not
    where the output ends, and leaves the old contents of the buffer in the gaps, where `to_bytes` has zeros
    (`C91_to_slice_counts_the_fields_and_keeps_the_gaps`).
42. Expressions are computed in the type of their operands (`C92_…`): `count = "len * 4"` with `len: u8` panics on
    the input 64 with overflow checks and silently reads no element without (`C92_a_product_overflows`);
    `count = "len - 4"` panics or asks for 255 elements (`C92_a_difference_underflows`); without overflow checks an
    `assert_eq` that does not hold can be accepted (`C92_writing_can_overflow`).
43. The example for `bytes_read` in the documentation has `update = "(self.items.len() / 2)"` where the size is twice
    the number of items. A value that was just parsed is changed by `update`, and is then written as something that
    is refused (`C43_documented_size_is_not_the_size`).
44. Nothing in the library calls `flush` (`src/writer.rs` has no such call, `finalize` included). With a `BufWriter`,
    writing and `finalize` succeed while the bytes are in its buffer, and are lost without an error if the device does
    not take them when it is dropped (`C94_success_does_not_mean_stored`). While reading, a stream that answers `Ok(0)`
    before its end is taken to have ended (`C93_a_pause_is_taken_for_the_end`), and a `BufReader` takes more from the
    stream under it than was read (`C93_a_buffer_reads_ahead`).
45. Names (`C95_…`). While writing, all fields are bound from the start: an attribute that mentions an argument of the
    context sees the field of the same name instead, though it comes later, where reading sees the argument
    (`C95_field_hides_the_argument_while_writing`). `deku::bit_offset` and `deku::byte_offset` in paddings and seeks do not
    compile, unless an earlier field mentions them elsewhere, and are then those of that field
    (`C95_offset_in_paddings_is_stale`). Mentioned in `count`, they are renewed while reading only, so a padding after the
    same field can have different lengths (`C95_offset_differs_between_reading_and_writing`).
46. Maps and sets (`C96_…`). With `until`, whether a map is read back depends on the hasher: the entry that satisfies the
    predicate has to come last (`C96_until_depends_on_the_hasher`). A message in which a key occurs twice is accepted, and
    the value that results is written with the count of the message, though it has fewer entries; what is written cannot be
    parsed (`C96_repeated_key_is_not_written_back`).
47. Recursive definitions (`C97_…`). There is no limit on the depth of nesting in the crate: it is up to the input, and for
    every stack there is an input with one byte per call that overflows it, which ends the process instead of returning an
    error (`C97_every_stack_can_be_exhausted`). If nothing is read before the type occurs again, as in `struct
    Loop(Box<Loop>)`, which the derive macro accepts, every input does (`C97_recursion_that_reads_nothing_never_ends`).
48. Discriminants (`C98_…`). `from_token` looks for the last integer name among the tokens of `id_type`
    (deku-derive/src/lib.rs:298-320), so a type such as `Pair<u8>` passes for `u8`, and the code of `DekuWrite` then reads
    as many bytes as that type has from a tag of one byte (`C98_unsafe_read_can_be_out_of_bounds`). An `id` takes precedence
    over a number on the same variant without a warning (`C98_id_hides_a_discriminant`). A unit variant with `id_pat` writes
    its number even if the pattern does not include it (`C98_pattern_variant_writes_another_id`), and a `default` variant
    writes its own number whatever id it was read from (`C98_default_variant_forgets_the_id`). An enum in which no number is
    written out is refused (`C98_implicit_numbers_alone_are_refused`), and inserting a variant in the middle renumbers those
    behind it (`C98_inserting_renumbers`). `DekuRead` accepts declarations that `DekuWrite` refuses
    (`C98_readable_but_not_writable`).
49. `update` of tuple structs (`C99_…`). `deku_derive` removes temporary fields from the struct, but `update` assigns to
    `self.N` with `N` counted as if they were there. If a temporary field comes before one with `update`, another field is
    overwritten, without an error if the types allow it, and the field itself is never assigned
    (`C99_a_field_is_never_updated`, `C99_update_of_a_tuple_struct_assigns_another_field`).
    If there is no such other field, the derived code does not compile (`C99_update_of_a_tuple_struct_may_not_compile`).
50. Names in attributes are replaced as text (`C100_…`). `deku::reader` and `deku::writer` are also modules of the crate,
    with `Reader` and `Writer` in them; in an attribute `deku::reader::Reader` becomes `__deku_reader::Reader`, which does
    not compile. `my_deku::reader` becomes `my___deku_reader`, and strings are changed (`C100_text_is_not_names`).
51. Attributes can be accepted and have no effect (`C101_what_has_no_effect` has the exact table). `temp_value` without `temp`,
    `default` with `skip(write)`, `update` with `temp`, and everything about the representation of a field that is skipped are
    not refused. `bits` and `bytes` of a `Vec<u8>` with `count` matter to writing only (see 15). All seeks on an enum are
    ignored, and of several on a struct all but one; on a field the macro refuses more than one (`C101_seeks_of_types`).
    `DekuRead` refuses attributes on the field that stores the id, except if `reader` is among them; `DekuWrite` ignores them
    (`C101_a_stored_id_with_a_reader`).
52. A payload that is read with `TryFrom` inside a `reader` function and handed on with `?` answers `Incomplete` when it is too
    short for its type, though all of its bytes are there. A program that waits for more on `Incomplete` then waits for ever, and
    one such message blocks all behind it (`C102_question_mark_waits_for_ever`). The error has to be translated. With a `u64` as
    the number, `exact.0 * 8` (src/impls/vec.rs:36) overflows for numbers from 2^61 on, so that nine bytes of input make a debug
    build panic (`C102_a_number_of_eight_bytes_panics`).
53. A protocol cannot be layered safely under a definition with fields between bytes or with `read_all`
    (`C104_fields_between_bytes_make_up_data`, `C104_read_all_makes_up_data`): a failed call of the lower layer becomes a zero
    byte of the message. With `read_all` an error that happens at the look for the end adds a byte in front of the rest.
    If the stream keeps failing (a connection that was reset), `#[deku(read_all)] data: Vec<u8>` never ends: every failed look
    for the end is one more element, until the memory is exhausted (`C104_read_all_never_ends`, for every stream that breaks
    down and every amount of memory).
54. `reader` on a variant is emitted as a statement, whose value is thrown away: what is documented (an expression, as on a field)
    does not compile (`C105_a_reader_with_a_value_does_not_compile`); only tokens that `return` do. `writer` on a variant replaces
    the write of the id as well, though the reader starts after the id (`C105_counterparts_do_not_round_trip`), and `deku_id`
    of a variant with a reader is an error, also if it has an `id`.
55. `#[deku(bits = "*len as usize")]` lets the sender choose the size. With an endianness, on the field or on the struct, `len = 0`
    makes the read panic (`C107_a_sender_can_make_it_panic`): in little endian `bits.len() - (8 - pad)` underflows
    (src/impls/primitive.rs:351), in big endian `assert!(index < self.size)` of `BoundedBitVec::insert` (src/lib.rs:981) fails,
    and this one also in release builds (`C107_a_release_build_panics_too`). Without an endianness, or in Lsb0, it is the value 0.
    A `u8` with a size in bytes, or without an endianness a size that is a multiple of 8 bits, is read as one byte whatever
    the size is, zero and 16 included; the writer refuses what was so read (`C107_a_byte_that_cannot_be_written`).
    For a signed type the sign depends on the size: -1 in seven bits of an `i16` comes back, in eight bits it comes back as 255,
    which cannot be written again (`C108_the_sign_depends_on_the_size`, every negative value and size). An endianness on the field
    avoids this, and then zero panics, also in Lsb0 (`C108_a_sender_can_make_it_panic`). So no combination of attributes is
    right for all sizes.
56. A write of no bits is not nothing: between the two halves of an Lsb0 byte, an empty Msb0 write or `write_bytes(&[])` makes the halves
    change places (`C109_an_empty_write_moves_bits`), because `write_bits_order` sets the bit order of the leftover also if there is
    nothing to write.
57. Next to each other, fields of different bit orders are written without loss but are read back only if they happen to fill a byte: an
    Lsb0 field of 4 bits with an Msb0 field of 2 bits behind it gives other values (`C110_but_are_not_read_back`), since the writer puts the
    new bits in front of the leftover and the reader takes the bits from the other end. And twelve bits Lsb0 big endian lose
    four bits of every value, whatever they are (`C110_bits_in_the_middle_are_lost`).
58. Two neighbouring groups of bits in different orders, the first less than a byte, come back for all values exactly if together they are
    one byte (`C112_nothing_else_comes_back`). Nothing in the documentation says so and nothing checks it.
59. The bit order of the last field of one struct changes what the next struct writes, across a byte boundary: behind an Lsb0 field a big
    endian Msb0 field of 12 bits is written low byte first and comes back as another value
    (`C115_a_body_behind_an_lsb_field_changes`). The writer keeps the tag Lsb0 at the boundary (src/writer.rs:165-234), and the next write takes its bytes from the end (src/writer.rs:237-287).
