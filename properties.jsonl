{"id": "C01", "title": "Msb0 bit reads walk the input MSB-first, however it is split", "statement": "Take any byte input and any sequence of Msb0 bit reads of arbitrary sizes. The reads return, in order, consecutive segments of the input's most-significant-bit-first bit sequence: concatenating what the reads returned gives exactly the prefix of that sequence of the summed length, `bits_read` equals that length, and `rest()` is the not yet consumed part of the byte the reader is in the middle of.", "quantifier": "all byte inputs, all starting alignments, all finite sequences of read sizes (including 0 and sizes far above 8)", "why_tests_cant": "a test fixes one input and one split; the leftover-byte bookkeeping has a case per (alignment, size) pair and errors appear only in particular sequences", "anchors": ["src/reader.rs: Reader::read_bits, read_bits_into, rest, bits_read"]}
{"id": "C02", "title": "Lsb0 bit reads walk the input LSB-first, however it is split", "statement": "Take any byte input and any sequence of Lsb0 bit reads. Read number k returns the k-th consecutive segment of the input's least-significant-bit-first bit sequence, presented with the last consumed bit first; `bits_read` equals the total number of bits returned. The split into reads does not matter.", "quantifier": "all byte inputs, all starting alignments reached by Lsb0 reads, all finite sequences of read sizes", "why_tests_cant": "as for C01; the Lsb0 path fills its buffer from the back and only mixed sizes across byte boundaries exercise it", "anchors": ["src/reader.rs: Reader::read_bits_into (Order::Lsb0)"]}
{"id": "C03", "title": "A bit read succeeds exactly when enough bits remain", "statement": "On an input stream that does not fail, a bit read of n bits (either order) returns Ok if and only if at least n unread bits remain; otherwise it returns Incomplete carrying n. It never panics and never fabricates bits.", "quantifier": "all inputs, alignments, orders and sizes n", "why_tests_cant": "the boundary is a relation between alignment, size and remaining length; tests sample few points of it", "anchors": ["src/reader.rs: Reader::read_bits, read_bits_into, read_bits_uint_msb0"]}
{"id": "C04", "title": "Byte reads agree with bit reads at every alignment", "statement": "Reading n whole bytes through any of the byte-reading entry points (slice, const array, const array into buffer) with order Msb0 returns the bytes whose bits are the next 8n bits of the stream, moves the reader by exactly 8n bits and fails with Incomplete exactly when fewer than 8n bits remain, whether the reader is aligned, mid-byte or holding a byte peeked by `end()`. With Lsb0 the same holds for the LSB-first stream.", "quantifier": "all inputs, all alignments including a peeked byte, all n, both orders, all three entry points", "why_tests_cant": "three separate code paths (plain, peeked byte, mid-byte) times three entry points; only a proof covers every alignment and length", "anchors": ["src/reader.rs: Reader::read_bytes, read_bytes_const, read_bytes_const_into, read_bytes_leftover"]}
{"id": "C05", "title": "end() is an observation", "statement": "On a stream that does not fail, `end()` returns true exactly when no unread bits remain, and calling it any number of times at any points of a sequence of bit and byte reads changes neither the values returned by those reads nor `bits_read`.", "quantifier": "all inputs, alignments and all interleavings of end() with bit reads and byte reads", "why_tests_cant": "end() mutates the reader (it buffers a byte); absence of interference over all interleavings is not testable", "anchors": ["src/reader.rs: Reader::end"]}
{"id": "C06", "title": "skip_bits(n) is the same as reading and discarding n bits", "statement": "If at least n bits remain, `skip_bits(n)` leaves the reader in a state from which every later read returns what it would have returned after reading and discarding n bits in the same order, with the same `bits_read`; if fewer remain it returns an error.", "quantifier": "all inputs, alignments, n, orders, including readers holding a peeked byte and readers over a source whose start position is not 0", "why_tests_cant": "skip_bits mixes bit reads with a byte seek on the inner stream; the two position counters can only be compared for all states by an invariant", "anchors": ["src/reader.rs: Reader::skip_bits, Seek for Reader"]}
{"id": "C07", "title": "Integer fast paths equal the generic bit path", "statement": "Reading an unsigned integer of any bit width from 1 to the width of its type, big endian and Msb0, returns the number whose binary digits are the next n bits of the stream, whatever the alignment, whatever the internal route (64-bit accumulator, full-width aligned bytes, or generic slices), and advances by n bits. Little endian gives the value obtained by taking the same bits as successive bytes, least significant byte first, the final partial byte being the low-order bits of the last byte.", "quantifier": "all inputs, alignments, widths and integer types (1..16 bytes), both endiannesses", "why_tests_cant": "routes are selected by size, alignment and endianness; agreement over the full product needs a proof", "anchors": ["src/impls/primitive.rs: ImplDekuReadBits", "src/reader.rs: read_bits_uint_msb0"]}
{"id": "C08", "title": "I/O errors of the source are reported", "statement": "If the underlying reader reports an error other than end-of-file during a read, the deku read returns DekuError::Io with that kind, and does not return Ok with made-up data.", "quantifier": "all inputs, all schedules of I/O faults of the underlying stream, all read entry points", "why_tests_cant": "needs quantification over fault schedules at every underlying read call", "anchors": ["src/reader.rs: read_bits_into, read_bits_uint_msb0, read_bytes*, end"]}
{"id": "C09", "title": "Only requested data is taken from the source", "statement": "A bit read that succeeds consumes from the underlying stream exactly the bytes needed to cover the requested bits: after any sequence of bit and byte reads fewer than 8 bits are buffered, and the stream position equals the start position plus the number of bits read rounded up to bytes.", "quantifier": "all inputs and all sequences of successful bit and byte reads (no end() in between)", "why_tests_cant": "over-reading is invisible to value-based tests and matters when the stream is shared", "anchors": ["src/reader.rs: Reader::read_bits_into, read_bits_uint_msb0, read_bytes"]}
{"id": "C10", "title": "Msb0 writes concatenate, however they are split", "statement": "Take any sequence of Msb0 bit writes, byte writes and integer bit writes on a fresh writer. The bytes in the sink followed by `rest()` are exactly the concatenation of the written bits in order; `bits_written` is the number of bits in the sink and fewer than 8 bits are pending. How the bits are split between calls does not matter.", "quantifier": "all sequences of writes with arbitrary contents and lengths", "why_tests_cant": "a case per (pending bits, size) pair; tests fix one split", "anchors": ["src/writer.rs: Writer::write_bits, write_bits_order, write_bytes, write_bits_uint_msb0, rest, bits_written"]}
{"id": "C11", "title": "Lsb0 writes concatenate LSB-first, however they are split", "statement": "Take any sequence of Lsb0 bit writes of at most 8 bits (the unit in which deku's integer writers issue them) on a fresh writer. Read LSB-first, the sink bytes followed by the pending bits are the concatenation of the written groups, each taken last bit first. For arbitrary lengths the same holds once the writer is in Lsb0 mode.", "quantifier": "all sequences of Lsb0 writes, all lengths and contents", "why_tests_cant": "as C10, with a second orientation of the pending bits", "anchors": ["src/writer.rs: Writer::write_bits_order, write_bits_order_lsb_lsb, write_bits_order_msb_lsb"]}
{"id": "C12", "title": "Finalisation pads with zeros and nothing else", "statement": "`finalize` appends between 0 and 7 zero bits so that the output is a whole number of bytes: after Msb0 writes the output is the bits written followed by zero bits, after Lsb0 writes the unused high bits of the last byte are zero. The number of bytes is ceil(bits/8), a second finalize changes nothing, and to_bits() is exactly the written bits while to_bytes() is to_bits() padded.", "quantifier": "all sequences of writes", "why_tests_cant": "quantifies over every alignment and history", "anchors": ["src/writer.rs: Writer::finalize", "src/lib.rs: DekuContainerWrite::to_bytes, to_bits"]}
{"id": "C13", "title": "to_slice agrees with to_bytes", "statement": "If the buffer is long enough, to_slice succeeds when to_bytes does, writes the same bytes at the start of the buffer, leaves the remaining bytes of the buffer unchanged and returns the number of bytes to_bytes produces; if the buffer is too short it returns an Io error and never writes outside of it.", "quantifier": "all values/write sequences and all buffers", "why_tests_cant": "needs all write sequences and buffer lengths", "anchors": ["src/lib.rs: DekuContainerWrite::to_slice", "src/writer.rs: Writer"]}
{"id": "C14", "title": "Write errors of the sink are reported", "statement": "If the sink reports an error on any write call made by deku, the deku write call in progress returns DekuError::Io with that kind; a write that returns Ok has delivered every completed byte.", "quantifier": "all write sequences and all schedules of sink faults", "why_tests_cant": "quantifies over fault schedules", "anchors": ["src/writer.rs: Writer::write_bits_order, write_bytes, write_bits_uint_msb0, finalize"]}
{"id": "C15", "title": "Unsigned bit fields round-trip (Msb0)", "statement": "For every unsigned integer type, endianness, width 1..=type width, value that the writer accepts, and bit alignment, writing the value as a bit field (order Msb0 or unspecified) and reading the result back at the same alignment with the same attributes returns the same value and consumes exactly the bits written.", "quantifier": "all unsigned types, endiannesses, widths, values, alignments", "why_tests_cant": "the product of types, widths, alignments and values is astronomically large; per-width code paths differ", "anchors": ["src/impls/primitive.rs: ImplDekuReadBits, ImplDekuWrite, ImplDekuWriteUnsignedBits, u8 impls", "src/reader.rs", "src/writer.rs"]}
{"id": "C16", "title": "Unsigned bit fields round-trip (Lsb0, little endian)", "statement": "The same round trip for order Lsb0 with little endian, for sequences of Lsb0 fields at any alignment.", "quantifier": "all unsigned types, widths, values, alignments", "why_tests_cant": "as C15", "anchors": ["src/impls/primitive.rs: ImplDekuReadBits (Lsb0), ImplDekuWrite (Lsb0)"]}
{"id": "C17", "title": "Unsigned bit fields round-trip (Lsb0, big endian)", "statement": "The same round trip for order Lsb0 with big endian.", "quantifier": "all unsigned types, widths, values, alignments", "why_tests_cant": "as C15; in particular widths between 9 bits and the full type width", "anchors": ["src/impls/primitive.rs: ImplDekuWrite (Endian::Big, Order::Lsb0)"]}
{"id": "C18", "title": "Signed bit fields: accepted range and round trip", "statement": "A signed integer bit field of width n (1..=type width) is accepted by the writer exactly when -2^(n-1) <= v < 2^(n-1), and reading it back sign-extends to the same value.", "quantifier": "all signed types, widths, endiannesses, values, alignments", "why_tests_cant": "two's complement boundary per width", "anchors": ["src/impls/primitive.rs: ImplDekuWriteSignedBits, ImplDekuReadSignExtend"]}
{"id": "C19", "title": "Signed bit fields with an explicit bit order round-trip", "statement": "The range and round-trip guarantee of C18 also holds when bit_order is given.", "quantifier": "all signed types, widths, endiannesses, orders, values", "why_tests_cant": "as C18", "anchors": ["src/impls/primitive.rs: ImplDekuWrite (Endian, BitSize, Order)"]}
{"id": "C20", "title": "An unsigned bit-field write is lossless or refused", "statement": "Writing an unsigned value v as a field of n bits returns Ok exactly when v < 2^n (and n does not exceed the type width); otherwise it returns InvalidParam and writes nothing. No value is ever silently truncated.", "quantifier": "all unsigned types, values, widths, endiannesses, orders, writer states", "why_tests_cant": "truncation shows only at exact boundaries per width, endianness and order", "anchors": ["src/impls/primitive.rs: ImplDekuWrite, ImplDekuWriteUnsignedBits, u8 DekuWriter"]}
{"id": "C21", "title": "Sizes beyond the type are refused without side effects", "statement": "Requesting a bit size or byte size larger than the integer type returns Parse when reading and InvalidParam when writing; the reader and writer are left untouched.", "quantifier": "all integer types, sizes, orders, endiannesses, reader/writer states", "why_tests_cant": "all states and sizes", "anchors": ["src/impls/primitive.rs: size checks"]}
{"id": "C22", "title": "Byte-sized integers follow their endianness and round-trip", "statement": "An unsigned integer field with `bytes = n` is encoded as the n least significant bytes, most significant first for big endian and least significant first for little endian; every value below 2^(8n) round-trips at any Msb0 alignment; larger values are refused.", "quantifier": "all types, n from 0 to the type's size, values, endiannesses, alignments", "why_tests_cant": "product of sizes, endianness and values", "anchors": ["src/impls/primitive.rs: ImplDekuReadBytes, ImplDekuWrite (Endian, ByteSize)"]}
{"id": "C23", "title": "Whole integers follow their endianness and round-trip", "statement": "Every integer (and float bit pattern) written with only an endianness is written as its type's bytes in that order and reads back as the same value at every Msb0 alignment.", "quantifier": "all types, all values, both endiannesses, all alignments", "why_tests_cant": "2^128 values and 8 alignments", "anchors": ["src/impls/primitive.rs: ForwardDekuRead, ImplDekuWriteOnlyEndian"]}
{"id": "C24", "title": "Signed byte-sized integers round-trip", "statement": "A signed integer that fits in n bytes, written with `bytes = n`, reads back as the same (possibly negative) value.", "quantifier": "all signed types, n, values", "why_tests_cant": "needs the negative sub-width values", "anchors": ["src/impls/primitive.rs: ImplDekuReadSignExtend (Endian, ByteSize)"]}
{"id": "C25", "title": "Byte fields after unaligned Lsb0 bit fields round-trip", "statement": "In a format that uses bit_order = lsb throughout, whole-byte fields following bit fields that end in mid-byte read back as written.", "quantifier": "all values, all alignments", "why_tests_cant": "alignment-dependent", "anchors": ["src/writer.rs: write_bytes", "src/reader.rs: read_bytes (Lsb0)"]}
{"id": "C26", "title": "Mixed bit orders round-trip", "statement": "A format may switch bit order between fields: whenever the fields written under one order fill whole bytes before the switch, every field reads back as written.", "quantifier": "all sequences of byte-aligned groups of Msb0 and Lsb0 fields", "why_tests_cant": "interaction of the pending-bits mode with the next field's order and size", "anchors": ["src/writer.rs: write_bits_order_lsb_msb, write_bits_order_msb_lsb", "src/reader.rs"]}
{"id": "C27", "title": "Vec with count reads exactly count elements", "statement": "Reading a Vec with a count returns exactly count elements, equal to what reading count elements one after the other returns, stops after the last element, and returns the first element error if one fails; writing a Vec writes its elements in order; so write-then-read with the length as count round-trips.", "quantifier": "all element codecs, counts, inputs", "why_tests_cant": "any element type and any length", "anchors": ["src/impls/vec.rs: reader_vec_with_predicate, Limit::Count", "deku-derive/src/macros/deku_read.rs: count"]}
{"id": "C28", "title": "Vec until stops at the first match", "statement": "Reading a Vec with a predicate returns the elements up to and including the first one satisfying the predicate, and no further element is read.", "quantifier": "all element codecs, predicates (including stateful ones), inputs", "why_tests_cant": "all predicates and inputs", "anchors": ["src/impls/vec.rs: reader_vec_with_predicate, Limit::Until"]}
{"id": "C29", "title": "Vec with a size limit consumes exactly that size", "statement": "Reading a Vec limited to n bits (or bytes) returns Ok only if the elements consume exactly n bits in total; it never returns Ok having consumed more or less.", "quantifier": "all element codecs, sizes, inputs", "why_tests_cant": "all element sizes", "anchors": ["src/impls/vec.rs: Limit::BitSize, Limit::ByteSize"]}
{"id": "C30", "title": "read_all consumes the whole input", "statement": "Reading a Vec with read_all returns Ok only when no unread bit remains, and the elements returned are those obtained by reading elements one after another; for elements whose round trip holds and which occupy at least one bit, write-then-read_all of a whole message round-trips.", "quantifier": "all element codecs and inputs", "why_tests_cant": "all inputs", "anchors": ["src/impls/vec.rs: reader_vec_to_end, Limit::End", "src/reader.rs: end"]}
{"id": "C31", "title": "Fixed arrays and tuples are their elements in order", "statement": "Reading [T; N] or a tuple equals reading its elements one after the other, failing with the first failing element's error; writing writes the elements in order; round trips compose.", "quantifier": "all element codecs, N, inputs", "why_tests_cant": "all element types", "anchors": ["src/impls/slice.rs", "src/impls/tuple.rs"]}
{"id": "C32", "title": "bool, NonZero and Option wrappers", "statement": "bool accepts exactly the encodings 0 and 1 (any other value is a Parse error) and round-trips; NonZero types reject exactly 0 and round-trip; Option reads as Some of the inner value and writes nothing for None.", "quantifier": "all inputs, contexts (sizes, endianness, order) and values", "why_tests_cant": "all inner contexts", "anchors": ["src/impls/bool.rs", "src/impls/nonzero.rs", "src/impls/option.rs"]}
{"id": "C33", "title": "CString consumes through its first NUL and round-trips", "statement": "Reading a CString without a size consumes exactly the bytes up to and including the first 0 and yields those bytes; every CString round-trips, followed by arbitrary data; with a byte size n it succeeds exactly when the n bytes contain a single NUL, in last position.", "quantifier": "all inputs and strings at every Msb0 alignment", "why_tests_cant": "all strings", "anchors": ["src/impls/cstring.rs"]}
{"id": "C34", "title": "HashMap and HashSet round-trip as collections", "statement": "Writing a HashMap or HashSet in any iteration order and reading it back with its length as count yields an equal collection; reading count entries never yields more than count entries, and for duplicate keys the last one wins.", "quantifier": "all collections, all iteration orders, all inputs", "why_tests_cant": "iteration order is randomised per process", "anchors": ["src/impls/hashmap.rs", "src/impls/hashset.rs"]}
{"id": "C35", "title": "The Vec<u8> fast path is indistinguishable from the element path", "statement": "A Vec<u8> field with a count reads the same bytes, leaves the reader in the same place and fails in the same cases as reading that many u8 elements one by one.", "quantifier": "all inputs, alignments and counts", "why_tests_cant": "the fast path goes through seek and a bulk read; equality needs all alignments", "anchors": ["src/impls/vec.rs: DekuReader<ReadExact> for Vec<u8>", "deku-derive/src/macros/deku_read.rs: is_vec_u8 count specialisation"]}
{"id": "C36", "title": "Derived structs round-trip", "statement": "For every derived struct whose fields individually round-trip (one bit order, any alignment, magic, padding, nested structs, lists with counts, conditionals with a matching skip or optional value), from_bytes(to_bytes(v)) returns v for every v consistent with the definition (lists as long as their counts say) that to_bytes accepts, and any bytes appended after the message are returned as the rest.", "quantifier": "all struct definitions of the modelled attribute language, all values, all trailing data", "why_tests_cant": "quantifies over all user-defined formats", "anchors": ["deku-derive/src/macros/deku_read.rs: emit_struct, emit_field_read", "deku-derive/src/macros/deku_write.rs: emit_struct, emit_field_write"]}
{"id": "C37", "title": "Derived enums dispatch on their id and round-trip", "statement": "Reading a derived enum selects the first variant in source order whose id matches the value read (the default or catch-all variant when none does, otherwise a Parse error), writing emits that id, and every value round-trips if its variant's fields do and its id is not claimed by an earlier variant.", "quantifier": "all enum definitions of the modelled language, ids, inputs", "why_tests_cant": "quantifies over all definitions and ids", "anchors": ["deku-derive/src/macros/deku_read.rs: emit_enum", "deku-derive/src/macros/deku_write.rs: emit_enum"]}
{"id": "C38", "title": "Catch-all variants that store their id round-trip", "statement": "An enum variant with id_pat that stores the id in its first field writes back the same id it read, under the enum's endianness.", "quantifier": "all ids, endiannesses and id sizes", "why_tests_cant": "endianness default differs per attribute combination", "anchors": ["deku-derive/src/macros/deku_read.rs: id_pat", "deku-derive/src/macros/deku_write.rs: emit_field_write (id_pat storage)"]}
{"id": "C39", "title": "Magic is exact", "statement": "A type or field with magic reads successfully only from an input that continues with exactly the magic bytes, otherwise it fails with Parse (or Incomplete when the input is too short and matches so far); writing always emits the magic.", "quantifier": "all magics, inputs and alignments", "why_tests_cant": "all inputs", "anchors": ["deku-derive/src/macros/deku_read.rs: emit_magic_read", "deku-derive/src/macros/deku_write.rs: emit_magic_write"]}
{"id": "C40", "title": "assert and assert_eq guard both directions", "statement": "No value violating a field's assert/assert_eq is ever returned by a read or emitted by a write: both fail with Assertion at that field, before any later field is read or written.", "quantifier": "all assertions, inputs and values", "why_tests_cant": "all inputs", "anchors": ["deku-derive/src/macros/deku_read.rs: assert", "deku-derive/src/macros/deku_write.rs: assert"]}
{"id": "C41", "title": "Padding is ignored on read and zero on write", "statement": "pad_bits/bytes_before/after of n bits writes exactly n zero bits and reading skips exactly n bits whatever their content; the field value does not depend on them.", "quantifier": "all n, alignments and padding contents", "why_tests_cant": "all pad sizes and contents", "anchors": ["deku-derive/src/macros/deku_read.rs: emit_padding", "deku-derive/src/macros/deku_write.rs: emit_padding"]}
{"id": "C42", "title": "Conditional fields are symmetric", "statement": "A field with cond whose condition is false is neither read nor written, and takes its default on read; when the condition is true it behaves as an ordinary field; so structs with conditional fields round-trip.", "quantifier": "all conditions, field types and values", "why_tests_cant": "skip/cond combinations", "anchors": ["deku-derive/src/macros/deku_read.rs: emit_field_read skip/cond matrix", "deku-derive/src/macros/deku_write.rs: emit_field_write skip/cond matrix"]}
{"id": "C43", "title": "update makes length fields consistent", "statement": "After update() succeeds on a struct whose count field has update = \"list.len()\", to_bytes then from_bytes returns the updated value; update fails, rather than truncating, when the length does not fit the count field's type, and it is idempotent.", "quantifier": "all field values, list lengths and count types", "why_tests_cant": "lengths beyond the count type's range", "anchors": ["deku-derive/src/macros/deku_write.rs: emit_field_updates", "src/lib.rs: DekuUpdate"]}
{"id": "C44", "title": "from_bytes chains", "statement": "from_bytes((data, off)) reports as rest exactly the unconsumed input: parsing a concatenation of messages by feeding the returned (rest, offset) into the next call is equivalent to one pass over the bit stream, and the consumed amount plus the rest is the whole input.", "quantifier": "all inputs, offsets and sequences of types", "why_tests_cant": "all bit offsets", "anchors": ["deku-derive/src/macros/deku_read.rs: from_bytes body", "src/lib.rs: DekuContainerRead::from_bytes"]}
{"id": "C45", "title": "TryFrom accepts exactly one complete message", "statement": "TryFrom<&[u8]> succeeds only when the message consumes the input, reports an error if data is left over, and accepts the output of to_bytes.", "quantifier": "all types and inputs", "why_tests_cant": "messages whose size is not a multiple of 8 bits", "anchors": ["deku-derive/src/macros/deku_read.rs: emit_try_from"]}
{"id": "C46", "title": "DekuSize matches what is written and read", "statement": "For every fixed-size derived type, SIZE_BITS equals the number of bits written by any successful write and consumed by any successful read (for enums: is an upper bound, attained by the largest variant).", "quantifier": "all fixed-size definitions of the modelled language and all values", "why_tests_cant": "all type definitions", "anchors": ["deku-derive/src/macros/deku_size.rs: calculate_*", "src/lib.rs: DekuSize"]}
{"id": "C47", "title": "bit_offset and byte_offset tell the position", "statement": "The deku::bit_offset visible to attribute expressions during reading is the number of bits of the message consumed before the field, and during writing the number of bits of the message produced before the field; both sides agree on the same message.", "quantifier": "all formats and alignments", "why_tests_cant": "mid-byte offsets", "anchors": ["deku-derive/src/macros/deku_read.rs: bit_offset", "deku-derive/src/macros/deku_write.rs: bit_offset"]}
{"id": "C48", "title": "Parsing depends only on the bits it consumes", "statement": "If parsing succeeds on an input having consumed n bits, it succeeds with the same value and the same consumption on every other input that agrees on those n bits (whatever follows), for formats without read_all and without seeks.", "quantifier": "all formats of the modelled language, all inputs and continuations", "why_tests_cant": "quantifies over all continuations", "anchors": ["deku-derive/src/macros/deku_read.rs", "src/reader.rs"]}
{"id": "C49", "title": "A successful parse re-serialises to the same bits", "statement": "For formats in which every bit of the message is represented in the value (no padding, no skipped data), if parsing consumes n bits and yields v, then writing v yields exactly those n bits.", "quantifier": "all such formats, inputs and alignments", "why_tests_cant": "the converse of round-trip: needs all inputs", "anchors": ["deku-derive/src/macros/deku_read.rs", "deku-derive/src/macros/deku_write.rs", "src/impls/primitive.rs"]}
{"id": "C50", "title": "Parsing untrusted input never panics", "statement": "For every format of the modelled language with nonzero bit sizes, every byte input and every offset, from_bytes returns Ok or Err; it never panics.", "quantifier": "all formats and inputs", "why_tests_cant": "all inputs; panics hide in rare size/alignment combinations", "anchors": ["src/reader.rs", "src/impls/primitive.rs", "src/impls/vec.rs", "deku-derive/src/macros/deku_read.rs"]}
{"id": "C51", "title": "Seeking repositions exactly", "statement": "After a successful seek to absolute position p, reads return the data at p and bits_read is 8p; a successful writer seek leaves every bit written before it in the output.", "quantifier": "all inputs, positions, reader/writer states", "why_tests_cant": "buffered bits at the time of the seek", "anchors": ["src/reader.rs: Seek for Reader", "src/writer.rs: Seek for Writer"]}
{"id": "C52", "title": "NeedSize and NoSeek", "statement": "NeedSize(b).byte_size() is the least number of bytes holding b bits. A NoSeek stream reports as position the number of bytes transferred, and a seek succeeds only if it does not move.", "quantifier": "all sizes; all histories of reads, writes and seeks", "why_tests_cant": "all histories", "anchors": ["src/error.rs: NeedSize", "src/noseek.rs: NoSeek"]}
{"id": "C53", "title": "An Incomplete error tells enough to retry", "statement": "When a read of n bits fails with Incomplete(k) because m bits remain, k >= n - m: supplying k more bits is enough to satisfy that read.", "quantifier": "all inputs, alignments, sizes, read entry points", "why_tests_cant": "all alignments including a peeked byte", "anchors": ["src/error.rs: NeedSize", "src/reader.rs"]}
{"id": "C54", "title": "skip leaves out exactly the directions it names", "statement": "A field with skip, skip(read) or skip(write) is left out of exactly the named directions, and with a cond exactly when the condition holds: left out of reading it consumes nothing and takes its default, left out of writing it emits nothing; otherwise it is read and written as if it had neither attribute.", "quantifier": "all skip modes, conditions, default values, other attributes, field types, reader and writer states", "why_tests_cant": "The two match tables over skip and cond are separate in the read and the write code; tests fix one type and one condition per cell, while the claim is about every field type, value and state.", "anchors": ["deku-derive/src/macros/deku_read.rs: emit_field_read", "deku-derive/src/macros/deku_write.rs: emit_field_write", "deku-derive/src/lib.rs: SkipMode"]}
{"id": "C55", "title": "Formats without seek attributes work on streams that cannot seek", "statement": "A definition without seek_* attributes reads from a source wrapped in NoSeek with the same result as from the source itself, and writes the same bytes to a sink wrapped in NoSeek as to the sink itself.", "quantifier": "all definitions without seek_* attributes, all contexts, input streams, offsets, fault schedules, values, sinks and their capacities", "why_tests_cant": "Whether some function under a derived reader seeks depends on the types, attributes and alignment involved; the repository tests NoSeek with one struct of two bytes.", "anchors": ["src/noseek.rs", "src/reader.rs: skip_bits", "src/impls/vec.rs: ReadExact", "deku-derive/src/macros/deku_read.rs: emit_padding"]}
{"id": "C56", "title": "Input that is cut off is reported as incomplete", "statement": "For a definition without seeks and read_all, parsing a part of an input from its start either reports Incomplete or gives exactly what parsing the whole input gives (the same value with the missing bytes missing from the rest, or the same error); and it is Incomplete whenever a bit that the whole parse consumes is missing. TryFrom of any proper part of an accepted input reports Incomplete.", "quantifier": "all definitions without seeks and read_all, all contexts, offsets, inputs and places where the input is cut", "why_tests_cant": "Applications that receive a message in pieces rely on it at every cut of every message of every format; the tests cut a few messages in one place.", "anchors": ["src/reader.rs: read_bits_into, read_bytes, read_bytes_const", "src/impls/vec.rs: ReadExact", "deku-derive/src/macros/deku_read.rs: from_bytes, TryFrom"]}
{"id": "C57", "title": "Serialising does not panic", "statement": "Writing a value of a definition without 0-bit fields and out-of-range seek expressions returns: to_writer, to_bytes, to_slice and to_bits give output or an error, never a panic, whatever the sink does and whether or not the values fit their sizes. So does any sequence of write_bits_order and write_bytes calls up to the first error.", "quantifier": "all definitions and values of their types, all contexts, all integer sizes except 0 bits, all sequences of calls, all sinks, capacities, fault schedules and states of the writer with less than a byte pending", "why_tests_cant": "The writer has assertions on its pending bits in each of the four combinations of bit orders, and slice operations whose bounds depend on their lengths; a test fixes one alignment and one sink.", "anchors": ["src/writer.rs: write_bits_order_*, finalize", "src/impls/primitive.rs: DekuWriter impls", "deku-derive/src/macros/deku_write.rs", "src/lib.rs: BoundedBitVec::extend_from_bitslice"]}
{"id": "C58", "title": "Only the pending bits of the leftover storage are observable", "statement": "The reader and writer keep pending bits in a byte of storage with a length, of which Lsb0 reads, seeks and integer writes leave stale bits behind. No sequence of calls can tell: answers, errors, panics and the bytes that reach the sink are those of a reader and writer that hold exactly the pending bits, and the u64/u128 shifts of the integer fast paths never lose or add a bit.", "quantifier": "all sequences of read_bits, read_bits_uint_msb0, read_bytes, skip_bits, seek, end, rest and of write_bits_order, write_bits_uint_msb0, write_bytes, finalize, seek, rest calls, also after errors, in all bit orders, on all sources and sinks with all fault schedules, from any storage contents", "why_tests_cant": "Stale bits only show after particular sequences of reads in both orders at particular alignments, and a wrong mask or shift only for particular widths and pending counts.", "anchors": ["src/lib.rs: BoundedBitVec", "src/reader.rs: read_bits_into, read_bits_uint_msb0", "src/writer.rs: write_bits_uint_msb0"]}
{"id": "C59", "title": "Messages follow each other on one stream", "statement": "from_reader on a stream that has been read from before gives what it gives on a stream that starts there: the same value, error and number of bits read. It leaves the stream right behind the last byte it used, so that calling it again reads the next message. to_writer and finalize write where the sink stands and leave what comes before alone. Messages of any types written to one sink in turn are read from it in turn.", "quantifier": "all definitions without seek attributes and padding of a byte or more, all contexts, all earlier contents and calls, all sources and sinks with all capacities and fault schedules; all sequences of messages that individually round-trip, also of a fractional number of bytes, and all trailing data", "why_tests_cant": "Tests read from cursors at their start. Several code paths seek the stream or compare absolute with relative positions, which shows only behind other data.", "anchors": ["deku-derive/src/macros/deku_read.rs: from_reader", "src/reader.rs: Reader::new, skip_bits, seek", "src/impls/vec.rs: DekuReader<ReadExact>", "src/writer.rs: Writer::new, finalize"]}
{"id": "C60", "title": "deku_id agrees with the id on the wire", "statement": "deku_id returns, without panicking, the id of the variant or IdVariantNotFound, the latter exactly for variants without an id attribute. The id returned is the one a write puts between the magic and the fields, and for a value that was read it is the id that was read (or that the context supplied). If no id is claimed by an earlier variant, deku_id identifies the variant.", "quantifier": "all enum definitions of the modelled language, all values, all readers and writers and contexts, ids of any type", "why_tests_cant": "reading, writing and deku_id are three separately generated matches over the variants; agreement is for all definitions, ids and inputs", "anchors": ["deku-derive/src/macros/deku_read.rs: emit_enum (deku_ids, DekuEnumExt)", "src/lib.rs: DekuEnumExt"]}
{"id": "C61", "title": "Definitions that pass a computable check round-trip", "statement": "There is a check on definitions (all sizes possible, one bit order, bytes and paddings where both directions treat them alike) and a check on values (counts match, conditions match, ids select their variant, leaves come back) such that every value that passes is accepted by to_bytes, has the size in bits that a function of definition and value computes, and is returned by from_bytes, whatever comes after; the rest starts at the first bit not used.", "quantifier": "all definitions of the core language (integers of all sizes and signs with all contexts, bool, NonZero, CString, (), Option, arrays, tuples, Vec with all limits but read_all, counted bytes, structs and enums with magic, padding, skip, cond, default, assert_eq, temp, id, id_pat, default variants, context arguments; nested), all values and contexts, both bit orders, all trailing data", "why_tests_cant": "a test covers one definition and a few values; nothing is assumed of the parts here and definitions nest without bound", "anchors": ["deku-derive/src/macros/deku_read.rs", "deku-derive/src/macros/deku_write.rs", "src/impls", "src/lib.rs: from_bytes, to_bytes"]}
{"id": "C62", "title": "to_bytes fails exactly for values that do not fit, and never panics", "statement": "For a value of the type, to_bytes returns exactly the error computed by a small function: the first bit field (in the order of writing) whose value does not fit gives InvalidParam, the first assert_eq that does not hold gives Assertion; if there is none, it succeeds with as many bytes as the size function computes. No way of serialising a value of the type panics, on any sink.", "quantifier": "all definitions of the core language, all values of their types (also inconsistent ones), all contexts; sinks with all capacities and fault schedules", "why_tests_cant": "absence of panics and exactness of refusal are claims about all values of all definitions", "anchors": ["deku-derive/src/macros/deku_write.rs: emit_field_write, emit_enum", "src/impls/primitive.rs: DekuWriter", "src/lib.rs: to_bytes, to_bits, to_slice"]}
{"id": "C63", "title": "Values that were parsed are values of the type", "statement": "If a read succeeds, the value is one of the type: integers are in the range of the type, NonZero values are not zero, a CString has no NUL, arrays have their length, a variant has the fields of that variant, an Option made by cond is None or holds a value. So what was parsed can always be serialised again without a panic, with the size or the error that the functions of C62 compute.", "quantifier": "all definitions of the core language whose defaults have the type of their field, all contexts, all reader states, sources with all contents, lengths and fault schedules, all offsets", "why_tests_cant": "the integers are put together from bits in many branches and some branches use a different width; a value out of range would need a source that ends or fails at a particular place", "anchors": ["src/impls/primitive.rs: DekuReader", "src/impls/nonzero.rs", "src/impls/cstring.rs", "deku-derive/src/macros/deku_read.rs"]}
{"id": "C64", "title": "Definitions that pass a computable check parse every input without a panic", "statement": "There is a function on definitions that keeps track of what may have happened to the reader and of the largest number each expression can have. If it accepts a definition, then no input makes from_bytes, from_reader or TryFrom panic, and what was parsed can be serialised without a panic.", "quantifier": "all definitions of the core language, all inputs on a machine that can hold one element per bit of the input, all offsets (beyond the end if the definition is safe there), all contexts within the bounds given", "why_tests_cant": "absence of panics is a claim about all inputs; counts and sizes come from the input itself", "anchors": ["src/impls/vec.rs", "src/reader.rs", "deku-derive/src/macros/deku_read.rs", "src/lib.rs: from_bytes, from_reader"]}
{"id": "C65", "title": "The unsafe array reader is memory-safe", "statement": "Reading [T; N] never drops or moves out a slot that is not initialised and never reads the array before all N slots are initialised, whatever the reader of T does. On success all N elements are handed to the caller and none is dropped; on an error exactly the elements read so far are dropped, once each. The result and the state of the reader are those of reading the elements one after the other.", "quantifier": "all element readers (any results, errors and panics, depending on the state), all N, all reader states", "why_tests_cant": "Undefined behaviour need not show in a test, and which slots are initialised when an element fails depends on the position of the failure.", "anchors": ["src/impls/slice.rs:10-46"]}
{"id": "C66", "title": "What was parsed satisfies what the definition states", "statement": "Every value that a read succeeds with satisfies the relations its definition states: a list has as many elements as its count says, a list with until ends at its first element equal to the number given, an optional field is there exactly where its condition is true and has its default value elsewhere, a field with assert_eq has the value asserted, a variant is the one for the id, the first field of a catch-all variant is the id, and all of this with respect to the fields before and the arguments of the context.", "quantifier": "all definitions of the core language, all inputs, sources with any faults, all reader states, contexts and offsets", "why_tests_cant": "A test compares single inputs with expected values; that no input at all yields an inconsistent value is a statement about all inputs and all nestings of attributes.", "anchors": ["deku-derive/src/macros/deku_read.rs:652-1011", "src/impls/vec.rs:52-176", "deku-derive/src/macros/deku_read.rs:303-377"]}
{"id": "C67", "title": "Every limit written on a list is kept or rejected", "statement": "If a field of type Vec has limit attributes (count, bytes_read, bits_read, until, read_all) and the derive macro accepts them, then every value that is parsed keeps all of them: no limit that was written is silently ignored.", "quantifier": "all combinations of limit attributes, all structs of the source language, all inputs, reader states and contexts", "why_tests_cant": "A compile-fail test covers one combination; that no combination accepted by validate drops a limit needs all combinations, and that the list keeps the limit needs all inputs.", "anchors": ["deku-derive/src/lib.rs:821-893", "deku-derive/src/macros/deku_read.rs:817-918", "src/impls/vec.rs:112-176"]}
{"id": "C68", "title": "Attributes of a type mean the same as on each of its fields", "statement": "endian and bit_order on a struct or an enum have exactly the effect of writing them on each field that does not have its own, and endian on an enum that of id_endian: moving an attribute from the type to its fields changes neither whether the definition compiles nor what is read and written.", "quantifier": "all sources (all nestings of types, contexts, ctx_default and attributes)", "why_tests_cant": "A refactoring law over all definitions: tests compare single definitions on single inputs.", "anchors": ["deku-derive/src/macros/deku_read.rs:662-663", "deku-derive/src/macros/deku_write.rs:612-642", "deku-derive/src/macros/mod.rs:252-321"]}
{"id": "C69", "title": "Definitions in whole bytes round-trip and serialise without exception", "statement": "A definition that uses no bits, pad_bits_* and bit_order attribute (and gives an enum that stores its id an id_endian if it has an endian) is safe whatever else it consists of: if it compiles and its sizes are possible, from_bytes of to_bytes returns every consistent value with exactly the rest that was appended, and without assertions to_bytes succeeds for every value of the type.", "quantifier": "all sources, all machines (endianness, memory), all values of the type, all contexts, all bytes appended", "why_tests_cant": "The claim is about every definition a user can write with these attributes, not about a given one.", "anchors": ["deku-derive/src/macros/mod.rs:252-395", "deku-derive/src/macros/deku_read.rs:652-1011", "deku-derive/src/macros/deku_write.rs:604-880", "src/impls/primitive.rs:384-785"]}
{"id": "C70", "title": "Bit fields in the default bit order round-trip at any alignment", "statement": "A definition that names no bit order, with sizes and paddings in bits and fields of any type starting at any bit, round-trips every consistent value that is not refused, and the rest and offset returned are where the message ends.", "quantifier": "all sources without bit_order, all values of the type, all contexts, all bytes appended", "why_tests_cant": "Alignments depend on values (lists, options, variants); all of them over all definitions cannot be tried.", "anchors": ["deku-derive/src/macros/mod.rs:252-395", "src/reader.rs:300-560", "src/writer.rs:60-330", "src/impls/vec.rs:13-50"]}
{"id": "C71", "title": "Attributes on an integer mean what they say", "statement": "On an integer field, every combination of endian, bits, bytes and bit_order that compiles selects exactly the encoding it names: the endianness given or that of the machine, the size given in bits or bytes or that of the type, the bit order given or Msb0. Which combinations compile is known.", "quantifier": "all combinations of the four attributes, all sizes, all type widths, all values that fit, all data that starts with the encoding", "why_tests_cant": "Each combination selects a different trait implementation with its own code path; all values and sizes of each cannot be tried.", "anchors": ["deku-derive/src/macros/mod.rs:252-395", "src/impls/primitive.rs:384-785", "src/impls/nonzero.rs:39-60"]}
{"id": "C72", "title": "The wire format is what the source describes", "statement": "The bytes of a value can be read off the attributes of its definition: magic bytes, zeros for paddings, and the fields one after the other in the endianness and size that they are given or inherit, ids before the fields of a variant, filled up with zeros to whole bytes. to_bytes writes exactly that, from_bytes reads exactly that, and no description is the beginning of another.", "quantifier": "all sources without bit_order = lsb, all machines, all values, all contexts, all data that starts with the description", "why_tests_cant": "The claim relates every definition a user can write to every value of it.", "anchors": ["deku-derive/src/macros/mod.rs:252-395", "deku-derive/src/macros/deku_write.rs:32-880", "deku-derive/src/macros/deku_read.rs:33-1011", "src/writer.rs:60-330", "src/impls/primitive.rs:384-785"]}
{"id": "C73", "title": "Switching feature bits off changes nothing for definitions in bytes", "statement": "A definition that uses none of the attributes that come with feature bits is written to the same bytes, parsed to the same values with the same rest, and accepted by the macros in the same way, whether the feature is on or off.", "quantifier": "all sources without bits attributes, all machines, all contexts, all values, all data", "why_tests_cant": "Two configurations of the crate have to be compared on every definition and every input; a test runs in one of them.", "anchors": ["deku-derive/src/macros/deku_read.rs:600-650", "deku-derive/src/macros/deku_write.rs:560-602", "deku-derive/src/lib.rs:820-893", "src/reader.rs:205-217", "src/writer.rs:371-413"]}
{"id": "C74", "title": "The wire format in either bit order", "statement": "In Lsb0 as in Msb0 the bytes of a value can be read off the attributes of its definition: the pieces of C72 one after the other, each with its bits in this order, bits filling bytes from the low or the high end. to_bytes writes exactly that, from_bytes reads exactly that, and no description is the beginning of another.", "quantifier": "both bit orders, all sources in one bit order, all machines, all values, all contexts, all data that start with a description", "why_tests_cant": "Definitions, values, positions within a byte and data are unbounded, and an implementation that agrees with itself passes a round trip while writing another format.", "anchors": ["src/writer.rs:150-370", "src/reader.rs:260-420", "src/impls/primitive.rs:150-620", "deku-derive/src/macros/deku_write.rs:480-620"]}
{"id": "C75", "title": "A value that fits its attributes is written and comes back", "statement": "Which values a definition describes can be told from its attributes: numbers in the range of their size, lists as long as their count or limit says, skipped and unread fields with their default, variants selected by their id. Every such value whose byte-sized parts begin at bytes is written without error as the format of C74 says, is parsed from any data that starts with it, and no two such values share an encoding or begin one another.", "quantifier": "both bit orders, all sources in one bit order, all machines, all contexts, all values, all data that follow", "why_tests_cant": "Definitions and values are unbounded and interact through counts, conditions and ids; tests sample a few of each and take the writer's success for granted.", "anchors": ["deku-derive/src/macros/deku_read.rs:1-1000", "deku-derive/src/macros/deku_write.rs:1-760", "src/impls/primitive.rs:150-620", "src/impls/vec.rs:1-260", "src/attributes.rs"]}
{"id": "C76", "title": "An input is parsed exactly if the attributes say that it is a value", "statement": "What a definition accepts can be told from its attributes: a parser of bit strings made from them alone says for an input which value it starts with and how many bits are left, or that there is none. from_bytes gives exactly this value and this rest, and fails where there is none; TryFrom gives the values of inputs of which nothing is left. Where the two bit orders both say something they say the same, and a static check tells the definitions of which something is said on every input.", "quantifier": "both bit orders, all sources, all machines, all inputs, all offsets", "why_tests_cant": "Tests feed a few well-formed messages; that malformed, truncated, misaligned or surprising inputs are refused or parsed as the attributes say is a statement about every byte string and every definition.", "anchors": ["deku-derive/src/macros/deku_read.rs:1-1000", "src/reader.rs:80-700", "src/impls/primitive.rs:150-620", "src/impls/vec.rs:1-260", "src/impls/cstring.rs"]}
{"id": "C77", "title": "What is parsed is written again as it was", "statement": "Whether all that a definition accepts can be written again can be told from its attributes: signs are kept, lists have a length, unread fields are not written, default variants store their id. For such a definition every value that from_bytes gives is one that the definition describes, to_bytes accepts it, and the result is parsed as the same value whatever follows. If the definition has no paddings, to_bytes gives exactly the bits that were parsed: from_bytes followed by to_bytes is the identity on the bytes consumed, TryFrom maps different inputs to different values, and it accepts exactly the descriptions of the described values.", "quantifier": "both bit orders, all sources that pass the static check, all machines, all inputs", "why_tests_cant": "Tests re-encode a handful of decoded messages; that decoding and encoding reproduces every accepted byte string, for every definition, cannot be sampled.", "anchors": ["deku-derive/src/macros/deku_read.rs:1-1000", "deku-derive/src/macros/deku_write.rs:1-900", "src/impls/primitive.rs:150-1100", "src/impls/vec.rs:1-330", "src/impls/cstring.rs"]}
{"id": "C78", "title": "map is applied to what was read, and its errors are reported as they are", "statement": "A field with map holds the result of the function on the value that its type reads: the same bits are used and the stream stands in the same place. If the function fails then reading fails with exactly its error, whatever the other attributes are. Fields that are not read keep their default, to which the function is not applied; writing does not undo it.", "quantifier": "all types, all functions, all streams and fault schedules, all offsets", "why_tests_cant": "The function is arbitrary code of the user and can fail on any value; tests try one function that succeeds.", "anchors": ["deku-derive/src/macros/deku_read.rs:726-734", "deku-derive/src/macros/deku_read.rs:941-988"]}
{"id": "C79", "title": "The error says what is wrong with the input", "statement": "If an input is not what a definition describes, the first thing that is wrong with it can be told from the attributes: bits are missing, magic bytes, an id, a bool, a NonZero, a CString or a size are not what they have to be, an assert_eq does not hold, a padding or a list is too large. from_bytes, from_reader and TryFrom report exactly the kind of error that belongs to it (Incomplete, Parse, Assertion, InvalidParam), and report this kind for no other reason: never Incomplete for an input that no more bytes would repair, never Parse for one that is only cut off.", "quantifier": "all sources whose sizes fit their types, both bit orders, all inputs and offsets", "why_tests_cant": "Applications branch on the kind of error: they wait for more data on Incomplete and drop the connection otherwise. Tests look at the kind for a few inputs; which kind comes first when several things are wrong, for every definition and input, cannot be sampled.", "anchors": ["src/lib.rs: DekuError", "src/reader.rs: read_bits_into, read_bytes, skip_bits", "deku-derive/src/macros/deku_read.rs:1-1071", "src/impls/bool.rs", "src/impls/nonzero.rs", "src/impls/cstring.rs", "src/impls/vec.rs"]}
{"id": "C80", "title": "Old messages keep their meaning when a definition grows", "statement": "If variants are added at the end of enums without a default variant, anywhere in a definition, then (a) the old source still compiles if the new one does, (b) every value of the old type is written by the new program exactly as by the old one, (c) every entry point for reading returns on every input and from every reader state what it returned before, unless the old program reported Parse, so an old program never takes a new message for another one, and (d) deku_id and update are as before and SIZE_BITS does not shrink.", "quantifier": "for all definitions and sources, all extensions of this kind at any number of places, all machines, values, inputs, offsets and reader or writer states", "why_tests_cant": "A test compares two versions of one protocol on a few messages; the claim is about every definition, every place an enum can be nested in (lists with limits, conditions, temporary fields, stored ids) and every input.", "anchors": ["deku-derive/src/macros/deku_read.rs:268-400", "deku-derive/src/macros/deku_write.rs:230-345", "deku-derive/src/macros/deku_size.rs:180-330"]}
{"id": "C81", "title": "Messages mean the same on little and big endian machines", "statement": "If every integer of more than one byte and every enum id is given an endianness, by itself or by the type it is in, the code behaves identically on little and big endian machines: reading and writing are the same functions of the context, the value and the state of the reader or writer (same results, same errors, same bits consumed, same state afterwards, also when the source or sink fails), so what one machine writes every other reads back.", "quantifier": "for all sources that compile, both endiannesses, all values, inputs, contexts, reader and writer states and faults", "why_tests_cant": "The test suite runs on one (little endian) machine; the code has separate branches and fast paths for the two endiannesses, selected at compile time by Endian::default(), and the claim compares them on all inputs and states.", "anchors": ["src/ctx.rs:8-60", "src/impls/primitive.rs:49-163", "src/impls/primitive.rs:384-444", "src/impls/primitive.rs:683-785", "src/reader.rs:393-443", "deku-derive/src/macros/mod.rs:252-321", "deku-derive/src/macros/deku_write.rs:604-642"]}
{"id": "C82", "title": "Messages can be extended at the end", "statement": "If fields are added at the end of the last struct or variant of a message (of a struct, of the struct in its last field, of any variants of an enum there, and so on), then (a) the old source still compiles if the new one does, and the values of the new type are values of the old one with fields added; (b) from_reader and from_bytes of the old program, given any input the new program accepts, return the old part of the value, and the rest returned ends with the rest the new program returns; TryFrom returns the old part or reports Parse; (c) an error or panic of the old program is one of the new program too; (d) what the new program writes begins with what the old program writes of the old part, up to the last whole byte of it, and it reports the same errors.", "quantifier": "for all definitions and sources, all extensions of this kind, all machines, values, inputs, offsets, sources with faults and reader or writer states", "why_tests_cant": "A test compares two versions of one protocol on a few messages; the claim is about every definition, every nesting of structs, enums, options and temporary fields around the added fields, and every input.", "anchors": ["deku-derive/src/macros/deku_read.rs:22-110", "deku-derive/src/macros/deku_read.rs:268-400", "deku-derive/src/macros/deku_read.rs:128-148", "deku-derive/src/macros/deku_read.rs:1042-1071", "deku-derive/src/macros/deku_write.rs:20-120", "deku-derive/src/macros/deku_write.rs:230-345", "src/lib.rs:708-777"]}
{"id": "C83", "title": "A release build does what a debug build does", "statement": "In a release build arithmetic wraps around instead of panicking and debug_assert! is not checked. Wherever the debug build does not panic, the release build does the same: from_bytes, from_reader and TryFrom return the same value, rest or error and leave the stream the same, to_bytes, to_slice and writing to a sink produce the same bytes or the same error. So a release build panics only where a debug build panics, messages of one build are read by the other, and definitions that were checked not to panic do not in a release build either.", "quantifier": "for all definitions, all machines, contexts, values, inputs, offsets, sources and sinks with faults, reader and writer states", "why_tests_cant": "cargo test runs the debug build and applications ship the release build; no test compares the two, and the claim is about every input of every definition, including the ones that make the checks of the debug build fire.", "anchors": ["src/writer.rs:75-413", "src/reader.rs:212-260", "src/impls/vec.rs:13-43", "src/impls/vec.rs:45-110", "src/impls/vec.rs:160-175", "src/impls/primitive.rs:168-340", "src/impls/primitive.rs:880-960"]}
{"id": "C84", "title": "Equivalent ways to write a definition mean the same", "statement": "Rewriting a definition in one of the usual ways does not change the format: moving consecutive fields into a struct of their own that gets what they need as context, the magic of a struct into its first field, padding after a field into padding before the next, a tuple or an array into a struct of its elements, a newtype into its field, arrays of arrays into one array, an array into a Vec with a count, a count of fixed-size elements into a number of bits or bytes, the id of an enum into a field before it, and a temp field into an ordinary field. Both definitions accept the same input, use the same bits, fail with the same error, leave the stream the same and give corresponding values; corresponding values are written as the same bytes. The steps can be taken inside any other definition and one after the other.", "quantifier": "for all definitions and fields with all their attributes, all machines, contexts, values, inputs, offsets, sources and sinks with faults, reader and writer states", "why_tests_cant": "A test compares two particular definitions on some inputs; the claim is that the refactoring is safe for every definition, also in the middle of a byte, on errors, with expressions that refer to other fields, and inside other definitions.", "anchors": ["deku-derive/src/macros/deku_read.rs:531-571", "deku-derive/src/macros/deku_read.rs:604-1011", "deku-derive/src/macros/deku_write.rs:455-862", "deku-derive/src/macros/deku_size.rs:23-137", "src/impls/vec.rs:52-227", "src/impls/slice.rs:9-95", "src/impls/tuple.rs:40-74", "src/impls/option.rs:5-24"]}
{"id": "C85", "title": "A receive loop delivers each message once, as soon as it is complete, however the bytes arrive", "statement": "A program collects the bytes that arrive in a buffer and calls from_bytes on it: a message is delivered and the loop goes on with the rest, Incomplete means to wait for more, any other error ends the program. Then the values delivered and the outcome depend only on the bytes, not on the pieces in which they arrive; the loop ends on every input if no message is empty; and if the bytes are messages written by to_bytes one after the other, then after every piece exactly those messages have been delivered that are complete, in order and each once, and the beginning of the next one is in the buffer.", "quantifier": "for all definitions without read_all, all machines, contexts, sequences of values, all ways to cut the bytes into pieces (also inside a field, a byte list, a padding or an id), all starting buffers and bit offsets, messages that start at the next byte or at the next bit", "why_tests_cant": "A test has one list of pieces; the number of ways to cut a stream is exponential, and a cut has to be harmless at every byte of every message of every definition. Whether Incomplete is returned at each of them, and nothing is delivered too early or twice, is a statement about all prefixes.", "anchors": ["deku-derive/src/macros/deku_read.rs:115-148", "src/reader.rs:148-345", "src/impls/vec.rs:13-43", "src/error.rs:10-32", "src/lib.rs:640-700"]}
{"id": "C86", "title": "A list with read_all at the end takes exactly what is left, and comes back", "statement": "If read_all is only used on lists at the end of a definition, then TryFrom accepts an input exactly if the definition with a size instead of read_all accepts it for some size, and gives the same value; from_bytes leaves nothing if every value has such a list. A value that the definition describes is written as its description and, if this ends with a full byte, is read back from exactly these bytes. What TryFrom gives is described by the definition with as many bits as the input has; without paddings to_bytes gives the input back, different inputs give different values, and in Msb0 the inputs accepted are exactly the descriptions.", "quantifier": "for all sources with read_all only at the end (in nested structs, tuples, options and enum variants too), all machines, all inputs shorter than 2^61 bytes, all values", "why_tests_cant": "Where a list with read_all ends is decided by the input, not by the definition: a test has a few lengths, and the elements may have any size, also less than a byte. Whether the list takes exactly what is left for every length of input, wherever it is nested, and whether all values come back is a statement about all of them.", "anchors": ["src/impls/vec.rs:52-110", "src/impls/vec.rs:118-178", "src/reader.rs:147-173", "deku-derive/src/macros/deku_read.rs:879-890", "deku-derive/src/macros/deku_read.rs:115-190", "examples/read_all.rs:1-25"]}
{"id": "C87", "title": "Counts kept by temp_value or set by update are right, and the lists come back", "statement": "If a list has count = n (or, for bytes, bytes_read = n) and n is a temporary field with temp_value = \"self.list.len()\", or a field with update = \"self.list.len()\" and update() has succeeded, then the value is written as its description and is read back, whatever length the list has, provided the length fits in the type of n: temporary fields at every depth of nesting, updated ones in the struct or in the variant that is updated (for structs without names and with temporary fields see C99). update() stores exactly the lengths of the lists, changes nothing else, and fails with an error if and only if a length does not fit in its type.", "quantifier": "for all sources of one bit order whose ids have names, all values whose other parts are as the source describes, whatever the counts were before update, all list lengths that fit, all data that follow", "why_tests_cant": "A count that is derived from the value instead of stored has to agree with what the reader makes of it for every length and every nesting of lists in lists; a test has a few lists. That update leaves all else alone, and fails for every length that does not fit, are statements about all values.", "anchors": ["deku-derive/src/macros/deku_write.rs:85", "deku-derive/src/macros/deku_write.rs:158-168", "deku-derive/src/macros/deku_write.rs:343-356", "deku-derive/src/macros/deku_write.rs:408-425", "deku-derive/src/macros/deku_write.rs:481-512", "deku-derive/src/macros/deku_write.rs:754-761", "src/attributes.rs:1157-1200", "src/attributes.rs:1260-1300"]}
{"id": "C88", "title": "What is parsed is not larger than a multiple of what was read", "statement": "For a definition in which the elements of every list read at least one bit, there are two numbers that depend on the definition alone, such that every value that is parsed consists of at most the first plus the second times the number of bits consumed, counting integers, list cells, options and variants at every depth. So a peer cannot make a parser build a value that is larger than a multiple of what was sent, whatever counts, lengths and conditions are in the data, and whether the data come from a slice, with an offset, or from a stream.", "quantifier": "for all definitions whose list elements always read something (with any nesting, limits, conditions, defaults, temporary fields, enums, strings), all contexts, all inputs and offsets, all machines", "why_tests_cant": "A test shows the size of a few values. That no input makes a larger one is a statement about all counts in all nested lists at once; the sizes of nested lists multiply, and the bound holds only because every element is paid for by a bit.", "anchors": ["src/impls/vec.rs:44-110", "src/impls/vec.rs:112-176", "src/impls/vec.rs:13-43", "src/impls/slice.rs:9-45", "src/impls/cstring.rs:25-67", "deku-derive/src/macros/deku_read.rs:549-571", "deku-derive/src/macros/deku_read.rs:949-988"]}
{"id": "C89", "title": "A parser calls its source at most linearly often in the size of the input", "statement": "For a definition in which the elements of every list read at least one bit, there are two numbers that depend on the definition alone, such that parsing any input makes at most the first plus the second times the number of bits of the input calls to read_exact, seek and stream_position of the source, whether the parser succeeds, returns an error or panics. If it succeeds, the calls are bounded in the same way by the bits it has consumed. So no count or length in the data keeps a parser busy with its source for longer than the data are worth.", "quantifier": "for all definitions whose list elements always read something (with any nesting, limits, conditions, padding, magic, temporary fields, enums, strings), all contexts, all inputs and offsets, all machines", "why_tests_cant": "A test counts the calls for a few inputs. That no input causes more is a statement about all counts in all nested lists, and about all the points at which a parser may give up.", "anchors": ["src/reader.rs:152-235", "src/reader.rs:236-390", "src/reader.rs:475-570", "src/impls/vec.rs:44-110", "src/impls/vec.rs:112-176", "src/impls/vec.rs:13-43", "src/impls/slice.rs:9-45", "src/impls/cstring.rs:25-67"]}
{"id": "C90", "title": "The example programs do for every input what they assert for one", "statement": "The types of examples/ipv4.rs, examples/enums.rs, examples/80211.rs and examples/example.rs: a value whose fields are in range is written as exactly the bytes of its diagram (given by arithmetic on the fields), and these bytes followed by anything are read back as the value, leaving what follows. Any twenty bytes are an IPv4 header, fewer are Incomplete, and a header with a field that is too large is refused with InvalidParam. Any bytes are a value of the enum of enums.rs or Incomplete, and never its last variant. Any two bytes whose first is below 0xc0 are a frame control field.", "quantifier": "for all field values in range, all following bytes, all byte strings, both native endiannesses", "why_tests_cant": "each example checks one input; there are 2^160 headers", "anchors": ["examples/ipv4.rs:6-49", "examples/enums.rs:8-36", "examples/80211.rs:6-49", "examples/example.rs:12-42"]}
{"id": "C91", "title": "A format whose fields jump to their places is read back, and its output is the fields at their places", "statement": "A struct whose fields carry seek_from_start, seek_from_current or seek_rewind, in any order forward and back: if each field takes up whole bytes and no two fields overlap, to_bytes accepts every value whose fields are each accepted. Its output has each field's own bytes at the field's place and zeros everywhere else, and ends where the field that reaches farthest ends. from_bytes of the output, followed by anything, returns the value, and the rest begins after the last field. The places may depend on fields read before.", "quantifier": "for all structs of fields that are each read back when alone, all seek expressions, all values whose layout has no overlap, both bit orders, all following bytes", "why_tests_cant": "A test tries one arrangement. Whether a gap, a jump back, a field behind the end of what has been written so far or a jump over written fields keeps the rest intact depends on all the positions, which are data.", "anchors": ["deku-derive/src/macros/deku_read.rs:683-724", "deku-derive/src/macros/deku_write.rs:651-692", "src/reader.rs:45-60", "src/writer.rs:30-44"]}
{"id": "C92", "title": "Arithmetic in attributes that a range check accepts never overflows", "statement": "The expressions in count, bytes_read, bits_read, cond, assert_eq, ctx and id are computed in unsigned types of fixed size, where an overflow panics with overflow checks and wraps around without. If the ranges that follow from the sizes of the fields, from assertions and from literals show that no expression leaves its type, the derived reader and writer with fixed size arithmetic do exactly what they do with unbounded numbers, for every input and every value of the type, in both kinds of build; in particular no input makes an expression panic. For counts that are one operation on a byte and a literal the check is tight: if it rejects, some input of one byte panics.", "quantifier": "for all definitions that pass the check, all sizes of the types of the expressions, all inputs, reader states and fault schedules, all values of the type, with and without overflow checks, with - or saturating_sub", "why_tests_cant": "count = \"len * 4\" on a u8 passes every test in which len is below 64. Whether an input exists for which some expression overflows depends on the ranges of all fields it refers to, through arguments of nested types.", "anchors": ["deku-derive/src/macros/deku_read.rs:741-759", "deku-derive/src/macros/deku_read.rs:836-988", "deku-derive/src/macros/deku_write.rs:710-730", "deku-derive/src/macros/deku_write.rs:814-842"]}
{"id": "C93", "title": "How the stream is implemented does not matter: short reads, interruptions and buffering are invisible", "statement": "Reading uses the stream only through read_exact, seek and stream_position. On any stream whose calls deliver its bytes in order, however it is implemented, from_reader gives the value, the bit count or the error that it gives on the bytes themselves; in particular on a file, socket or pipe whose read transfers a few bytes at a time or is interrupted, and on a BufReader of any size around it. On a stream that can fail at any time it does what it does on the bytes with some schedule of faults, so that what holds for all fault schedules holds for all streams.", "quantifier": "for all types of streams that keep the contract, all derived types with all attributes, all data, all patterns of short reads and interruptions, all buffer sizes, all offsets", "why_tests_cant": "Tests read from cursors over slices, which never transfer less than they are asked for. A reader that peeked at the stream, relied on one read being enough or kept its own idea of the position would pass them.", "anchors": ["src/reader.rs:45-60", "src/reader.rs:159", "src/reader.rs:312", "deku-derive/src/macros/deku_read.rs:115-126"]}
{"id": "C94", "title": "How the sink is implemented does not matter: short writes, interruptions and buffering are invisible", "statement": "Without seek attributes, writing uses the sink only through write_all. On any sink that stores what it is given, however it is implemented, to_writer and finalize have the result that they have on a vector and store the same bytes; in particular on a file, socket or pipe whose write takes a few bytes at a time or is interrupted, and on a BufWriter of any size around it once that is flushed. On a sink that can fail at any time, having stored any part of what it was given, they do what they do on a vector with some schedule of faults. When writing succeeds, the bytes are stored.", "quantifier": "for all types of sinks that keep the contract, all derived types without seek attributes, all values, all earlier contents, all patterns of short writes and interruptions, all buffer sizes", "why_tests_cant": "Tests write to vectors and slices, whose write takes everything at once. Whether all leftover bits and bulk writes go through a loop that retries, and whether an error half-way is reported, shows only on other sinks.", "anchors": ["src/writer.rs:49-56", "src/writer.rs:97", "src/writer.rs:144", "src/writer.rs:204-226", "src/writer.rs:384-413"]}
{"id": "C95", "title": "A name in an attribute stands for the same field or argument while reading and while writing", "statement": "In the attributes of a field, a name stands for the last field of this name before it, or else for the argument of the context of this name, and deku::bit_offset for where the field starts; while reading and while writing alike, although reading binds the fields one after the other and writing takes the whole value apart at once. So values that are consistent with the definition are read back. How fields and arguments are called is of no importance: renaming them consistently changes no result.", "quantifier": "for all derived types with named fields and arguments, all expressions, all values, all inputs, all injective renamings", "why_tests_cant": "Tests have a handful of definitions in which no two things have the same name. What a name stands for is decided by the order of the let statements and patterns in the emitted code, which differs between the two directions.", "anchors": ["deku-derive/src/macros/deku_read.rs:573-601", "deku-derive/src/macros/deku_read.rs:667-681", "deku-derive/src/macros/deku_read.rs:1000-1003", "deku-derive/src/macros/deku_write.rs:94-102", "deku-derive/src/macros/deku_write.rs:343-352", "deku-derive/src/macros/deku_write.rs:694-701", "deku-derive/src/macros/deku_write.rs:798-813"]}
{"id": "C96", "title": "Maps and sets in fields round-trip in whatever order the hasher goes through them", "statement": "A HashMap or HashSet field reads exactly what a list with the same limit reads (same bytes consumed, same errors), and makes a map or set of it in which the last value of a key counts. A derived type with such fields, written with one hasher, is read back as an equal value with any other hasher: if the limit is a count or a size, then for every order in which the iterator goes through the entries. With until it is not so: it depends on the order. Messages with the entries in another order are parsed to the same value; messages in which a key occurs twice are parsed, but are written back with the count they had.", "quantifier": "for all types of keys, values and elements, all limits, all maps and sets, all iteration orders, all inputs", "why_tests_cant": "Iteration order depends on a random seed and on the history of the map; a test sees one order per run, and the tests in the repository use maps with one entry.", "anchors": ["src/impls/hashmap.rs:18-176", "src/impls/hashmap.rs:229-238", "src/impls/hashset.rs:18-162", "src/impls/hashset.rs:202-211"]}
{"id": "C97", "title": "Recursive definitions do not depend on the stack unless it is exhausted, and the input bounds their depth", "statement": "For definitions that contain themselves, directly, in a list or through each other, the result of from_bytes and to_bytes on a stack that is large enough for it does not depend on the size of the stack: on a larger one it is the same, or the smaller one overflows. A value that fits is written and read back on every stack that has room for it. If something is read before a type occurs again, then eight calls per byte of the input and two more are enough whatever the input, and parsing does not panic under the conditions of C50. The depth is up to the input: for every stack there is an input of as many bytes that exhausts it; and recursion that reads nothing before it recurs exhausts every stack on every input.", "quantifier": "for all families of mutually recursive definitions, all stack sizes, all inputs and values", "why_tests_cant": "Nesting is unbounded; a test uses one depth on one stack, and a test of the overflow would end the test run.", "anchors": ["src/impls/boxed.rs:11-22", "src/impls/boxed.rs:59-72", "src/impls/arc.rs:10-21", "src/impls/arc.rs:60-71"]}
{"id": "C98", "title": "Discriminants used as ids are those of the language, round-trip, and stay the same when variants are appended", "statement": "In an enum whose variants are identified by their discriminants, the id that is written for a variant is the number the language gives to it, an id is read as the variant with that number and any other id is refused, so that values round-trip and what is read is written back as it was. If all numbers are written out, the order of the variants does not matter; variants appended at the end do not change how the others are read and written; and the declaration behaves as one in which the numbers are spelled out as `id`. What DekuWrite accepts for an enum with id_type, DekuRead accepts. The unsafe reads by which the macros obtain the number do not read more bytes than the discriminant has.", "quantifier": "for all declarations of variants with and without explicit numbers, all id codecs that are sound, all ids, all inputs", "why_tests_cant": "The numbering is implicit and declarations are unbounded in number; a test covers one declaration with few ids, and an out-of-bounds read goes unnoticed in a test.", "anchors": ["deku-derive/src/macros/deku_read.rs:235", "deku-derive/src/macros/deku_read.rs:247-298", "deku-derive/src/macros/deku_write.rs:217", "deku-derive/src/macros/deku_write.rs:239-318", "deku-derive/src/lib.rs:268-346"]}
{"id": "C99", "title": "update assigns the field it is written on, also in structs without names", "statement": "update() assigns the value of each update attribute to the field the attribute is on and leaves all others alone, whether the fields have names or not, and also if temporary fields, which are not part of the struct, come before it.", "quantifier": "for all structs with and without names, with update attributes and temporary fields in any places, and all values", "why_tests_cant": "Which field is assigned depends on the positions of all temporary fields before it; tests have few combinations, and a wrong assignment between fields of the same type goes unnoticed.", "anchors": ["deku-derive/src/macros/deku_write.rs:481-512", "deku-derive/src/lib.rs:906-909", "deku-derive/src/lib.rs:1105-1116", "deku-derive/src/lib.rs:1328-1334"]}
{"id": "C100", "title": "deku:: names in attributes stand for the variables of the emitted code, and nothing else in an attribute changes", "statement": "In the text of an attribute, deku::reader, deku::writer, deku::bit_offset and deku::byte_offset stand for the variables of the emitted code, any number of times and in any combination. Everything else in the text stays as it is, and no other variable of the emitted code can be referred to. Text that names such variables directly is refused.", "quantifier": "for all texts of attributes", "why_tests_cant": "Attributes are arbitrary text, and four replacements are done one after the other, each on the result of the one before; tests have a handful of texts.", "anchors": ["deku-derive/src/lib.rs:1053-1073", "deku-derive/src/lib.rs:1076-1098"]}
{"id": "C101", "title": "An attribute that is accepted on a field has an effect", "statement": "If the macro accepts an attribute on a field, the emitted code depends on it: what is written in it matters to reading, to writing or to update. An attribute that says how the field is represented matters to both reading and writing. Otherwise the macro refuses it.", "quantifier": "for all sets of attributes of a field, all texts in them, all types of the field and all settings of the struct or enum", "why_tests_cant": "There are 30 attributes and 2^30 sets of them; a test of a combination that is ignored needs someone to think of it, and it compiles and mostly works.", "anchors": ["deku-derive/src/lib.rs:821-896", "deku-derive/src/lib.rs:713-766", "deku-derive/src/macros/deku_read.rs:652-1012", "deku-derive/src/macros/deku_write.rs:492-512", "deku-derive/src/macros/deku_write.rs:604-862", "deku-derive/src/macros/mod.rs:285-321", "deku-derive/src/macros/mod.rs:381-395"]}
{"id": "C102", "title": "A message in a length-delimited field is a frame", "statement": "A field that holds a message of another type behind the number of its bytes (written with `reader`, `writer`, `ReadExact`, `TryFrom<&[u8]>` and `to_bytes`) behaves as a frame whatever the type inside is. Where it ends depends on the number only; the payload is asked only when all of it is there; if the user turns errors of the payload into another error, `Incomplete` means that bytes are missing and nothing else. What is written is read back, to any depth of frames in frames. A program that receives frames in pieces delivers each when it is complete, and if it keeps the error of a bad payload as the value, a bad payload harms no other. Numbers of up to seven bytes.", "quantifier": "for all types inside (any reader and writer), all inputs, all numbers of one to seven bytes in either byte order, all depths, all ways to cut the bytes into pieces", "why_tests_cant": "It is a statement about all payloads, all types inside, including those that take all input there is, and all ways to cut a stream.", "anchors": ["src/impls/vec.rs:13-45", "deku-derive/src/macros/deku_read.rs:1042-1071", "deku-derive/src/macros/deku_read.rs:775-776", "deku-derive/src/macros/deku_write.rs:740-741", "src/lib.rs:708-715", "src/error.rs:129-133"]}
{"id": "C103", "title": "A value inside a message can be found, read and patched in place", "statement": "In the bytes of a message every field, list element or part of a field that no other attribute depends on has its own bits, at an offset that is computed from the values before it. If another value of the same size is put there, to_bytes gives the same bytes with exactly these bits changed, and a message in which these bits are overwritten (whatever follows it) is parsed as the same value but for the new one at this place. A message inside a message that occupies whole bytes is parsed on its own from its offset, and the outer message is patched by copying the to_bytes of the new inner message there.", "quantifier": "for all struct and enum sources of the source model, all values they describe, all places at any depth (fields, variants, elements, options, pairs), all new values of the same size, both bit orders, all data that follows", "why_tests_cant": "It relates the outputs for two values and an edit of the bytes, for all types and all places at any depth; a test patches one field of one message.", "anchors": ["deku-derive/src/macros/deku_write.rs:604-862", "deku-derive/src/macros/deku_read.rs:652-1012", "src/lib.rs:708-727", "src/writer.rs:1-420", "src/reader.rs:1-420"]}
{"id": "C104", "title": "Errors of the stream come out, and protocols can be layered", "statement": "If every field of a definition is in whole bytes (and nothing is read with read_all), from_reader stops at the first call on the stream that fails and returns the kind of its error (the end of the stream as Incomplete); if it returns anything else, no call has failed, and on a stream that keeps the contract of Read the result is the one on its bytes. So a protocol can be read through another: a Read that unwraps frames it reads with deku and `?` is a stream of their payloads, and a broken frame is reported by the outer definition with the kind of its error exactly if the message is not complete before it.", "quantifier": "for all definitions in whole bytes of the attribute language, all streams of any type and whatever they answer, all frame definitions and payload functions, all inputs of any number of frames and whatever ends them", "why_tests_cant": "The streams are arbitrary programs and an error can come at any call; tests inject an error at a few calls into one definition.", "anchors": ["src/error.rs:177-220", "src/reader.rs:1-420", "src/noseek.rs:1-80", "deku-derive/src/macros/deku_read.rs:652-1012"]}
{"id": "C105", "title": "What `reader` and `writer` on a variant have to do", "statement": "With `reader` on variants, the implementation of DekuReader compiles exactly if the tokens of each of them return from the function (have type `!`). Functions that do what the generated code does, where the writer also writes the id of the variant, cannot be told from it; the other variants are read and written as before; a value of a variant with functions round trips if its writer writes an id that selects the variant, followed by what the reader reads as the value, or if the id comes from the context. `deku_id` knows exactly the variants without a reader.", "quantifier": "for all enums of the model, all functions on any of their variants, all values, contexts, inputs and alignments", "why_tests_cant": "The functions are arbitrary code of the user; no test of the project has a function on a variant.", "anchors": ["deku-derive/src/macros/deku_read.rs:303-400", "deku-derive/src/macros/deku_read.rs:489-517", "deku-derive/src/macros/deku_write.rs:239-345", "src/attributes.rs:1703-1706"]}
{"id": "C106", "title": "A sink that fails has the start of the message, and its error is the result", "statement": "Writing a value (with finalize) sends blocks of bytes with write_all that do not depend on the sink, one after the other, until one fails; then nothing more is sent and the error of the sink is the result. If none fails the result is the one of to_bytes and the blocks are its bytes. So a sink that fails has what it had before and a part of the message from its start, and sending the rest of to_bytes completes it; a buffer that is too short for to_slice is filled with the start of the message; and a value that is refused is refused on every sink with the same error, unless the sink fails first.", "quantifier": "for all definitions of the attribute language, all values, all contexts, sinks of any type and whatever they answer, all buffers", "why_tests_cant": "It compares the calls made on all sinks, failing at any call after any number of bytes; a test has one vector or slice.", "anchors": ["src/writer.rs:49-413", "src/lib.rs:736-743", "deku-derive/src/macros/deku_write.rs:466-862"]}
{"id": "C107", "title": "An integer takes as many bits as the field before says", "statement": "In struct { len: u8, #[deku(bits = \"size(*len)\")] value: uW }, or with bytes, with any endian and bit_order that compile, a size of at least one bit and at most the type makes the value take exactly so many bits after len: values that fit are written in them and read back, also from records one after the other, and what is parsed is written again as it was. Other sizes are errors: they are refused when read and when written, and no input makes the program panic.", "quantifier": "for all unsigned types, endiannesses, bit orders, expressions in the field before, values, inputs, targets; arrays of any length", "why_tests_cant": "The size is up to the sender: the tests use one or two sizes in range with each attribute, and the corner cases differ by attribute and type.", "anchors": ["src/attributes.rs:836-870", "src/attributes.rs:905-940", "src/impls/primitive.rs:301-521", "src/lib.rs:979-986", "deku-derive/src/macros/mod.rs:250-330"]}
{"id": "C108", "title": "A signed integer takes as many bits as the field before says, and keeps its sign", "statement": "In struct { len: u8, #[deku(bits = \"size(*len)\")] value: iW }, or with bytes, with any endian and bit_order that compile, a size of at least one bit and at most the type makes the value take exactly so many bits after len; every value in the two's complement range of that size is written in them and comes back. Sizes beyond the type are refused when read and when written, and no input makes the program panic.", "quantifier": "for all signed types, endiannesses, bit orders, expressions in the field before, values, inputs, targets", "why_tests_cant": "Whether the sign is extended depends on the size, which comes with the message; a test with one size in range sees one of the two behaviours.", "anchors": ["src/impls/primitive.rs:541-680", "src/impls/primitive.rs:730-790", "src/attributes.rs:836-870", "src/lib.rs:979-986"]}
{"id": "C109", "title": "Mixing bit orders on one writer moves bits but loses none", "statement": "Take any sequence of write_bits_order calls of any lengths, each in either bit order, with write_bytes calls in between, on a fresh writer. Every call succeeds; bits_written counts the whole bytes; the bytes in the sink and the pending bits together are the bits that were written, in an order that depends only on the sizes and bit orders of the calls. So what was written can be told from the output: with the same sizes and bit orders, different bits give different bytes, also after finalize, and there are as many bytes as the bits need.", "quantifier": "for all sequences of writes, sizes, bit orders, bits", "why_tests_cant": "Four code paths move bits between a leftover of zero to seven bits and writes of any length; a lost or doubled bit shows only for some lengths and some bits.", "anchors": ["src/writer.rs:112-162", "src/writer.rs:165-234", "src/writer.rs:237-287", "src/writer.rs:290-339", "src/writer.rs:344-399", "src/writer.rs:404-413"]}
{"id": "C110", "title": "Integers in mixed bit orders are written without loss", "statement": "Write unsigned integers one after the other, each with an endianness, a size in bits and a bit order of its own (or none, or whole bytes), each value fitting its size. The write succeeds, gives as many bytes as the sizes need together, and from the bytes the values are determined: no two different lists of values of the same types give the same bytes.", "quantifier": "for all lists of fields, types, sizes, endiannesses, bit orders, values", "why_tests_cant": "Every neighbourhood of orders, sizes and leftover lengths is a path of its own and a loss shows only for some values; the tests of the crate write one or two fixed values.", "anchors": ["src/impls/primitive.rs:110-136", "src/impls/primitive.rs:795-905", "src/writer.rs:112-399"]}
{"id": "C111", "title": "Mixing bit orders on one reader reads every bit once", "statement": "Make any sequence of read_bits and read_bytes calls of any sizes, each in either bit order, with calls of end in between, on an input that is long enough. Every call succeeds; the bits of the answers and what is left are together the bits of the input, each once, in an order that depends only on the calls and the length of the input; bits_read is the sum of the sizes. So the answers tell the input: two inputs of the size that was asked for with the same answers are the same.", "quantifier": "for all sequences of reads, sizes, bit orders, inputs", "why_tests_cant": "A read starts from a leftover that a read in the other order may have made; whether a bit is taken twice or skipped depends on both sizes and on the bits.", "anchors": ["src/reader.rs:129-173", "src/reader.rs:236-377", "src/reader.rs:457-565"]}
{"id": "C112", "title": "A byte can be shared by the two bit orders, and only a whole one", "statement": "Write a group of n bits in one bit order and a group of m bits in the other, 1 <= n <= 7 and m >= 1, on a fresh writer, and read n and m bits in the same orders from the bytes. For all bits the groups come back exactly if n + m = 8. Then the Msb0 bits are the upper bits of the byte, whichever group is first; and any number of bytes shared in this way, each in its own order and division, come back one after the other.", "quantifier": "for all orders, sizes, bits, numbers of shared bytes", "why_tests_cant": "Whether a pair of sizes works depends on both sizes and the second is unbounded; a pair that does not work still gives back many of the values.", "anchors": ["src/writer.rs:165-287", "src/writer.rs:404-413", "src/reader.rs:236-377"]}
{"id": "C113", "title": "Integers of both bit orders can share bytes of a header", "statement": "Take a header of unsigned integers: some take whole bytes with or without an endianness, others are in pairs of an Lsb0 field and an Msb0 field with bits that are together 8, in either order, of any types and endiannesses. All values that fit are written to as many bytes as the fields are long, with the Msb0 field of a pair in the upper part of its byte, and reading the fields gives the values back.", "quantifier": "for all headers, types, sizes, endiannesses, values", "why_tests_cant": "The number of headers is unbounded and each pair goes through the accumulator or the bit path depending on what was written before it.", "anchors": ["src/impls/primitive.rs:78-133", "src/impls/primitive.rs:795-935", "src/writer.rs:69-108", "src/writer.rs:165-287", "src/reader.rs:236-443"]}
{"id": "C114", "title": "A struct whose fields of both bit orders share bytes is read back, and reads every input", "statement": "Take a derived struct whose fields are unsigned integers of whole bytes and pairs of an Lsb0 field and an Msb0 field that share a byte, in either order. to_bytes writes every value with the Msb0 field of a pair in the upper part of its byte, and from_bytes gives it back and returns exactly the bytes after it as the rest. Conversely every input of the length of the struct is a value, and writing this value gives the input again. Any shorter input is reported as Incomplete.", "quantifier": "for all such structs, values, inputs, bytes after the struct, machines", "why_tests_cant": "The number of structs, values and inputs is unbounded, and the code paths depend on the order and size of the neighbouring fields.", "anchors": ["deku-derive/src/macros/deku_read.rs:128-148", "deku-derive/src/macros/deku_read.rs:549-571", "deku-derive/src/macros/deku_write.rs:466-479", "src/impls/primitive.rs:795-935", "src/writer.rs:165-287", "src/reader.rs:236-443"]}
{"id": "C115", "title": "A header whose fields share bytes can be followed by any body, if the bit order at the seam fits", "statement": "Take a derived struct of a header, itself a struct of unsigned integers of whole bytes and of pairs of an Lsb0 and an Msb0 field that share a byte, and of a body: any checked definition (C61) that fills whole bytes and may refer to the header. If the body is in Lsb0 throughout or the last field of the header with a bit size is Msb0 (or there is none), to_bytes of every consistent value is the bytes of the header and then those of the body, and from_bytes gives the value back with exactly the appended bytes as the rest. Without this condition it is false: an Msb0 body right after an Lsb0 field is changed, although it starts at a byte boundary. A Vec with a count or with read_all of such headers comes back in all cases, and so does such a struct behind a body of either order.", "quantifier": "for all headers, bodies, values, bytes after the struct, machines", "why_tests_cant": "The number of headers, bodies and values is unbounded, and whether a body survives depends on the last field of another struct.", "anchors": ["deku-derive/src/macros/deku_read.rs:549-571", "deku-derive/src/macros/deku_write.rs:466-479", "src/writer.rs:165-287", "src/writer.rs:344-359", "src/reader.rs:236-443"]}
