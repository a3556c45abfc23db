{
 "claims": [
  {
   "property": "C01",
   "status": "proved",
   "theorems": [
    "Deku.C01_msb0_reads_walk_stream"
   ],
   "note": "Sequences of any length; every result is a segment of the MSB-first stream."
  },
  {
   "property": "C02",
   "status": "proved",
   "theorems": [
    "Deku.C02_lsb0_reads_walk_stream"
   ],
   "note": "Sequences of any length over the LSB-first stream."
  },
  {
   "property": "C03",
   "status": "proved",
   "theorems": [
    "Deku.C03_bit_read_ok_iff",
    "Deku.C03_bit_read_succeeds_iff"
   ],
   "note": "Both directions, both orders, any well-formed reader state on a source without faults."
  },
  {
   "property": "C04",
   "status": "partial",
   "theorems": [
    "Deku.C04_byte_reads_agree_with_bit_reads_partial",
    "Deku.C04_counterexample",
    "Deku.C04_zero_bytes_after_end_panics"
   ],
   "note": "Holds except for a 0-byte read while a byte peeked by end() is pending, which panics (C04_counterexample); the error then also carries 8 bits less."
  },
  {
   "property": "C05",
   "status": "partial",
   "theorems": [
    "Deku.C05_end_changes_needsize",
    "Deku.C05_end_is_an_observation_partial",
    "Deku.C05_end_tells_whether_bits_remain"
   ],
   "note": "end() tells the truth and never changes returned data or bits_read; it does change the size carried by a later Incomplete error and, with C04_zero_bytes_after_end_panics, makes a 0-byte read panic (C05_end_changes_needsize)."
  },
  {
   "property": "C06",
   "status": "partial",
   "theorems": [
    "Deku.C06_skip_after_end",
    "Deku.C06_skip_counts_absolute",
    "Deku.C06_skip_is_drop_partial",
    "Deku.C06_skip_is_read_and_discard_partial",
    "Deku.C06_skip_past_end_succeeds"
   ],
   "note": "Proved for readers without a peeked byte whose source started at position 0. The full statement is false: after end() the peeked byte is forgotten (C06_skip_after_end), bits_read becomes absolute (C06_skip_counts_absolute), and skipping whole bytes past the end succeeds (C06_skip_past_end_succeeds)."
  },
  {
   "property": "C07",
   "status": "proved",
   "theorems": [
    "Deku.C07_big_endian_reads_binary_digits",
    "Deku.C07_little_endian_reads_groups",
    "Deku.C07_short_input_is_incomplete"
   ],
   "note": "All routes, all widths 1..type width, both endiannesses; the value is the MSB-first binary digits (big) or byte groups (little); a source without faults."
  },
  {
   "property": "C08",
   "status": "partial",
   "theorems": [
    "Deku.C08_bit_read_swallows_error",
    "Deku.C08_end_swallows_error",
    "Deku.C08_source_errors_reported_partial",
    "Deku.C08_unaligned_byte_read_swallows_error"
   ],
   "note": "False for bit reads, unaligned byte reads and end(), whose byte loops ignore errors other than end-of-file (three counterexamples). Proved for the integer path, the byte path on an aligned reader and partial reads."
  },
  {
   "property": "C09",
   "status": "proved",
   "theorems": [
    "Deku.C09_only_requested_data_is_taken"
   ],
   "note": "Any sequence of bit, byte reads and end() calls; buffered bits are fewer than 8 unless end() peeked a byte."
  },
  {
   "property": "C10",
   "status": "proved",
   "theorems": [
    "Deku.C10_msb0_writes_concatenate",
    "Deku.C10_split_does_not_matter"
   ],
   "note": "Any sequence of bit, byte and integer writes in Msb0."
  },
  {
   "property": "C11",
   "status": "proved",
   "theorems": [
    "Deku.C11_long_lsb0_write_on_fresh_writer",
    "Deku.C11_lsb0_mode_any_length",
    "Deku.C11_lsb0_writes_concatenate"
   ],
   "note": "Groups of at most 8 bits on a fresh writer, arbitrary lengths once in Lsb0 mode; C11_long_lsb0_write_on_fresh_writer shows why the restriction is needed."
  },
  {
   "property": "C12",
   "status": "partial",
   "theorems": [
    "Deku.C12_finalize_pads_with_zeros",
    "Deku.C12_to_bits_lsb0",
    "Deku.C12_to_bytes_is_padded_to_bits_partial"
   ],
   "note": "Zero padding, byte count and idempotence are proved for both orders; the relation between to_bits and to_bytes holds for Msb0 output only (C12_to_bits_lsb0)."
  },
  {
   "property": "C13",
   "status": "proved",
   "theorems": [
    "Deku.C13_to_slice_agrees_with_to_bytes"
   ],
   "note": "For every computation that only uses the writer through its modelled calls (Good)."
  },
  {
   "property": "C14",
   "status": "proved",
   "theorems": [
    "Deku.C14_ok_delivers_completed_bytes",
    "Deku.C14_sink_errors_reported"
   ],
   "note": "Every writer call, any fault schedule."
  },
  {
   "property": "C15",
   "status": "proved",
   "theorems": [
    "Deku.C15_msb0_fields_end_to_end",
    "Deku.C15_unsigned_msb0_round_trip"
   ],
   "note": "Every accepted value, every alignment; also end to end for any list of fields."
  },
  {
   "property": "C16",
   "status": "proved",
   "theorems": [
    "Deku.C16_lsb0_fields_end_to_end",
    "Deku.C16_unsigned_lsb0_little_round_trip"
   ],
   "note": "Every accepted value, every alignment; also end to end for any list of fields."
  },
  {
   "property": "C17",
   "status": "partial",
   "theorems": [
    "Deku.C17_counterexample",
    "Deku.C17_round_trips_iff_short_or_full",
    "Deku.C17_unsigned_lsb0_big_round_trip_partial",
    "Deku.C17_what_comes_back"
   ],
   "note": "False for 9 up to type width - 1 bits: the middle bits are lost (C17_counterexample). Proved for at most 8 bits and for full-width fields, and only for these (C17_round_trips_iff_short_or_full); what comes back otherwise is determined for every value (C17_what_comes_back)."
  },
  {
   "property": "C18",
   "status": "partial",
   "theorems": [
    "Deku.C18_counterexample",
    "Deku.C18_signed_accepted_iff_in_range",
    "Deku.C18_signed_round_trip_partial",
    "Deku.C18_what_comes_back"
   ],
   "note": "Acceptance exactly in range is proved in every writer state. Round trip proved except bits = n without an endianness where n is a multiple of 8 below the type width: read without sign extension (C18_counterexample); every negative value then comes back plus 2^n (C18_what_comes_back)."
  },
  {
   "property": "C19",
   "status": "partial",
   "theorems": [
    "Deku.C19_counterexample",
    "Deku.C19_ordered_signed_accepted_iff_unsigned",
    "Deku.C19_ordered_signed_round_trip_partial",
    "Deku.C19_what_comes_back"
   ],
   "note": "False: with a bit order the unsigned range is checked (C19_counterexample). Proved: exactly what is accepted, the round trip of non-negative values in range and of full-width fields, and what every accepted value comes back as (C19_what_comes_back)."
  },
  {
   "property": "C20",
   "status": "partial",
   "theorems": [
    "Deku.C20_accepted_iff_fits",
    "Deku.C20_big_lsb0_loses_bits",
    "Deku.C20_lossless_partial",
    "Deku.C20_zero_bits_panics"
   ],
   "note": "Acceptance iff the value fits is proved for all contexts and all writer states, n >= 1. Losslessness excludes big endian Lsb0 fields of 9..type width - 1 bits, where it is false (C20_big_lsb0_loses_bits); n = 0 panics on one path (C20_zero_bits_panics)."
  },
  {
   "property": "C21",
   "status": "partial",
   "theorems": [
    "Deku.C21_signed_oversize_refused",
    "Deku.C21_u8_bits_refused_partial",
    "Deku.C21_u8_ignores_size",
    "Deku.C21_unsigned_oversize_refused_partial"
   ],
   "note": "Signed types and unsigned types other than u8: proved. u8 ignores byte sizes and bit sizes that are multiples of 8 without an endianness (C21_u8_ignores_size)."
  },
  {
   "property": "C22",
   "status": "partial",
   "theorems": [
    "Deku.C22_byte_sized_encoding",
    "Deku.C22_byte_sized_round_trip_partial",
    "Deku.C22_larger_values_truncated",
    "Deku.C22_what_comes_back"
   ],
   "note": "Encoding and round trip proved for k = 0..size. Refusal of larger values is false: they are truncated (C22_larger_values_truncated), always to the value modulo 256^k (C22_what_comes_back)."
  },
  {
   "property": "C23",
   "status": "proved",
   "theorems": [
    "Deku.C23_whole_signed_round_trip",
    "Deku.C23_whole_unsigned_round_trip"
   ],
   "note": "Unsigned (and float bit patterns) and signed, every Msb0 alignment."
  },
  {
   "property": "C24",
   "status": "partial",
   "theorems": [
    "Deku.C24_counterexample",
    "Deku.C24_signed_byte_sized_round_trip_partial",
    "Deku.C24_what_comes_back"
   ],
   "note": "False for negative values in fewer bytes than the type (C24_counterexample); proved for non-negative values and full size. With fewer bytes every value comes back modulo 256^k (C24_what_comes_back)."
  },
  {
   "property": "C25",
   "status": "partial",
   "theorems": [
    "Deku.C25_counterexample",
    "Deku.C25_lsb0_byte_fields_end_to_end_partial"
   ],
   "note": "False in mid-byte (C25_counterexample). Proved when byte fields start at byte boundaries."
  },
  {
   "property": "C26",
   "status": "partial",
   "theorems": [
    "Deku.C26_counterexample",
    "Deku.C26_mixed_orders_end_to_end_partial"
   ],
   "note": "Any sequence of groups; after a switch to Msb0 the first bit field must be little endian or at most 8 bits, otherwise bytes are reversed (C26_counterexample)."
  },
  {
   "property": "C27",
   "status": "partial",
   "theorems": [
    "Deku.C27_count_elements_partial",
    "Deku.C27_count_first_error_partial",
    "Deku.C27_count_reads_one_after_the_other_partial",
    "Deku.C27_large_count_panics",
    "Deku.C27_round_trip_partial",
    "Deku.C27_write_in_order",
    "Deku.C27_zero_sized_elements_are_not_read"
   ],
   "note": "Proved for elements that are not zero-sized and counts that can be allocated; zero-sized elements are not read (C27_zero_sized_elements_are_not_read) and a huge count panics before reading (C27_large_count_panics)."
  },
  {
   "property": "C28",
   "status": "partial",
   "theorems": [
    "Deku.C28_round_trip_partial",
    "Deku.C28_until_error_partial",
    "Deku.C28_until_first_match_partial",
    "Deku.C28_zero_sized_elements_are_not_read"
   ],
   "note": "Both directions, stateful predicates; zero-sized elements are never read (C28_zero_sized_elements_are_not_read)."
  },
  {
   "property": "C29",
   "status": "partial",
   "theorems": [
    "Deku.C29_bit_size_is_exact_partial",
    "Deku.C29_bit_size_is_found_partial",
    "Deku.C29_byte_size_is_exact_partial",
    "Deku.C29_round_trip_partial",
    "Deku.C29_zero_sized_elements_are_not_read"
   ],
   "note": "Exact consumption and the converse; zero-sized elements are never read (C29_zero_sized_elements_are_not_read)."
  },
  {
   "property": "C30",
   "status": "partial",
   "theorems": [
    "Deku.C30_leading_padding_loses_a_byte",
    "Deku.C30_padding_becomes_elements",
    "Deku.C30_read_all_consumes_everything_partial",
    "Deku.C30_round_trip_partial",
    "Deku.C30_zero_sized_elements_are_not_read"
   ],
   "note": "Proved for elements that consume at least one bit; false for zero-sized elements, after leading padding (C30_leading_padding_loses_a_byte) and when padding bits form further elements (C30_padding_becomes_elements)."
  },
  {
   "property": "C31",
   "status": "proved",
   "theorems": [
    "Deku.C31_array_first_error",
    "Deku.C31_array_reads_elements",
    "Deku.C31_array_round_trip",
    "Deku.C31_tuple_bits",
    "Deku.C31_tuple_first_error",
    "Deku.C31_tuple_reads_components",
    "Deku.C31_tuple_round_trip"
   ],
   "note": "Arrays of any length, tuples by nesting pairs."
  },
  {
   "property": "C32",
   "status": "proved",
   "theorems": [
    "Deku.C32_bool_is_0_or_1",
    "Deku.C32_bool_round_trip",
    "Deku.C32_nonzero_rejects_exactly_0",
    "Deku.C32_nonzero_round_trip",
    "Deku.C32_option_errors",
    "Deku.C32_option_reads_some",
    "Deku.C32_option_writes"
   ],
   "note": "bool in every context of 1..8 bits at every alignment; NonZero and Option over any inner reader and writer."
  },
  {
   "property": "C33",
   "status": "proved",
   "theorems": [
    "Deku.C33_cstring_reads_to_first_nul",
    "Deku.C33_cstring_result",
    "Deku.C33_cstring_round_trip",
    "Deku.C33_cstring_without_nul",
    "Deku.C33_sized_cstring",
    "Deku.C33_sized_cstring_fails"
   ],
   "note": "Every Msb0 alignment; strings that fit into memory. The element context given to the writer must describe a whole Msb0 byte, as the default does."
  },
  {
   "property": "C34",
   "status": "proved",
   "theorems": [
    "Deku.C34_duplicate_keys_shrink_the_map",
    "Deku.C34_map_at_most_count",
    "Deku.C34_map_is_made_of_the_entries_read",
    "Deku.C34_map_round_trip",
    "Deku.C34_set_at_most_count",
    "Deku.C34_set_is_made_of_the_elements_read",
    "Deku.C34_set_round_trip"
   ],
   "note": "Any limit; a map is read as the Vec of its entries, inserted in order; any iteration order, for collections that fit into memory."
  },
  {
   "property": "C35",
   "status": "partial",
   "theorems": [
    "Deku.C35_fast_path_after_end",
    "Deku.C35_fast_path_ignores_the_bit_order",
    "Deku.C35_fast_path_ignores_the_size",
    "Deku.C35_fast_path_lsb0_partial",
    "Deku.C35_fast_path_when_aligned_partial",
    "Deku.C35_huge_count_panics",
    "Deku.C35_no_bytes_after_end_panics",
    "Deku.C35_panics_after_skip_beyond_end"
   ],
   "note": "Proved at byte alignment, for Lsb0 at every alignment. False for unaligned Msb0 fields (C35_fast_path_ignores_the_bit_order), with bits (C35_fast_path_ignores_the_size, C36_byte_list_with_bits_does_not_round_trip), after end(), after a skip beyond the end and for huge counts (panics)."
  },
  {
   "property": "C36",
   "status": "proved",
   "theorems": [
    "Deku.C36_byte_list_with_bits_does_not_round_trip",
    "Deku.C36_rest_is_what_was_appended",
    "Deku.C36_struct_round_trip",
    "Deku.C36_wrong_count_does_not_round_trip"
   ],
   "note": "Every definition whose fields fit one bit order (Ty.Fits), every value consistent with its counts, any trailing bytes. A value whose count field disagrees with its list does not come back (C36_wrong_count_does_not_round_trip)."
  },
  {
   "property": "C37",
   "status": "partial",
   "theorems": [
    "Deku.C37_context_id_pattern_field_loses_its_attributes",
    "Deku.C37_context_id_pattern_field_loses_its_size",
    "Deku.C37_context_id_pattern_round_trip_partial",
    "Deku.C37_context_id_round_trip_partial",
    "Deku.C37_definition_reads_the_variant_of_the_id",
    "Deku.C37_definition_rejects_other_ids",
    "Deku.C37_enum_round_trip",
    "Deku.C37_range_accepts_exactly_its_bytes",
    "Deku.C37_reads_the_selected_variant",
    "Deku.C37_reads_the_stored_id",
    "Deku.C37_selection_is_determined",
    "Deku.C37_unknown_id_is_a_parse_error",
    "Deku.C37_writes_the_id"
   ],
   "note": "Selection is characterised independently (Selects; VKind.ids for literal, range and wildcard ids); ids from a type, stored ids and ids from the context; round trip for every variant that fits. Missing because false: an id_pat variant with an id from the context whose first field has attributes that change how it is read (C37_context_id_pattern_field_loses_its_attributes, ..._its_size)."
  },
  {
   "property": "C38",
   "status": "partial",
   "theorems": [
    "Deku.C38_counterexample_endian_only",
    "Deku.C38_id_written_as_read_partial",
    "Deku.C38_stored_id_round_trip_partial"
   ],
   "note": "False with an endianness but no size on the enum (C38_counterexample_endian_only): the stored id is written with the wrong endianness. Proved for unsigned ids otherwise."
  },
  {
   "property": "C39",
   "status": "partial",
   "theorems": [
    "Deku.C39_enum_needs_its_magic",
    "Deku.C39_enum_writes_its_magic_partial",
    "Deku.C39_field_needs_its_magic",
    "Deku.C39_field_writes_its_magic_partial",
    "Deku.C39_magic_between_lsb0_fields_is_not_read_back",
    "Deku.C39_struct_needs_its_magic",
    "Deku.C39_struct_writes_its_magic_partial"
   ],
   "note": "Reading: proved for structs, enums and fields, every reader state on a source that does not fail. Writing: proved for Msb0 and at byte boundaries; between Lsb0 fields in the middle of a byte the magic is misplaced and not read back (C39_magic_between_lsb0_fields_is_not_read_back)."
  },
  {
   "property": "C40",
   "status": "proved",
   "theorems": [
    "Deku.C40_read_fails_at_the_field",
    "Deku.C40_read_values_satisfy_assertions",
    "Deku.C40_write_fails_at_the_field",
    "Deku.C40_written_values_satisfy_assertions"
   ],
   "note": "Any definition, any nesting depth, both directions; the failing field is located exactly."
  },
  {
   "property": "C41",
   "status": "partial",
   "theorems": [
    "Deku.C41_negative_padding_is_refused",
    "Deku.C41_padding_in_another_order_moves_bits",
    "Deku.C41_padding_is_ignored_partial",
    "Deku.C41_padding_is_zero_partial"
   ],
   "note": "Proved for padding in the bit order of the stream, any alignment, any size below 2^64; padding in the other bit order within a byte moves bits (C41_padding_in_another_order_moves_bits)."
  },
  {
   "property": "C42",
   "status": "partial",
   "theorems": [
    "Deku.C42_counterexample_cond_is_ignored_on_write",
    "Deku.C42_false_condition_reads_nothing",
    "Deku.C42_optional_round_trip_partial",
    "Deku.C42_skip_cond_round_trip_partial",
    "Deku.C42_skip_is_symmetric",
    "Deku.C42_true_condition_reads_the_field"
   ],
   "note": "False for cond without skip: the condition is ignored on write (C42_counterexample_cond_is_ignored_on_write). Proved with skip + cond and for optional values."
  },
  {
   "property": "C43",
   "status": "proved",
   "theorems": [
    "Deku.C43_consistent_is_unchanged",
    "Deku.C43_count_is_the_length",
    "Deku.C43_dependent_updates_need_another_update",
    "Deku.C43_documented_size_is_not_the_size",
    "Deku.C43_round_trip_after_update",
    "Deku.C43_update_fails",
    "Deku.C43_update_is_idempotent",
    "Deku.C43_update_makes_consistent"
   ],
   "note": "Any definition whose update expressions do not refer to updated fields (otherwise another update is needed, C43_dependent_updates_need_another_update); the round trip for a count of W bytes with any element type and any further fields. Fields.update is update of named fields and of variants; tuple structs are C99."
  },
  {
   "property": "C44",
   "status": "partial",
   "theorems": [
    "Deku.C44_chain_is_one_pass_partial",
    "Deku.C44_chain_of_whole_bytes_partial",
    "Deku.C44_lsb0_rest_is_read_again",
    "Deku.C44_lsb0_whole_bytes_chain_partial",
    "Deku.C44_rest_is_unconsumed_input_partial",
    "Deku.C44_rest_of_definitions_partial",
    "Deku.C44_two_messages_partial"
   ],
   "note": "Accounting proved for every format without seeks and read_all; chaining proved for any sequence of Msb0 formats at any bit offset, and for any mix of orders when messages end at byte boundaries. False for Lsb0 messages that end inside a byte (C44_lsb0_rest_is_read_again)."
  },
  {
   "property": "C45",
   "status": "partial",
   "theorems": [
    "Deku.C45_accepts_what_was_written_partial",
    "Deku.C45_exactly_complete_messages_partial",
    "Deku.C45_four_bits_are_rejected",
    "Deku.C45_leftover_is_an_error",
    "Deku.C45_partial_byte_is_rejected"
   ],
   "note": "Success exactly when the whole input is consumed, for every format without seeks and read_all. False that the output of to_bytes is always accepted: messages of a fractional number of bytes are rejected (C45_partial_byte_is_rejected)."
  },
  {
   "property": "C46",
   "status": "partial",
   "theorems": [
    "Deku.C46_absent_fields_are_counted",
    "Deku.C46_bits_of_an_array_are_counted_once",
    "Deku.C46_bytes_of_u8_are_not_used",
    "Deku.C46_defined",
    "Deku.C46_from_bytes_partial",
    "Deku.C46_integers",
    "Deku.C46_largest_variant_partial",
    "Deku.C46_read_bound_partial",
    "Deku.C46_read_partial",
    "Deku.C46_sizes",
    "Deku.C46_skipped_fields_are_counted",
    "Deku.C46_temporary_fields_are_not_counted",
    "Deku.C46_to_bits_partial",
    "Deku.C46_write_bound_partial",
    "Deku.C46_write_partial"
   ],
   "note": "Proved for every definition whose fields are always present and counted (Ty.Regular): exact without enums, an upper bound attained by the largest variant with enums, both directions. False for temporary fields, skip/cond fields, bits on arrays and bytes on u8 (C46_temporary_fields_are_not_counted, C46_skipped_fields_are_counted, C46_absent_fields_are_counted, C46_bits_of_an_array_are_counted_once, C46_bytes_of_u8_are_not_used)."
  },
  {
   "property": "C47",
   "status": "partial",
   "theorems": [
    "Deku.C47_agree_partial",
    "Deku.C47_counterexample_pending_bits_are_not_counted",
    "Deku.C47_offset_counts_from_the_start_of_the_input",
    "Deku.C47_read",
    "Deku.C47_read_expressions",
    "Deku.C47_write_expressions_partial",
    "Deku.C47_write_partial"
   ],
   "note": "Reading: proved for every format without seeks and read_all, at every alignment. Writing: the offset is the number of bits produced, rounded down to whole bytes (pending bits are not counted, C47_counterexample_pending_bits_are_not_counted), so byte_offset is right everywhere and bit_offset at byte boundaries. The offset counts from the start of the input, not of the message (C47_offset_counts_from_the_start_of_the_input)."
  },
  {
   "property": "C48",
   "status": "proved",
   "theorems": [
    "Deku.C48_consumed_bits_suffice",
    "Deku.C48_consumed_bytes_suffice",
    "Deku.C48_consumed_bytes_suffice_for_definitions"
   ],
   "note": "Every format without seeks and read_all, any mix of bit orders, down to the byte in which parsing stopped; down to the bit for formats in one bit order, at every offset."
  },
  {
   "property": "C49",
   "status": "partial",
   "theorems": [
    "Deku.C49_default_variant_changes_the_id",
    "Deku.C49_integers",
    "Deku.C49_lsb0_big_endian_is_rejected",
    "Deku.C49_only_one_encoding_partial",
    "Deku.C49_padding_is_lost",
    "Deku.C49_reserialises_the_bits_consumed_partial",
    "Deku.C49_temporary_field_is_lost",
    "Deku.C49_to_bytes_after_from_bytes_partial",
    "Deku.C49_to_bytes_after_try_from_partial",
    "Deku.C49_unaligned_bytes_are_mirrored",
    "Deku.C49_unread_field_is_written",
    "Deku.C49_whole_bytes_partial"
   ],
   "note": "Proved for every definition in which every bit is represented and read and written in the same layout (Ty.Canon), every input and alignment. False for Lsb0 big endian bit fields over several bytes (C49_lsb0_big_endian_is_rejected) and Vec<u8> with a count in the middle of a byte (C49_unaligned_bytes_are_mirrored)."
  },
  {
   "property": "C50",
   "status": "partial",
   "theorems": [
    "Deku.C50_bytes_beyond_the_end_panic",
    "Deku.C50_elements_that_seek_back_panic",
    "Deku.C50_empty_bytes_in_read_all_panic",
    "Deku.C50_from_bytes_never_panics_partial",
    "Deku.C50_from_reader_never_panics_partial",
    "Deku.C50_integers",
    "Deku.C50_large_byte_count_panics",
    "Deku.C50_large_count_panics",
    "Deku.C50_large_size_limit_panics",
    "Deku.C50_padding_elements_never_end",
    "Deku.C50_structural_partial",
    "Deku.C50_try_from_never_panics_partial",
    "Deku.C50_zero_bits_panic"
   ],
   "note": "Proved for every definition that meets Ty.Safe (and the structural Ty.Tame), every input, every offset; unconditionally false: counts that cannot be allocated, size computations that overflow, Vec<u8> beyond the end or after a peek, elements that seek back, elements of padding only."
  },
  {
   "property": "C51",
   "status": "partial",
   "theorems": [
    "Deku.C51_failed_reader_seek_loses_pending_bits",
    "Deku.C51_reader_seek",
    "Deku.C51_reader_seek_start_succeeds",
    "Deku.C51_writer_seek_loses_pending_bits",
    "Deku.C51_writer_seek_partial"
   ],
   "note": "Reader seek proved. The writer statement is false: pending bits are dropped (C51_writer_seek_loses_pending_bits); proved when no bits are pending."
  },
  {
   "property": "C52",
   "status": "partial",
   "theorems": [
    "Deku.C52_failed_read_exact_miscounts",
    "Deku.C52_needsize_least",
    "Deku.C52_noseek_position_partial",
    "Deku.C52_noseek_seek"
   ],
   "note": "NeedSize and NoSeek seeking proved; the reported position is wrong after a failed read_exact (C52_failed_read_exact_miscounts), otherwise exact."
  },
  {
   "property": "C53",
   "status": "proved",
   "theorems": [
    "Deku.C53_incomplete_is_enough"
   ],
   "note": "For bit reads and byte reads, including readers with a peeked byte."
  },
  {
   "property": "C54",
   "status": "proved",
   "theorems": [
    "Deku.C54_otherwise_read_as_usual",
    "Deku.C54_otherwise_written_as_usual",
    "Deku.C54_skipped_is_not_read",
    "Deku.C54_skipped_is_not_written",
    "Deku.C54_skipped_type_is_not_used_reading",
    "Deku.C54_skipped_type_is_not_used_writing"
   ],
   "note": "For every definition: both directions, each skip attribute, and fields without it behave as if it were absent."
  },
  {
   "property": "C55",
   "status": "partial",
   "theorems": [
    "Deku.C55_byte_list_seeks",
    "Deku.C55_finalize_needs_no_seek",
    "Deku.C55_offset_seeks",
    "Deku.C55_padding_seeks",
    "Deku.C55_programs_read_without_seeking_partial",
    "Deku.C55_programs_write_without_seeking",
    "Deku.C55_reading_needs_no_seek_partial",
    "Deku.C55_reading_on_needs_no_seek_partial",
    "Deku.C55_writing_needs_no_seek"
   ],
   "note": "Writing proved. Reading is false for Vec<u8> with a count, padding of a byte or more and offsets of a byte or more (C55_byte_list_seeks, C55_padding_seeks, C55_offset_seeks); proved for all other definitions."
  },
  {
   "property": "C56",
   "status": "partial",
   "theorems": [
    "Deku.C56_cut_in_padding_panics",
    "Deku.C56_cut_input_of_definitions_partial",
    "Deku.C56_cut_input_partial",
    "Deku.C56_missing_bits_of_definitions_partial",
    "Deku.C56_missing_bits_partial",
    "Deku.C56_missing_bytes_partial",
    "Deku.C56_try_from_partial"
   ],
   "note": "False for a padding or an offset of whole bytes before a Vec<u8> with a count, which panics when the input ends in the padding (C56_cut_in_padding_panics); proved for definitions that do not have both. With Vec<u8> counts, for inputs below 2^61 bytes."
  },
  {
   "property": "C57",
   "status": "partial",
   "theorems": [
    "Deku.C57_calls_do_not_panic_partial",
    "Deku.C57_entry_points_do_not_panic_partial",
    "Deku.C57_integers_do_not_panic_partial",
    "Deku.C57_seek_out_of_range_panics",
    "Deku.C57_to_writer_does_not_panic_partial",
    "Deku.C57_writing_on_after_an_error_panics",
    "Deku.C57_zero_bits_panics"
   ],
   "note": "False for fields of 0 bits, seek expressions out of range and a writer used after an error of the sink (counterexamples); proved for all definitions without the first two up to the first error. Leaves other than integers by assumption."
  },
  {
   "property": "C58",
   "status": "proved",
   "theorems": [
    "Deku.C58_bounded_bit_vec",
    "Deku.C58_reader_shows_only_pending_bits",
    "Deku.C58_stale_bits_do_not_show",
    "Deku.C58_writer_shows_only_pending_bits"
   ],
   "note": "Refinement between two transcriptions of the reader and writer. The layers above (integers, collections, derive) are modelled on the reader and writer with lists only; they use no other access to the leftover than these calls."
  },
  {
   "property": "C59",
   "status": "partial",
   "theorems": [
    "Deku.C59_messages_are_read_in_turn_partial",
    "Deku.C59_messages_are_written_in_turn",
    "Deku.C59_padding_counts_from_the_start_of_the_stream",
    "Deku.C59_padding_ends_lists_early",
    "Deku.C59_pending_bits_need_finalize",
    "Deku.C59_programs_exchange_messages_partial",
    "Deku.C59_programs_read_from_where_the_stream_stands_partial",
    "Deku.C59_programs_write_in_turn",
    "Deku.C59_programs_write_where_the_sink_stands",
    "Deku.C59_reads_from_where_the_stream_stands_partial",
    "Deku.C59_refused_message_is_consumed",
    "Deku.C59_stops_behind_the_message_partial",
    "Deku.C59_stream_round_trip_partial",
    "Deku.C59_writes_where_the_sink_stands"
   ],
   "note": "Writing proved. Reading is false with padding of a byte or more, after which bits_read counts from the start of the stream (C59_padding_counts_from_the_start_of_the_stream, C59_padding_ends_lists_early); proved without. A refused message is consumed (C59_refused_message_is_consumed)."
  },
  {
   "property": "C60",
   "status": "partial",
   "theorems": [
    "Deku.C60_default_variant_reports_another_id",
    "Deku.C60_deku_id_identifies_the_variant",
    "Deku.C60_deku_id_is_the_context_id_partial",
    "Deku.C60_deku_id_is_the_id_read_partial",
    "Deku.C60_deku_id_is_total",
    "Deku.C60_deku_id_is_written",
    "Deku.C60_discriminant_is_not_reported"
   ],
   "note": "Totality, agreement with the writer and identification proved for every definition; agreement with the id read proved when it matches the pattern of some variant. False for an id that falls to the default variant (C60_default_variant_reports_another_id); a discriminant is not reported (C60_discriminant_is_not_reported)."
  },
  {
   "property": "C61",
   "status": "proved",
   "theorems": [
    "Deku.C61_big_endian_lsb0_is_not_checked",
    "Deku.C61_checked_definitions_round_trip",
    "Deku.C61_rest_is_what_was_appended"
   ],
   "note": "For the core language of definitions given as data (Model/Core.lean); all conditions are decidable. C61_big_endian_lsb0_is_not_checked shows that the check is needed."
  },
  {
   "property": "C62",
   "status": "proved",
   "theorems": [
    "Deku.C62_to_bytes_decides",
    "Deku.C62_values_of_the_type_never_panic"
   ],
   "note": "For the core language of definitions given as data; exact error, exact size, no panics for values of the type."
  },
  {
   "property": "C63",
   "status": "proved",
   "theorems": [
    "Deku.C63_entry_points_return_values_of_the_type",
    "Deku.C63_values_read_are_of_the_type",
    "Deku.C63_what_was_parsed_is_written_without_panic",
    "Deku.C63_wrong_default_is_not_of_the_type"
   ],
   "note": "For the core language, all reader states and faulty sources; defaults of skipped fields must be of the field's type (in Rust they do not compile otherwise)."
  },
  {
   "property": "C64",
   "status": "proved",
   "theorems": [
    "Deku.C64_large_count_is_rejected",
    "Deku.C64_parse_and_serialise_without_panics",
    "Deku.C64_rejected_definitions_panic",
    "Deku.C64_safe_definitions_parse_without_panics"
   ],
   "note": "For the core language; the check is a computable function, C64_rejected_definitions_panic shows for each way of failing it an input that panics."
  },
  {
   "property": "C65",
   "status": "proved",
   "theorems": [
    "Deku.C65_array_read_is_defined",
    "Deku.C65_every_element_is_dropped_once"
   ],
   "note": "The transcription tracks every slot of the MaybeUninit array; a panic of an element reader leaks the elements read so far, which is safe. Refines the model of arrays used everywhere else."
  },
  {
   "property": "C66",
   "status": "proved",
   "theorems": [
    "Deku.C66_entry_points_return_conforming_values",
    "Deku.C66_other_values_never_come_back",
    "Deku.C66_what_was_parsed_satisfies_the_definition"
   ],
   "note": "For the core language; for lists limited by a size only the case 0 is covered here, see C29."
  },
  {
   "property": "C67",
   "status": "partial",
   "theorems": [
    "Deku.C67_bits_read_is_ignored_with_until",
    "Deku.C67_limits_are_kept_partial",
    "Deku.C67_the_limit_was_written",
    "Deku.C67_until_is_ignored_with_count",
    "Deku.C67_what_is_ignored"
   ],
   "note": "False of the code: until together with count, bytes_read or bits_read is accepted and one of them ignored (C67_until_is_ignored_with_count, C67_bits_read_is_ignored_with_until); C67_what_is_ignored is exact. Proved for all other sources; missing: sizes of lists limited by a size other than 0 (see C29), and lists inside options, arrays and pairs."
  },
  {
   "property": "C68",
   "status": "partial",
   "theorems": [
    "Deku.C68_attributes_of_the_type_go_to_its_fields_partial",
    "Deku.C68_stored_ids_are_written_without_the_endianness"
   ],
   "note": "False of the code for ids stored in a field (C68_stored_ids_are_written_without_the_endianness). Proved for all other sources."
  },
  {
   "property": "C69",
   "status": "proved",
   "theorems": [
    "Deku.C69_consistent_values_round_trip",
    "Deku.C69_definitions_in_bytes_always_serialise",
    "Deku.C69_definitions_in_bytes_round_trip"
   ],
   "note": "For the source language of Model/Source.lean."
  },
  {
   "property": "C70",
   "status": "partial",
   "theorems": [
    "Deku.C70_bit_fields_round_trip_partial",
    "Deku.C70_byte_lists_behind_bits_do_not_round_trip"
   ],
   "note": "False of the code with a Vec<u8> with a count behind bits (C70_byte_lists_behind_bits_do_not_round_trip). Proved for all other sources that name no bit order."
  },
  {
   "property": "C71",
   "status": "proved",
   "theorems": [
    "Deku.C71_accepted_by_the_macro_but_not_by_the_compiler",
    "Deku.C71_integer_attributes_mean_what_they_say",
    "Deku.C71_which_attributes_compile",
    "Deku.C71_which_attributes_compile_on_nonzero"
   ],
   "note": "Exactly which combinations of endian, bits, bytes and bit_order compile, and the exact bits each of them means, both directions, for unsigned integers at the start of a message; big endian Lsb0 bit fields over a byte below the type are excluded (C20). What the macro accepts and the compiler does not is shown (C71_accepted_by_the_macro_but_not_by_the_compiler)."
  },
  {
   "property": "C72",
   "status": "partial",
   "theorems": [
    "Deku.C72_descriptions_are_prefix_free_partial",
    "Deku.C72_stored_ids_are_not_written_as_described",
    "Deku.C72_types_and_sizes_are_those_of_the_source",
    "Deku.C72_what_is_written_is_what_the_source_describes",
    "Deku.C72_what_the_source_describes_is_parsed_partial"
   ],
   "note": "Writing: proved for every source without bit_order = lsb, every value accepted. False where an id is stored in a field and the enum has an endian without an id_endian (C72_stored_ids_are_not_written_as_described). Parsing and prefix-freeness: plain sources, values that are consistent and not refused."
  },
  {
   "property": "C73",
   "status": "partial",
   "theorems": [
    "Deku.C73_attributes_accepted",
    "Deku.C73_conflicting_limits_accepted",
    "Deku.C73_converted_the_same",
    "Deku.C73_offsets_panic_without_bits",
    "Deku.C73_padding_after_a_peek",
    "Deku.C73_padding_beyond_the_end",
    "Deku.C73_padding_beyond_the_end_before_a_seek",
    "Deku.C73_parsed_the_same",
    "Deku.C73_read_the_same_partial",
    "Deku.C73_refused_the_same",
    "Deku.C73_round_trip_without_bits",
    "Deku.C73_seeking_partial",
    "Deku.C73_written_the_same"
   ],
   "note": "Writing, from_bytes, TryFrom and the round trip: proved for every source without the attributes of the feature and without padding in elements read with read_all, at offset 0. from_reader: values that end within the data. False for padding beyond the end with from_reader, padding after a peek, and offsets other than 0 (counterexamples). With seek_* one direction only, the other is false."
  },
  {
   "property": "C74",
   "status": "partial",
   "theorems": [
    "Deku.C74_bytes_within_bytes_are_not_written_as_described",
    "Deku.C74_described_is_parsed_in_either_bit_order",
    "Deku.C74_descriptions_are_prefix_free_in_either_bit_order",
    "Deku.C74_other_orders_are_not_written_as_described",
    "Deku.C74_written_as_described_in_either_bit_order"
   ],
   "note": "Writing: every source all of whose bit-sized parts are in one bit order, every value accepted whose bytes begin at bytes (in Lsb0). Parsing and prefix-freeness: sources that pass the check of C61, values that are consistent and not refused. False for bytes within bytes in Lsb0, for big endian Lsb0 fields of more than a byte and less than their type, and for mixed bit orders (C74_..._not_written_as_described)."
  },
  {
   "property": "C75",
   "status": "partial",
   "theorems": [
    "Deku.C75_consistent_values_are_parsed_as_described",
    "Deku.C75_consistent_values_are_told_apart",
    "Deku.C75_consistent_values_are_written_as_described",
    "Deku.C75_consistent_values_round_trip",
    "Deku.C75_inconsistent_values_do_not_come_back",
    "Deku.C75_misaligned_values_do_not_come_back"
   ],
   "note": "Proved for every source all of whose bit-sized parts are in one bit order, without context arguments at the top, every value that its attributes describe and whose byte parts begin at bytes. False for misaligned Vec<u8> with a count and integers of the other bit order behind bit fields (C75_misaligned_values_do_not_come_back); negative numbers in bits with a bit_order and in bytes less than the type are not described (C75_inconsistent_values_do_not_come_back). Lists with read_all: C86. Not covered: mixed orders of bit fields."
  },
  {
   "property": "C76",
   "status": "partial",
   "theorems": [
    "Deku.C76_bit_orders_agree",
    "Deku.C76_clear_sources_are_parsed_exactly",
    "Deku.C76_clear_sources_decide_every_input",
    "Deku.C76_described_values_are_recognised",
    "Deku.C76_inputs_are_parsed_as_described",
    "Deku.C76_nothing_is_said_of_these",
    "Deku.C76_other_inputs_are_rejected",
    "Deku.C76_try_from_takes_all_of_the_input"
   ],
   "note": "Proved for every source without context arguments at the top whose sizes fit its types, every input and offset on which the parser says something; STy.clear shows for a source that this is every input. Nothing is said of a Vec<u8> with a count or integers of the other bit order within a byte, a Vec<u8> with a count and bits, lists with two limits, and padding right after the peek of read_all (C76_nothing_is_said_of_these)."
  },
  {
   "property": "C77",
   "status": "partial",
   "theorems": [
    "Deku.C77_paddings_are_lost",
    "Deku.C77_parsed_bits_are_written",
    "Deku.C77_parsed_values_are_described",
    "Deku.C77_parsed_values_can_be_written",
    "Deku.C77_these_are_parsed_and_not_written_again",
    "Deku.C77_to_bytes_after_try_from",
    "Deku.C77_try_from_is_injective",
    "Deku.C77_try_from_takes_exactly_the_descriptions"
   ],
   "note": "Proved for every source without context arguments at the top that is in one bit order, clear (C76) and faithful (a static check), every input shorter than 2^61 bytes and than the memory; exact bytes without paddings; in Lsb0 if bytes begin at bytes. False where faithful or padless fail (C77_these_are_parsed_and_not_written_again, C77_paddings_are_lost); temp fields are not covered; read_all: C86."
  },
  {
   "property": "C78",
   "status": "proved",
   "theorems": [
    "Deku.C78_map_error_is_reported",
    "Deku.C78_map_is_applied_to_what_was_read",
    "Deku.C78_map_is_not_applied_to_defaults",
    "Deku.C78_map_is_not_undone"
   ],
   "note": "The equation for a field with nothing but map covers every stream, fault schedule and offset; the error theorem allows all other attributes except bit_offset and byte_offset."
  },
  {
   "property": "C79",
   "status": "partial",
   "theorems": [
    "Deku.C79_bit_orders_agree",
    "Deku.C79_ends_in_padding",
    "Deku.C79_ends_in_padding_and_panics",
    "Deku.C79_entry_points_report_the_same",
    "Deku.C79_failures_are_reported_by_their_reason",
    "Deku.C79_reports_have_a_reason",
    "Deku.C79_sources_without_padding_report_exactly"
   ],
   "note": "Proved for every source and input of C76 on which the parser says why there is no value; exact in both directions for clear sources without paddings. If the input ends in whole bytes of a padding the code goes on reading: Incomplete or a failure that every longer input has, for the definitions of C56; a Vec<u8> with a count panics (C79_ends_in_padding_and_panics). The number in Incomplete and the texts of errors are not covered."
  },
  {
   "property": "C80",
   "status": "proved",
   "theorems": [
    "Deku.C80_default_variants_do_not_grow",
    "Deku.C80_entry_points_read_as_before",
    "Deku.C80_new_code_reads_as_the_old",
    "Deku.C80_new_code_writes_as_the_old",
    "Deku.C80_new_messages_are_refused",
    "Deku.C80_old_messages_keep_their_meaning",
    "Deku.C80_sources_can_grow",
    "Deku.C80_the_rest_is_as_before",
    "Deku.C80_variants_are_not_added_before_others"
   ],
   "note": "For all attributes of the model at the level of emitted code, where a value that is none of the old type is a panic of the old code; at the level of sources for all values of the old type. A variant is identified by its number, so only additions at the end are covered. Counterexamples for enums with a default variant and for variants added before others."
  },
  {
   "property": "C81",
   "status": "partial",
   "theorems": [
    "Deku.C81_empty_signed_fields_differ",
    "Deku.C81_integers_partial",
    "Deku.C81_integers_without_endianness_differ",
    "Deku.C81_machines_read_alike_partial",
    "Deku.C81_machines_write_alike_partial",
    "Deku.C81_messages_travel_partial",
    "Deku.C81_stored_ids_differ"
   ],
   "note": "False as stated, with counterexamples: an id stored in a field is written with id_endian only, so with endian alone it depends on the machine. Proved, as equality of functions, when such an id has id_endian; integers of one byte need no endianness, except an i8 with bits and bit_order, where the code for the two endiannesses differs (a panic for 0 bits, another state after a failed write). usize on machines of other sizes is not modelled. That what one machine writes the other reads back is stated for sources in bytes without assertions (C69), but follows wherever a value round-trips on one machine."
  },
  {
   "property": "C82",
   "status": "proved",
   "theorems": [
    "Deku.C82_added_fields_are_read_last",
    "Deku.C82_added_fields_are_written_last",
    "Deku.C82_messages_in_a_list_must_not_be_extended",
    "Deku.C82_new_messages_begin_with_old_ones",
    "Deku.C82_new_programs_refuse_old_messages",
    "Deku.C82_old_programs_follow_new_streams",
    "Deku.C82_old_programs_read_new_messages",
    "Deku.C82_padding_at_the_end_is_in_the_way",
    "Deku.C82_sources_can_be_extended",
    "Deku.C82_try_from_refuses_new_messages",
    "Deku.C82_whole_messages_are_read_or_refused"
   ],
   "note": "The last field on the way to the added fields has no cond, skip, assertion, map or padding after it, and temporary fields refer to fields before the added ones; the fields added are any. from_bytes and TryFrom for sources whose sizes are possible (Def.valid), from_reader and to_bytes for all. Beside the claims: a new program refuses old messages, TryFrom of an old program refuses new ones, and messages in a list must not be extended."
  },
  {
   "property": "C83",
   "status": "proved",
   "theorems": [
    "Deku.C83_builds_understand_each_other",
    "Deku.C83_finalize_after_a_failure",
    "Deku.C83_from_reader_is_the_same",
    "Deku.C83_incomplete_wraps_around",
    "Deku.C83_map_size_wraps_around",
    "Deku.C83_maps_are_the_same",
    "Deku.C83_panics_are_panics_of_the_debug_build",
    "Deku.C83_parsed_the_same",
    "Deku.C83_positions_wrap_around",
    "Deku.C83_round_trip",
    "Deku.C83_safe_definitions",
    "Deku.C83_same_in_every_state",
    "Deku.C83_sets_are_the_same",
    "Deku.C83_size_wraps_around",
    "Deku.C83_to_bits_is_the_same",
    "Deku.C83_to_writer_is_the_same",
    "Deku.C83_values_of_the_type",
    "Deku.C83_written_the_same",
    "Deku.C83_zero_bits_are_accepted"
   ],
   "note": "Wherever the debug build does not panic. Every function with a debug_assert or checked arithmetic is modelled again without it; maps and sets are leaves of a definition (C83_maps_are_the_same). Where the debug build panics the release build can accept a wrong message: C83_size_wraps_around, C83_zero_bits_are_accepted, C83_positions_wrap_around, C83_map_size_wraps_around."
  },
  {
   "property": "C84",
   "status": "proved",
   "theorems": [
    "Deku.C84_a_count_is_a_number_of_bits",
    "Deku.C84_a_newtype_is_its_field",
    "Deku.C84_a_number_of_bytes_is_a_number_of_bits",
    "Deku.C84_a_tuple_is_a_struct",
    "Deku.C84_a_vec_of_zero_sized_elements_is_not_read",
    "Deku.C84_an_array_is_a_counted_vec",
    "Deku.C84_an_array_is_a_struct",
    "Deku.C84_an_array_of_arrays_is_an_array",
    "Deku.C84_an_option_that_is_there",
    "Deku.C84_fields_in_a_struct_of_their_own",
    "Deku.C84_in_a_field",
    "Deku.C84_in_a_struct",
    "Deku.C84_in_a_tuple",
    "Deku.C84_in_a_variant",
    "Deku.C84_in_a_vec",
    "Deku.C84_in_an_array",
    "Deku.C84_in_an_option",
    "Deku.C84_magic_of_the_struct_or_of_its_first_field",
    "Deku.C84_no_value_is_lost",
    "Deku.C84_padding_after_or_before",
    "Deku.C84_padding_before_comes_after_the_magic",
    "Deku.C84_same_in_all_functions",
    "Deku.C84_step_by_step",
    "Deku.C84_temporary_fields_are_read_like_others",
    "Deku.C84_temporary_fields_are_written_like_others",
    "Deku.C84_the_id_before_the_enum_is_read_the_same",
    "Deku.C84_the_id_before_the_enum_is_written_the_same",
    "Deku.C84_the_size_is_the_same"
   ],
   "note": "Ten laws and congruences for every kind of definition. Definitions are taken after endian and bit_order have been inherited; fields with map or a writer are not replaced by others (C84_in_a_field), but may stand around. Where a law needs a condition a counterexample shows why: C84_a_vec_of_zero_sized_elements_is_not_read, C84_padding_before_comes_after_the_magic."
  },
  {
   "property": "C85",
   "status": "partial",
   "theorems": [
    "Deku.C85_a_piece_that_ends_before_a_padding_panics",
    "Deku.C85_all_messages_are_delivered_partial",
    "Deku.C85_incomplete_asks_for_more_than_is_missing",
    "Deku.C85_messages_are_delivered_when_they_are_complete_partial",
    "Deku.C85_pieces_are_like_the_whole_partial",
    "Deku.C85_pieces_make_no_difference_partial",
    "Deku.C85_read_all_ends_with_the_piece",
    "Deku.C85_the_loop_ends"
   ],
   "note": "For definitions without read_all and seek_* that do not have both a Vec<u8> with a count and a padding of a byte or more, found out by computation (Def.cuttable). The full statement is false: C85_a_piece_that_ends_before_a_padding_panics. C85_read_all_ends_with_the_piece and C85_incomplete_asks_for_more_than_is_missing show other limits. Inputs are shorter than 2^61 bytes."
  },
  {
   "property": "C86",
   "status": "partial",
   "theorems": [
    "Deku.C86_elements_are_made_of_the_filling",
    "Deku.C86_from_bytes_leaves_nothing_partial",
    "Deku.C86_nothing_is_left_for_what_follows",
    "Deku.C86_parsed_values_are_described_partial",
    "Deku.C86_read_all_is_some_size_partial",
    "Deku.C86_to_bytes_after_try_from_partial",
    "Deku.C86_try_from_is_injective_partial",
    "Deku.C86_try_from_takes_exactly_the_descriptions_partial",
    "Deku.C86_values_are_written_as_described",
    "Deku.C86_values_come_back_partial"
   ],
   "note": "For sources in which read_all is only on the last thing read (STy.openEnded, a static check) and that are clear (C76) and, for what is parsed, faithful (C77); values come back if their last byte is full. The full statement is false: C86_elements_are_made_of_the_filling, C86_nothing_is_left_for_what_follows."
  },
  {
   "property": "C87",
   "status": "proved",
   "theorems": [
    "Deku.C87_long_lists_have_wrong_temp_lengths",
    "Deku.C87_temp_lengths_are_right",
    "Deku.C87_update_does_not_reach_what_is_inside",
    "Deku.C87_update_of_a_variant_stores_the_lengths",
    "Deku.C87_update_stores_the_lengths",
    "Deku.C87_updated_values_come_back"
   ],
   "note": "Which lists are counted by a field that holds their length is read off the attributes (STy.loose); the fields updated must not be among those whose length is taken (plansFit). Both conditions matter: C87_update_does_not_reach_what_is_inside, C87_long_lists_have_wrong_temp_lengths."
  },
  {
   "property": "C88",
   "status": "proved",
   "theorems": [
    "Deku.C88_elements_that_read_nothing_multiply",
    "Deku.C88_values_are_no_larger_than_the_input",
    "Deku.C88_values_are_no_larger_than_what_was_read",
    "Deku.C88_values_from_a_stream"
   ],
   "note": "The two numbers are computed from the definition (Def.least, Def.rate). The condition on list elements (Def.dense) is needed: C88_elements_that_read_nothing_multiply. It is about the value built, not about the capacity that a count reserves before anything is read (C50, finding 14)."
  },
  {
   "property": "C89",
   "status": "proved",
   "theorems": [
    "Deku.C89_calls_are_paid_by_what_was_read",
    "Deku.C89_elements_that_read_nothing_call",
    "Deku.C89_parsing_takes_a_linear_number_of_calls"
   ],
   "note": "The two numbers are computed from the definition (Def.calls, Def.callRate). The condition on list elements (Def.dense) is needed: C89_elements_that_read_nothing_call. Calls are those of the std::io::Read and Seek methods of the source; the first theorem covers errors and panics. Time spent between calls is not counted."
  },
  {
   "property": "C90",
   "status": "proved",
   "theorems": [
    "Deku.C90_any_bytes_are_an_enum_value_or_incomplete",
    "Deku.C90_any_twenty_bytes_are_an_ipv4_header",
    "Deku.C90_enum_values_are_id_and_fields",
    "Deku.C90_frames_are_two_bytes_from_the_low_bits_up",
    "Deku.C90_ipv4_headers_are_as_in_the_diagram",
    "Deku.C90_ipv4_headers_out_of_range_are_refused",
    "Deku.C90_samples_are_as_in_the_diagram",
    "Deku.C90_short_ipv4_headers_are_incomplete",
    "Deku.C90_two_bytes_are_a_frame"
   ],
   "note": "sources of four example programs; bytes given by arithmetic"
  },
  {
   "property": "C91",
   "status": "partial",
   "theorems": [
    "Deku.C91_bits_before_a_jump_are_lost",
    "Deku.C91_checked_formats_that_jump",
    "Deku.C91_empty_list_behind_a_gap_is_not_read",
    "Deku.C91_formats_that_jump_round_trip",
    "Deku.C91_overlapping_fields_do_not_come_back",
    "Deku.C91_seek_from_end_differs_while_writing",
    "Deku.C91_to_slice_counts_the_fields_and_keeps_the_gaps"
   ],
   "note": "the round trip is proved for fields of whole bytes that do not overlap and seeks from the start or the current position; overlaps, seeks from the end, empty lists behind a gap and bits before a jump do not come back (counterexamples)"
  },
  {
   "property": "C92",
   "status": "proved",
   "theorems": [
    "Deku.C92_a_difference_underflows",
    "Deku.C92_a_product_overflows",
    "Deku.C92_debug_and_release_agree",
    "Deku.C92_parse_and_serialise_without_panics",
    "Deku.C92_reading_is_exact",
    "Deku.C92_rejected_counts_panic",
    "Deku.C92_writing_can_overflow",
    "Deku.C92_writing_is_exact"
   ],
   "note": "expressions of one type each, with fields and arguments converted by as; what the check rejects can panic or misread (counterexamples)"
  },
  {
   "property": "C93",
   "status": "proved",
   "theorems": [
    "Deku.C93_a_buffer_reads_ahead",
    "Deku.C93_a_pause_is_taken_for_the_end",
    "Deku.C93_any_honest_stream_is_one_with_faults",
    "Deku.C93_any_reliable_stream_will_do",
    "Deku.C93_definitions_only_call",
    "Deku.C93_files_and_buffers_keep_the_contract",
    "Deku.C93_maps_and_sets_only_call",
    "Deku.C93_reading_only_calls",
    "Deku.C93_short_reads_interruptions_and_buffers_are_invisible"
   ],
   "note": "for streams that keep a contract of read_exact, seek and stream_position; the loop of std read_exact and BufReader are modelled and proved to keep it. A pause taken for the end and reading ahead are shown beside it"
  },
  {
   "property": "C94",
   "status": "partial",
   "theorems": [
    "Deku.C94_any_honest_sink_is_one_with_faults",
    "Deku.C94_any_reliable_sink_will_do",
    "Deku.C94_definitions_only_call",
    "Deku.C94_files_and_buffers_keep_the_contract",
    "Deku.C94_maps_only_call",
    "Deku.C94_short_writes_interruptions_and_buffers_are_invisible",
    "Deku.C94_success_does_not_mean_stored",
    "Deku.C94_writing_only_calls"
   ],
   "note": "everything but the last sentence: the code never calls flush, so on a BufWriter success does not mean that the bytes are stored (C94_success_does_not_mean_stored). Formats with seek attributes are left out: what a seek beyond the end leaves behind is up to the sink"
  },
  {
   "property": "C95",
   "status": "partial",
   "theorems": [
    "Deku.C95_expression_ignores_what_it_does_not_mention",
    "Deku.C95_field_hides_the_argument_while_writing",
    "Deku.C95_offset_differs_between_reading_and_writing",
    "Deku.C95_offset_in_paddings_is_stale",
    "Deku.C95_reading_follows_the_names",
    "Deku.C95_renaming_changes_nothing",
    "Deku.C95_round_trip_partial",
    "Deku.C95_writing_follows_the_same_names_partial"
   ],
   "note": "renaming for all definitions; the rest for definitions in which no attribute mentions its own field or a later one (as an argument of the same name), and deku::bit_offset only where the emitted code renews it. Otherwise it is false: C95_field_hides_the_argument_while_writing, C95_offset_in_paddings_is_stale, C95_offset_differs_between_reading_and_writing"
  },
  {
   "property": "C96",
   "status": "partial",
   "theorems": [
    "Deku.C96_counted_map_fits",
    "Deku.C96_counted_set_fits",
    "Deku.C96_map_field_reads_a_list_of_pairs",
    "Deku.C96_map_fits_if_its_entries_fit",
    "Deku.C96_message_round_trip",
    "Deku.C96_order_of_the_entries_is_lost",
    "Deku.C96_repeated_key_is_not_written_back",
    "Deku.C96_same_map_iff_same_lookup",
    "Deku.C96_same_set_iff_same_elements",
    "Deku.C96_set_field_reads_a_list",
    "Deku.C96_set_fits_if_its_elements_fit",
    "Deku.C96_sized_map_fits",
    "Deku.C96_until_depends_on_the_hasher"
   ],
   "note": "round trip for every iteration order with limits count and bits (C96_map_fits_if_its_entries_fit covers the others, for the order at hand); false for until, where it depends on the hasher (C96_until_depends_on_the_hasher), and for messages with a repeated key (C96_repeated_key_is_not_written_back)"
  },
  {
   "property": "C97",
   "status": "partial",
   "theorems": [
    "Deku.C97_depth_is_bounded_by_the_input",
    "Deku.C97_every_stack_can_be_exhausted",
    "Deku.C97_large_stacks_agree",
    "Deku.C97_never_panics_partial",
    "Deku.C97_reading_does_not_depend_on_the_stack",
    "Deku.C97_recursion_that_reads_nothing_never_ends",
    "Deku.C97_round_trip",
    "Deku.C97_trees_round_trip",
    "Deku.C97_writing_does_not_depend_on_the_stack"
   ],
   "note": "stack independence, round trip and the bound on the depth are proved for all families of definitions of the grammar Shape / Guarded; that parsing never panics is false of small stacks (C97_every_stack_can_be_exhausted) and of unguarded recursion (C97_recursion_that_reads_nothing_never_ends), and is proved for stacks of 8 calls per byte under the conditions of C50. Writing is bounded by the height of the value for trees only (C97_trees_round_trip)"
  },
  {
   "property": "C98",
   "status": "partial",
   "theorems": [
    "Deku.C98_appending_is_compatible",
    "Deku.C98_canonical",
    "Deku.C98_default_variant_forgets_the_id",
    "Deku.C98_discriminants_are_ids",
    "Deku.C98_explicit_numbers_do_not_depend_on_the_order",
    "Deku.C98_id_hides_a_discriminant",
    "Deku.C98_implicit_numbers_alone_are_refused",
    "Deku.C98_inserting_renumbers",
    "Deku.C98_numbering",
    "Deku.C98_numbers_of_a_type",
    "Deku.C98_other_ids_are_refused",
    "Deku.C98_pattern_variant_writes_another_id",
    "Deku.C98_readable_but_not_writable",
    "Deku.C98_reads_the_number",
    "Deku.C98_round_trip",
    "Deku.C98_the_last_integer_name_counts",
    "Deku.C98_unsafe_read_can_be_out_of_bounds",
    "Deku.C98_unsafe_reads_stay_inside_partial",
    "Deku.C98_what_can_be_written_can_be_read",
    "Deku.C98_writes_the_number"
   ],
   "note": "proved for declarations in which no variant has id, id_pat, default or fields (Plain); false otherwise: C98_id_hides_a_discriminant, C98_pattern_variant_writes_another_id, C98_default_variant_forgets_the_id. That the unsafe reads stay inside of the discriminant is false for an id_type such as Pair<u8> (C98_unsafe_read_can_be_out_of_bounds) and proved if id_type has the size of the integer it names. That explicit numbers can be refused by DekuWrite and accepted by DekuRead is C98_readable_but_not_writable"
  },
  {
   "property": "C99",
   "status": "partial",
   "theorems": [
    "Deku.C99_a_field_is_never_updated",
    "Deku.C99_fields_without_names_are_updated_partial",
    "Deku.C99_named_fields_are_updated",
    "Deku.C99_other_fields_are_updated",
    "Deku.C99_update_makes_consistent_partial",
    "Deku.C99_update_of_a_tuple_struct_assigns_another_field",
    "Deku.C99_update_of_a_tuple_struct_may_not_compile",
    "Deku.C99_updates_of_names_compile"
   ],
   "note": "proved for named fields and for tuple structs without a temporary field before an updated one; false in every other case: C99_a_field_is_never_updated (all definitions), C99_update_of_a_tuple_struct_assigns_another_field (a witness)"
  },
  {
   "property": "C100",
   "status": "partial",
   "theorems": [
    "Deku.Text.C100_other_text_is_kept",
    "Deku.Text.C100_other_variables_are_out_of_reach",
    "Deku.Text.C100_replacing_is_injective",
    "Deku.Text.C100_text_is_not_names",
    "Deku.Text.C100_the_mark_can_be_forged",
    "Deku.Text.C100_the_names_are_replaced"
   ],
   "note": "that the replacements are simultaneous, keep everything else, are injective and give access to no other variable is proved for all texts; that only names are replaced is false: it is text that is replaced (C100_text_is_not_names), so that the module deku::reader cannot be referred to, and an identifier that was not one of the four can get the reserved beginning (C100_the_mark_can_be_forged)"
  },
  {
   "property": "C101",
   "status": "partial",
   "theorems": [
    "Deku.Emit.C101_a_stored_id_has_no_attributes",
    "Deku.Emit.C101_a_stored_id_with_a_reader",
    "Deku.Emit.C101_bits_of_bytes_are_one_sided",
    "Deku.Emit.C101_default_with_skip_write",
    "Deku.Emit.C101_every_attribute_has_an_effect_partial",
    "Deku.Emit.C101_one_sided_attributes",
    "Deku.Emit.C101_padding_is_where_it_was_asked_for",
    "Deku.Emit.C101_seeks_of_types",
    "Deku.Emit.C101_temp_value_without_temp",
    "Deku.Emit.C101_what_has_no_effect",
    "Deku.Emit.C101_what_has_no_effect_on_reading",
    "Deku.Emit.C101_what_has_no_effect_on_update",
    "Deku.Emit.C101_what_has_no_effect_on_writing"
   ],
   "note": "the exact table of attributes without effect is proved for all sets of attributes, for reading, writing, update and all together; on a field without skip, temp, reader, writer and two limits every attribute but temp_value has an effect. The statement is false of the code in the other lines of the table: C101_temp_value_without_temp, C101_default_with_skip_write; C101_bits_of_bytes_are_one_sided; C101_a_stored_id_with_a_reader; C101_seeks_of_types"
  },
  {
   "property": "C102",
   "status": "proved",
   "theorems": [
    "Deku.C102_a_bad_payload_harms_no_other",
    "Deku.C102_a_number_of_eight_bytes_panics",
    "Deku.C102_a_short_payload_blocks_the_rest",
    "Deku.C102_all_messages_are_delivered",
    "Deku.C102_incomplete_iff_bytes_are_missing",
    "Deku.C102_nested",
    "Deku.C102_payloads_are_delivered_when_they_are_complete",
    "Deku.C102_pieces_make_no_difference",
    "Deku.C102_question_mark_waits_for_ever",
    "Deku.C102_round_trip",
    "Deku.C102_round_trip_as_a_field",
    "Deku.C102_the_answer",
    "Deku.C102_what_is_written"
   ],
   "note": "of the type inside nothing is assumed but that its bytes come back through TryFrom. The user has to decide: with ? on the payload a short payload is Incomplete for ever (C102_question_mark_waits_for_ever, C102_a_short_payload_blocks_the_rest). A number of eight bytes can panic (C102_a_number_of_eight_bytes_panics)"
  },
  {
   "property": "C103",
   "status": "proved",
   "theorems": [
    "Deku.C103_a_message_inside_is_parsed_on_its_own",
    "Deku.C103_a_message_inside_is_replaced",
    "Deku.C103_a_patched_message_is_parsed",
    "Deku.C103_another_size_moves_what_follows",
    "Deku.C103_only_its_own_bits_change",
    "Deku.C103_what_others_depend_on_cannot_be_patched"
   ],
   "note": "for values that the source describes (C75) and places that nothing else depends on, which is computed from the attributes. What others depend on (a count, an element that ends a list, an asserted field) and values of another size are outside, and there it fails (C103_what_others_depend_on_cannot_be_patched, C103_another_size_moves_what_follows)"
  },
  {
   "property": "C104",
   "status": "proved",
   "theorems": [
    "Deku.C104_a_bad_frame_is_reported",
    "Deku.C104_errors_of_the_stream_are_the_result",
    "Deku.C104_fields_between_bytes_make_up_data",
    "Deku.C104_frames_are_a_stream",
    "Deku.C104_kinds_survive",
    "Deku.C104_read_all_makes_up_data",
    "Deku.C104_read_all_never_ends"
   ],
   "note": "for definitions in whole bytes, which is computed from the attributes. Outside of them it is false: a field between bytes and read_all go on after a failed call with made-up zeros (C104_fields_between_bytes_make_up_data, C104_read_all_makes_up_data); on a stream that keeps failing read_all of bytes never ends (C104_read_all_never_ends)"
  },
  {
   "property": "C105",
   "status": "proved",
   "theorems": [
    "Deku.C105_a_reader_of_a_variant_has_to_return",
    "Deku.C105_a_reader_with_a_value_does_not_compile",
    "Deku.C105_counterparts_do_not_round_trip",
    "Deku.C105_deku_id",
    "Deku.C105_generated_code_as_functions",
    "Deku.C105_other_variants_are_as_before",
    "Deku.C105_round_trip",
    "Deku.C105_round_trip_with_the_id_from_the_context",
    "Deku.C105_the_id_is_left_to_the_writer"
   ],
   "note": "Types of emitted code are modelled as far as they matter here: Self, (), ! and others. A reader and a writer that are each other's counterpart do not round trip if the id has a type (C105_counterparts_do_not_round_trip)"
  },
  {
   "property": "C106",
   "status": "proved",
   "theorems": [
    "Deku.C106_a_failing_sink_has_the_start_of_the_message",
    "Deku.C106_a_short_buffer_has_the_start_of_the_message",
    "Deku.C106_what_is_refused_is_refused_everywhere",
    "Deku.C106_writing_is_sending_blocks"
   ],
   "note": "for definitions without seek attributes"
  },
  {
   "property": "C107",
   "status": "partial",
   "theorems": [
    "Deku.C107_a_byte_that_cannot_be_written",
    "Deku.C107_a_release_build_panics_too",
    "Deku.C107_a_sender_can_make_it_panic",
    "Deku.C107_a_size_beyond_the_type_partial",
    "Deku.C107_a_size_of_zero",
    "Deku.C107_a_size_that_does_not_count",
    "Deku.C107_every_input_in_range",
    "Deku.C107_parsed_is_written_again",
    "Deku.C107_records_follow_each_other",
    "Deku.C107_sized_by_a_field_before",
    "Deku.C107_what_does_not_fit_is_not_written"
   ],
   "note": "Sizes in range are proved for all attributes. Missing, since it is false: a u8 ignores a size in bytes, and a size that is a multiple of eight bits if there is no endianness (C107_a_byte_that_cannot_be_written); a size of zero bits panics with an endianness in Msb0 (C107_a_sender_can_make_it_panic), in big endian also in release builds; otherwise it is the value 0. For all inputs what happens is proved."
  },
  {
   "property": "C108",
   "status": "partial",
   "theorems": [
    "Deku.C108_a_release_build_panics_too",
    "Deku.C108_a_sender_can_make_it_panic",
    "Deku.C108_a_size_beyond_the_type",
    "Deku.C108_a_size_of_zero",
    "Deku.C108_every_input_in_range",
    "Deku.C108_sized_by_a_field_before_partial",
    "Deku.C108_the_sign_depends_on_the_size"
   ],
   "note": "Sizes beyond the type are refused by both directions, proved for all. Values in range come back if the reader extends the sign, if the size is the one of the type or if they are not negative. Missing, since it is false: without an endianness negative values come back as others if the size happens to be a multiple of eight bits (C108_the_sign_depends_on_the_size); in bytes and with a bit_order see C19, C24. A size of zero bits panics with an endianness (C108_a_sender_can_make_it_panic). What is read is determined for every input."
  },
  {
   "property": "C109",
   "status": "proved",
   "theorems": [
    "Deku.C109_an_empty_write_moves_bits",
    "Deku.C109_bits_change_places_only",
    "Deku.C109_different_bits_give_different_bytes",
    "Deku.C109_no_bit_is_lost",
    "Deku.C109_where_the_bits_go"
   ],
   "note": "For a sink that does not fail, every sequence of the calls that users can make (write_bits_uint_msb0 is crate-private). A write of no bits is not nothing (C109_an_empty_write_moves_bits), which the statement allows."
  },
  {
   "property": "C110",
   "status": "partial",
   "theorems": [
    "Deku.C110_bits_in_the_middle_are_lost",
    "Deku.C110_but_are_not_read_back",
    "Deku.C110_different_values_give_different_bytes_partial"
   ],
   "note": "Missing, since it is false of the code: Lsb0 big endian fields of more than 8 bits and less than the type, whose bits in the middle are not written (C110_bits_in_the_middle_are_lost). Everything else is covered: any number of fields, whole bytes and bits, any order. That the bytes determine the values does not mean that the reader finds them (C110_but_are_not_read_back)."
  },
  {
   "property": "C111",
   "status": "proved",
   "theorems": [
    "Deku.C111_different_inputs_give_different_answers",
    "Deku.C111_every_bit_is_read_once",
    "Deku.C111_where_the_bits_come_from"
   ],
   "note": "For a source without faults. Reads of at least one byte: a read of no bytes after end panics (C04_zero_bytes_after_end_panics). The loop-free fast path for integers is C07."
  },
  {
   "property": "C112",
   "status": "proved",
   "theorems": [
    "Deku.C112_a_byte_can_be_shared",
    "Deku.C112_nothing_else_comes_back"
   ],
   "note": "The statement as given. A first group of whole bytes is C26."
  },
  {
   "property": "C113",
   "status": "proved",
   "theorems": [
    "Deku.C113_integers_share_bytes"
   ],
   "note": "The statement as given, for lists of fields as in C26. That no other two sizes come back is C112_nothing_else_comes_back."
  },
  {
   "property": "C114",
   "status": "proved",
   "theorems": [
    "Deku.C114_a_struct_comes_back",
    "Deku.C114_any_shorter_input_is_incomplete",
    "Deku.C114_every_input_is_a_value"
   ],
   "note": "The statement as given. The contexts are those that the attributes of the fields make (fieldArgs in the model of sources); a header is given with values, of which only the types and contexts enter in C114_every_input_is_a_value."
  },
  {
   "property": "C115",
   "status": "proved",
   "theorems": [
    "Deku.C115_a_body_and_a_trailer_come_back",
    "Deku.C115_a_body_behind_an_lsb_field_changes",
    "Deku.C115_a_header_and_a_body_come_back",
    "Deku.C115_a_list_of_headers_comes_back",
    "Deku.C115_headers_to_the_end_come_back"
   ],
   "note": "The statement as given, with the condition on the bit order at the seam; C115_a_body_behind_an_lsb_field_changes shows that the condition is needed. The body is given as data (Def), so that its conditions are found by computation. For lists the count is that of the value, there is memory for it, with read_all the header has a field, and the element type is not empty (size_of)."
  }
 ]
}