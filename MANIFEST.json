{
 "claims": [
  {
   "property": "C01",
   "status": "proved",
   "theorems": [
    "Verif.C01_skip_value_exact",
    "Verif.C01_null_at_end_of_text_is_an_error",
    "Verif.C01_depth_bound_needed"
   ],
   "note": "Nesting depth below 2^32 and no bare null at the very end of the text; both exclusions are shown necessary."
  },
  {
   "property": "C02",
   "status": "proved",
   "theorems": [
    "Verif.C02_checked_skip_reads_inside"
   ],
   "note": "Skipping, trimming, moving to the next member. Typed class lookup is treated under C21-C23."
  },
  {
   "property": "C03",
   "status": "proved",
   "theorems": [
    "Verif.C03_cursor_forward_only"
   ],
   "note": ""
  },
  {
   "property": "C04",
   "status": "proved",
   "theorems": [
    "Verif.C04_unchecked_agrees",
    "Verif.C04_unchecked_agrees_on_values",
    "Verif.C04_literal_then_space_reads_past_end"
   ],
   "note": "A literal must be followed by a byte that is not whitespace; shown necessary."
  },
  {
   "property": "C05",
   "status": "proved",
   "theorems": [
    "Verif.C05_whitespace_immaterial",
    "Verif.C05_trim_absorbs_whitespace"
   ],
   "note": ""
  },
  {
   "property": "C06",
   "status": "partial",
   "theorems": [
    "Verif.C06_mismatched_brackets_accepted",
    "Verif.C06_bracket_counts_partial"
   ],
   "note": "False of the code: [}{] is accepted. Proved: bracket counts agree modulo 2^32."
  },
  {
   "property": "C13",
   "status": "proved",
   "theorems": [
    "Verif.C13_round_trip",
    "Verif.C13_round_trip_skipped"
   ],
   "note": "Both parse routes (direct, and from a skipped range), range checked or not, checked and unchecked mode."
  },
  {
   "property": "C14",
   "status": "proved",
   "theorems": [
    "Verif.C14_output_is_canonical",
    "Verif.C14_numeral_determines_value"
   ],
   "note": ""
  },
  {
   "property": "C15",
   "status": "proved",
   "theorems": [
    "Verif.C15_block_test",
    "Verif.C15_eight_digits",
    "Verif.C15_sixteen_digits",
    "Verif.C15_digit_loops"
   ],
   "note": ""
  },
  {
   "property": "C16",
   "status": "partial",
   "theorems": [
    "Verif.C16_partial",
    "Verif.C16_false",
    "Verif.C16_signed_wraps",
    "Verif.C16_exactly_unsigned",
    "Verif.C16_exactly_signed"
   ],
   "note": "False of the code: 2^64 parses as 0, int8 200 as -56 although range checked. Proved outside the regions [2^64,10^20) and, for signed types, magnitudes between the largest value and 2^bits. C16_exactly_* say for every number which are rejected and what the others are read as."
  },
  {
   "property": "C47",
   "status": "partial",
   "theorems": [
    "Verif.C47_partial",
    "Verif.C47_false",
    "Verif.C47_false_for_minus"
   ],
   "note": "False of the code: a lone minus sign parses as 0, for every signed type and whatever may follow a value. Proved for everything else."
  },
  {
   "property": "C08",
   "status": "proved",
   "theorems": [
    "Verif.C08_round_trip",
    "Verif.C08_round_trip_skipped"
   ],
   "note": "Both parse routes, any output options, checked and unchecked. Excluded: the empty string of a DisallowHigh member in unchecked mode (see C49)."
  },
  {
   "property": "C09",
   "status": "proved",
   "theorems": [
    "Verif.C09_seven_bit"
   ],
   "note": ""
  },
  {
   "property": "C10",
   "status": "proved",
   "theorems": [
    "Verif.C10_written_strings_are_json",
    "Verif.C10_closing_quote",
    "Verif.C10_valid_is_written"
   ],
   "note": "For any input bytes, valid UTF-8 or not; the external UTF-8 iterator is modelled by its contract."
  },
  {
   "property": "C11",
   "status": "proved",
   "theorems": [
    "Verif.C11_escapes_decode",
    "Verif.C11_single"
   ],
   "note": ""
  },
  {
   "property": "C12",
   "status": "partial",
   "theorems": [
    "Verif.C12_partial",
    "Verif.C12_false"
   ],
   "note": "False of the code: non-hexadecimal digits and unpaired surrogates are accepted. Proved for truncated escapes and high surrogates not followed by a second \\u-like sequence."
  },
  {
   "property": "C48",
   "status": "partial",
   "theorems": [
    "Verif.C48_partial",
    "Verif.C48_false",
    "Verif.C48_false_for_every_string"
   ],
   "note": "False of the code: raw high bytes are accepted in every well formed string; only the byte after a backslash is checked."
  },
  {
   "property": "C49",
   "status": "proved",
   "theorems": [
    "Verif.C49_string_decoding_in_bounds",
    "Verif.C49_unchecked_well_formed",
    "Verif.C49_unchecked_empty_misread"
   ],
   "note": "Unchecked mode: the empty string of a DisallowHigh member is excluded, shown necessary."
  },
  {
   "property": "C25",
   "status": "proved",
   "theorems": [
    "Verif.C25_long_hash_eq",
    "Verif.C25_hash_is_fnv1a"
   ],
   "note": ""
  },
  {
   "property": "C21",
   "status": "partial",
   "theorems": [
    "Verif.C21_member_order_partial",
    "Verif.C21_false_for_ill_typed_members"
   ],
   "note": "Proved for objects that are well-typed values of the class. False in general: a string starting with t is taken for a bool when the member is out of order."
  },
  {
   "property": "C22",
   "status": "partial",
   "theorems": [
    "Verif.C22_unknown_members_ignored_partial",
    "Verif.C22_false_for_colliding_names"
   ],
   "note": "Proved for names without the hash of a mapped name, or with names compared in full. False by default for colliding names (costarring / liquid)."
  },
  {
   "property": "C23",
   "status": "proved",
   "theorems": [
    "Verif.C23_absent_optional_is_empty",
    "Verif.C23_absent_required_is_an_error",
    "Verif.C23_std_string_absent_optional",
    "Verif.C23_std_string_absent_required",
    "Verif.C23_absent_required_rejected"
   ],
   "note": "For objects whose present mapped members are well-typed; that an object without a required member is never accepted holds whatever its other members are (string_view)."
  },
  {
   "property": "C24",
   "status": "proved",
   "theorems": [
    "Verif.C24_full_name_lookup_exact",
    "Verif.C24_hash_only_lookup_is_not_exact",
    "Verif.C24_short_names_never_collide",
    "Verif.C24_long_names_collide"
   ],
   "note": ""
  },
  {
   "property": "C43",
   "status": "partial",
   "theorems": [
    "Verif.C43_trailing_text_partial",
    "Verif.C43_control_characters_pass",
    "Verif.C43_literal_false"
   ],
   "note": "Whitespace is what the library takes for it (0x01-0x20); numbers and literals must be followed by something that ends them."
  },
  {
   "property": "C46",
   "status": "partial",
   "theorems": [
    "Verif.C46_bool_exact_partial",
    "Verif.C46_null_exact_partial",
    "Verif.C46_missing_value_is_null",
    "Verif.C46_bool_out_of_order_false"
   ],
   "note": "Exact characterisation of the direct route on every byte string. The English claim is false for a missing value (taken for null) and for a bool found out of order."
  },
  {
   "property": "C50",
   "status": "proved",
   "theorems": [
    "Verif.C50_from_json_reads"
   ],
   "note": "Checked mode. Nesting below 2^32, text below 2^63 bytes, names not mistaken for others by hash. Also covers variants (see C75, C76), raw strings, custom types, raw JSON, dates and reals (see C81-C83, C87); a document that is nothing but a real must have a point or an exponent (C87_false_at_end); one that is nothing but a boolean or integer that is or may be a string is C92."
  },
  {
   "property": "C51",
   "status": "partial",
   "theorems": [
    "Verif.C51_leading_zero_partial",
    "Verif.C51_zero_terminated_partial",
    "Verif.C51_false",
    "Verif.C51_false_for_unsigned",
    "Verif.C51_false_for_negative"
   ],
   "note": "Proved for non-negative numbers of signed types, both routes, also in a std::string. False of the code for every number of an unsigned type and for every negative number: zeros in front are passed over."
  },
  {
   "property": "C18",
   "status": "proved",
   "theorems": [
    "Verif.C18_round_trip"
   ],
   "note": "For every combination of output options and parse options (checked mode). Mapped names must be distinct and stand in quotes as they are; ordered classes without the gaps of C44; variants as in C77; nesting below 2^32, text below 2^63 bytes. Also for text types and reals with few digits; a real as the whole document is C87, a boolean or integer that is or may be a string is C92."
  },
  {
   "property": "C19",
   "status": "proved",
   "theorems": [
    "Verif.C19_format_is_whitespace",
    "Verif.C19_format_same_value"
   ],
   "note": "Same restriction on the mapped classes as C18; strings may be arbitrary bytes in the first theorem."
  },
  {
   "property": "C20",
   "status": "partial",
   "theorems": [
    "Verif.C20_output_is_json_partial",
    "Verif.C20_false_for_gaps",
    "Verif.C20_false_for_quotes_in_names"
   ],
   "note": "False of the code for ordered classes with a gap before a member that is not the last, and for names that need escaping; proved for all other mappings."
  },
  {
   "property": "C44",
   "status": "partial",
   "theorems": [
    "Verif.C44_ordered_by_index_partial",
    "Verif.C44_false_for_gaps"
   ],
   "note": "False of the code for a gap before a member that is not the last; proved for all other index lists."
  },
  {
   "property": "C45",
   "status": "partial",
   "theorems": [
    "Verif.C45_trailing_comma_partial",
    "Verif.C45_false_for_exact_ordered"
   ],
   "note": "False of the code for ordered classes with an exact mapping; proved for all others (a real as the whole document: C87; a quoted literal: C92)."
  },
  {
   "property": "C26",
   "status": "partial",
   "theorems": [
    "Verif.C26_iteration_partial",
    "Verif.C26_null_has_no_text"
   ],
   "note": "Every member or element is visited once, in document order, with its own text. False of the code only for the text of null, which is empty."
  },
  {
   "property": "C27",
   "status": "partial",
   "theorems": [
    "Verif.C27_find_member_partial",
    "Verif.C27_find_escaped_member_partial",
    "Verif.C27_find_element_partial",
    "Verif.C27_object_end_throws"
   ],
   "note": "Proved except for an index equal to the number of members of an object, where the code throws instead of answering end."
  },
  {
   "property": "C28",
   "status": "partial",
   "theorems": [
    "Verif.C28_find_member_partial",
    "Verif.C28_find_member_missing_partial",
    "Verif.C28_from_json_at_path_partial",
    "Verif.C28_from_json_missing_partial",
    "Verif.C28_find_range_partial",
    "Verif.C28_find_range_missing_partial",
    "Verif.C28_index_into_string",
    "Verif.C28_verify_end_false",
    "Verif.C28_find_range_false"
   ],
   "note": "Both path implementations agree with following the components one at a time; the regions in which the code differs are shown by witnesses. A real found at the very end of the text must have a point or an exponent (C87)."
  },
  {
   "property": "C29",
   "status": "partial",
   "theorems": [
    "Verif.C29_history_independent_partial",
    "Verif.C29_history_independent_arrays_partial",
    "Verif.C29_answers_by_name",
    "Verif.C29_false_for_names_in_arrays"
   ],
   "note": "Any sequence of lookups on an object, and of positional lookups on an array, leaves later answers unchanged. False for lookups by name in an array."
  },
  {
   "property": "C30",
   "status": "partial",
   "theorems": [
    "Verif.C30_index_partial",
    "Verif.C30_false_for_the_first"
   ],
   "note": "After any history of lookups, for every index except -size, which the code rejects (it should be the first element); that failure is proved for every non-empty container."
  },
  {
   "property": "C31",
   "status": "proved",
   "theorems": [
    "Verif.C31_type"
   ],
   "note": ""
  },
  {
   "property": "C32",
   "status": "partial",
   "theorems": [
    "Verif.C32_events_partial",
    "Verif.C32_callbacks",
    "Verif.C32_false"
   ],
   "note": "Checked mode. Proved for the stream of calls the parser makes; but the traits that look for handle_on_value, handle_on_array_start and handle_on_class_start are instantiated with the allocator type, so handlers taking the pair or value never get those three calls (C32_false), and what a handler sees is the stream without them (C32_callbacks)."
  },
  {
   "property": "C33",
   "status": "partial",
   "theorems": [
    "Verif.C33_complete_partial",
    "Verif.C33_complete_false",
    "Verif.C33_skip_is_an_error",
    "Verif.C33_skip_unchecked_false"
   ],
   "note": "Exact behaviour for every document, every handler and every point of stopping or skipping, in checked mode. The English claim is false of the code: Complete inside a container ends with an exception, SkipClassArray always does."
  },
  {
   "property": "C34",
   "status": "partial",
   "theorems": [
    "Verif.C34_partition_partial",
    "Verif.C34_concat_false"
   ],
   "note": "The chunks are consecutive and end at newlines, and there are no more than requested; but whitespace between them is trimmed, so their concatenation is not literally the document."
  },
  {
   "property": "C35",
   "status": "partial",
   "theorems": [
    "Verif.C35_array_partial",
    "Verif.C35_array_of_json_values",
    "Verif.C35_lines_partial",
    "Verif.C35_lines_of_json_values_partial",
    "Verif.C35_once_partial",
    "Verif.C35_bool_false",
    "Verif.C35_bool_stuck",
    "Verif.C35_nullable_false",
    "Verif.C35_ordered_class_false",
    "Verif.C35_custom_literal_false",
    "Verif.C35_once_false",
    "Verif.C35_lines_false"
   ],
   "note": "Every dereference pattern. False of the code for undereferenced booleans, nullables and ordered classes in arrays, for JSON lines of booleans, signed integers and untyped literals, for the last step of json_array_iterator_once, and (C87) for JSON lines that end in a real without point and exponent; booleans and integers that are or may be strings (C92) must be dereferenced."
  },
  {
   "property": "C36",
   "status": "partial",
   "theorems": [
    "Verif.C36_equality",
    "Verif.C36_end",
    "Verif.C36_once_partial",
    "Verif.C36_once_false"
   ],
   "note": "Holds for json_array_iterator and json_lines_iterator; json_array_iterator_once has == and != the wrong way round."
  },
  {
   "property": "C52",
   "status": "proved",
   "theorems": [
    "Verif.C52_chunks_hold_the_values",
    "Verif.C52_iterating_the_chunks"
   ],
   "note": "The trimming of daw::string_view is a parameter, required to remove only whitespace."
  },
  {
   "property": "C40",
   "status": "partial",
   "theorems": [
    "Verif.C40_reads_back",
    "Verif.C40_others_unchanged",
    "Verif.C40_last_one_counts",
    "Verif.C40_defaults",
    "Verif.C40_or_partial",
    "Verif.C40_or_others",
    "Verif.C40_or_lists",
    "Verif.C40_or_false",
    "Verif.C40_set_bits_in_false"
   ],
   "note": "For every list of options and every option word. Holds for set_bits (output_flags, member options, SetPolicyOptions) and for parse_flags; false of the code for set_bits_in and for options or-ed onto a non-zero default (string_opt, string_raw_opt, serialize_options)."
  },
  {
   "property": "C37",
   "status": "proved",
   "theorems": [
    "Verif.C37_to_time_point",
    "Verif.C37_round_trip",
    "Verif.C37_back",
    "Verif.C37_before_1970_false"
   ],
   "note": "Both directions, and the count of days against a calendar defined by adding up month and year lengths. Limit: the 32 bit day count. Before 1970 the conversion back is wrong."
  },
  {
   "property": "C38",
   "status": "partial",
   "theorems": [
    "Verif.C38_round_trip_partial",
    "Verif.C38_false"
   ],
   "note": "Exact: comes back if and only if the milliseconds are 0 or at least 100. The code drops leading zeros of the fraction."
  },
  {
   "property": "C39",
   "status": "partial",
   "theorems": [
    "Verif.C39_offset_partial",
    "Verif.C39_minutes_false",
    "Verif.C39_borrow_false"
   ],
   "note": "Exact: right if and only if the offset's minutes equal its hours and nothing has to be borrowed. The code reads the hour digits twice and subtracts in unsigned arithmetic."
  },
  {
   "property": "C53",
   "status": "proved",
   "theorems": [
    "Verif.C53_reads_utc"
   ],
   "note": "Millisecond time points of the system clock, the default of json_date."
  },
  {
   "property": "C54",
   "status": "partial",
   "theorems": [
    "Verif.C54_rejects_partial",
    "Verif.C54_no_time",
    "Verif.C54_false",
    "Verif.C54_false_for_days"
   ],
   "note": "Fields out of range are rejected. False of the code for every day past the end of its month (read as a day of the next month) and for fields whose second character is no digit."
  },
  {
   "property": "C41",
   "status": "partial",
   "theorems": [
    "Verif.C41_line_partial",
    "Verif.C41_first_column_partial",
    "Verif.C41_column",
    "Verif.C41_start_false"
   ],
   "note": "Every position but the very first one, where both functions throw UnexpectedEndOfData."
  },
  {
   "property": "C55",
   "status": "partial",
   "theorems": [
    "Verif.C55_path_partial",
    "Verif.C55_false"
   ],
   "note": "False of the code: the path is always empty, because the event parser never calls the callbacks that record names and indices. Proved for every document and position."
  },
  {
   "property": "C42",
   "status": "partial",
   "theorems": [
    "Verif.C42_hash_trim",
    "Verif.C42_hash_next",
    "Verif.C42_hash_skip",
    "Verif.C42_hash_end_false",
    "Verif.C42_cpp_trim_partial",
    "Verif.C42_cpp_next_partial",
    "Verif.C42_cpp_stars_false",
    "Verif.C42_cpp_skip_partial",
    "Verif.C42_cpp_skip_false",
    "Verif.C42_unchecked_false",
    "Verif.C42_cpp_end_false"
   ],
   "note": "Checked mode, trimming and skipping of values. Hash comments ended by a newline: proved in full. C++ comments: line comments in full; block comments when trimming unless an odd number of stars stands in front of */ (then proved false for every such comment); block comments inside skipped containers only with no stars or slashes and two whitespace bytes after them (false otherwise: [/*c*/1] is an error). False in unchecked mode after whitespace. Reading typed values: C107."
  },
  {
   "property": "C07",
   "status": "partial",
   "theorems": [
    "Verif.C07_constexpr",
    "Verif.C07_runtime",
    "Verif.C07_simd_partial",
    "Verif.C07_simd_false",
    "Verif.C07_unterminated_partial"
   ],
   "note": "Compile-time and run-time mode: proved for every text. SIMD mode: proved (including find_escaped_branchless for every mask and carry) except when the closing quote is among the bytes after the last full block and that block ends inside an escape; false of the code there. The SSE intrinsics are modelled by their contracts."
  },
  {
   "property": "C56",
   "status": "partial",
   "theorems": [
    "Verif.C56_constexpr",
    "Verif.C56_runtime_partial",
    "Verif.C56_runtime_false",
    "Verif.C56_simd_partial",
    "Verif.C56_simd_plain_partial",
    "Verif.C56_simd_tail_false",
    "Verif.C56_simd_overrun_false",
    "Verif.C56_simd_next"
   ],
   "note": "Compile-time mode: proved. Run-time mode: false of the code for every string whose first escape is not its first character (raw text returned). SIMD mode: proved for strings whose escapes lie in full blocks and for plain strings with no backslash later in their last block; false otherwise, once with an out-of-bounds write."
  },
  {
   "property": "C57",
   "status": "partial",
   "theorems": [
    "Verif.C57_constexpr",
    "Verif.C57_false"
   ],
   "note": "Compile-time mode: proved. Run-time and SIMD mode do not look at the option: false of the code."
  },
  {
   "property": "C17",
   "status": "proved",
   "theorems": [
    "Verif.C17_exact",
    "Verif.C17_zero"
   ],
   "note": "Significands of 1 to 17 digits (float: 9), exponents from -900 to 900 (float: -90 to 90), which covers every finite value. Which significand and exponent dragonbox picks for a value is an external contract. Negative zero is written 0."
  },
  {
   "property": "C58",
   "status": "partial",
   "theorems": [
    "Verif.C58_digits",
    "Verif.C58_exact",
    "Verif.C58_truncated_partial",
    "Verif.C58_zero_terminated_false",
    "Verif.C58_located_false",
    "Verif.C58_exponent_false",
    "Verif.C58_end_false"
   ],
   "note": "Up to 17 digits (float: 9): proved for every policy and both ways of reading. More digits: proved for checked input that is not zero terminated; false of the code for zero terminated and unchecked input. False for exponents of 2^64 or more (2^32 at run time), and an integer at the very end of a string_view reads past the end."
  },
  {
   "property": "C59",
   "status": "partial",
   "theorems": [
    "Verif.C59_precise_partial",
    "Verif.C59_zero_terminated_false",
    "Verif.C59_float_false",
    "Verif.C59_exponent_false"
   ],
   "note": "double: proved, for numbers read in place from zero terminated or unchecked input only up to 19 digits (false beyond). float: false of the code. Exponents of 2^64 and more: false. The floating point operations are the subject of C98."
  },
  {
   "property": "C60",
   "status": "partial",
   "theorems": [
    "Verif.C60_precision_partial",
    "Verif.C60_leading_zeros_false"
   ],
   "note": "Proved for numbers whose integer part is not 0, in checked input that is not zero terminated; false of the code for numbers below 1 with zeros after the point. Floating point rounding of the final computation is the subject of C99."
  },
  {
   "property": "C61",
   "status": "partial",
   "theorems": [
    "Verif.C61_precise_partial",
    "Verif.C61_scientific_partial",
    "Verif.C61_auto_false"
   ],
   "note": "Proved for precise mode in every format and for scientific format in every policy; false of the code for default mode with the automatic format."
  },
  {
   "property": "C62",
   "status": "proved",
   "theorems": [
    "Verif.C62_std_string_reads",
    "Verif.C62_std_string_round_trip",
    "Verif.C62_std_string_trailing"
   ],
   "note": "Checked mode. Nesting below 2^32, text below 2^63 bytes. Whitespace is what the library takes for it (0x01-0x20), and a NUL ends the text. A document that is nothing but a boolean or integer that may be a string must have its quotes (C92_false_at_the_end)."
  },
  {
   "property": "C63",
   "status": "partial",
   "theorems": [
    "Verif.C63_no_overrun_partial",
    "Verif.C63_false_for_final_backslash",
    "Verif.C63_false_for_classes",
    "Verif.C63_false_for_raw_json"
   ],
   "note": "Proved for every type that is stored without names (scalars, strings, optionals, arrays, maps, tuples, array classes without indices, variants by kind, custom strings, literals in quotes) and every byte string not ending in a backslash; false of the code for strings that end in a backslash, for classes stored as objects and for raw JSON."
  },
  {
   "property": "C64",
   "status": "partial",
   "theorems": [
    "Verif.C64_same_document_partial",
    "Verif.C64_same_result_partial",
    "Verif.C64_string_view_overrun",
    "Verif.C64_false_for_literals",
    "Verif.C64_false_for_fractions",
    "Verif.C64_false_for_nul",
    "Verif.C64_false_for_quoted_unsigned"
   ],
   "note": "Proved for every type and every document that is a value of it, and for every type stored without names (no unsigned numbers in quotes) and every text without NUL that does not end in a backslash, wherever the string_view parse is defined; false of the code for some malformed or ill-typed texts."
  },
  {
   "property": "C65",
   "status": "partial",
   "theorems": [
    "Verif.C65_schema_is_json_partial",
    "Verif.C65_false_for_quotes",
    "Verif.C65_false_for_empty_classes"
   ],
   "note": "Proved for every type whose names, id and title can stand between quotes and that is not a class without members; false of the code for those."
  },
  {
   "property": "C66",
   "status": "partial",
   "theorems": [
    "Verif.C66_schema_is_schema_partial",
    "Verif.C66_false_for_tuples"
   ],
   "note": "Proved for drafts up to 2019-09 for all types without empty tuples, and for 2020-12 for types without tuples and classes stored in arrays; false of the code in 2020-12, the draft declared, for every tuple."
  },
  {
   "property": "C67",
   "status": "partial",
   "theorems": [
    "Verif.C67_written_is_valid_partial",
    "Verif.C67_false_for_null_elements"
   ],
   "note": "Types of the Typed model. Proved when the only nullable parts are members of classes; false of the code for a null element of an array."
  },
  {
   "property": "C68",
   "status": "partial",
   "theorems": [
    "Verif.C68_read_is_valid_partial",
    "Verif.C68_false_for_null_members"
   ],
   "note": "Types of the Typed model. Proved for documents without null; false of the code for a null given for a nullable member."
  },
  {
   "property": "C69",
   "status": "partial",
   "theorems": [
    "Verif.C69_valid_is_read_partial",
    "Verif.C69_false_for_short_tuples"
   ],
   "note": "Types of the Typed model. Proved for documents whose numbers are in range, tuples have the right length, names are not repeated (Fit); false of the code without the length condition."
  },
  {
   "property": "C70",
   "status": "proved",
   "theorems": [
    "Verif.C70_span"
   ],
   "note": "Types of the Typed model; the span may lie anywhere in memory."
  },
  {
   "property": "C71",
   "status": "proved",
   "theorems": [
    "Verif.C71_pointer"
   ],
   "note": "Types of the Typed model."
  },
  {
   "property": "C72",
   "status": "partial",
   "theorems": [
    "Verif.C72_append_partial",
    "Verif.C72_false_for_mapping"
   ],
   "note": "Types of the Typed model. False of the code for the overloads that return a string when a mapping is given: they ignore it."
  },
  {
   "property": "C73",
   "status": "partial",
   "theorems": [
    "Verif.C73_stream_partial",
    "Verif.C73_false_for_raw_strings"
   ],
   "note": "Types of the Typed model; false of the code for json_string_raw members with bytes above 0x7F written to a FILE * where char is signed."
  },
  {
   "property": "C74",
   "status": "partial",
   "theorems": [
    "Verif.C74_array_partial",
    "Verif.C74_false_for_trailing_comma",
    "Verif.C74_false_for_every_trailing_comma"
   ],
   "note": "Every format but OutputTrailingComma::Yes, for which it is false of the code for every container that is not empty."
  },
  {
   "property": "C75",
   "status": "partial",
   "theorems": [
    "Verif.C75_variant_by_kind_partial",
    "Verif.C75_std_string_partial",
    "Verif.C75_no_alternative",
    "Verif.C75_null",
    "Verif.C75_only_alternatives",
    "Verif.C75_false_for_array_classes",
    "Verif.C75_false_for_null",
    "Verif.C75_false_for_custom_literals",
    "Verif.C75_false_for_raw",
    "Verif.C75_false_for_leading_whitespace"
   ],
   "note": "Checked mode. False of the code for alternatives that are classes stored in arrays or raw JSON, for null, and for whitespace in front of a root document; a real as the whole document must have a point or an exponent (C87)."
  },
  {
   "property": "C76",
   "status": "partial",
   "theorems": [
    "Verif.C76_variant_by_tag_partial",
    "Verif.C76_std_string_partial",
    "Verif.C76_unknown_tag",
    "Verif.C76_no_tag",
    "Verif.C76_false_with_exact_mappings"
   ],
   "note": "Checked mode; the tag is a named member. With UseExactMappingsByDefault only for objects that have the tag alone; false of the code for others."
  },
  {
   "property": "C77",
   "status": "partial",
   "theorems": [
    "Verif.C77_variant_round_trip_partial",
    "Verif.C77_tagged_round_trip_partial",
    "Verif.C77_false_for_array_classes_and_null",
    "Verif.C77_false_for_wrong_tag"
   ],
   "note": "Types of the Typed model, checked mode. False of the code for alternatives that are classes stored in arrays, for empty optionals and for values that carry the tag of another alternative."
  },
  {
   "property": "C78",
   "status": "partial",
   "theorems": [
    "Verif.C78_unmapped_member_partial",
    "Verif.C78_extra_element_of_tuple_partial",
    "Verif.C78_extra_element_of_class_partial",
    "Verif.C78_unmapped_member_rejected",
    "Verif.C78_false_for_colliding_names"
   ],
   "note": "Checked mode, both inputs. The error is shown for documents whose mapped members are well-typed, that there is no value for all of them (string_view). False of the code for an unmapped name with the hash of a mapped one."
  },
  {
   "property": "C79",
   "status": "partial",
   "theorems": [
    "Verif.C79_extra_elements_of_tuple_partial",
    "Verif.C79_extra_elements_of_class",
    "Verif.C79_false_for_arrays"
   ],
   "note": "Checked mode, both inputs; nested occurrences are part of C50 and C62. Classes stored in arrays: proved. Tuples: proved when the first element left is not an array; false of the code otherwise (elements of the surrounding array are lost)."
  },
  {
   "property": "C80",
   "status": "partial",
   "theorems": [
    "Verif.C80_unchecked_agrees_partial",
    "Verif.C80_unchecked_literal_partial",
    "Verif.C80_false_for_null",
    "Verif.C80_false_for_absent_member",
    "Verif.C80_false_for_quoted_bool",
    "Verif.C80_false_for_number_before_digits"
   ],
   "note": "Types of the Typed model in a string_view. Proved for documents without empty nullable parts whose string types allow all characters; false of the code for null (the character behind it is lost), for absent nullable members (taken from the memory behind the document) and for booleans given as strings."
  },
  {
   "property": "C81",
   "status": "partial",
   "theorems": [
    "Verif.C81_raw_and_custom_partial",
    "Verif.C81_false_for_custom"
   ],
   "note": "Checked mode, both inputs. False of the code for custom types given the empty string, a string that starts like an array or object, null, and for custom types that take any value."
  },
  {
   "property": "C82",
   "status": "partial",
   "theorems": [
    "Verif.C82_raw_json_partial",
    "Verif.C82_false_for_strings_and_null"
   ],
   "note": "Checked mode, both inputs; proved for numbers, booleans, arrays and objects. False of the code for strings and null, whose text depends on the order of the members."
  },
  {
   "property": "C83",
   "status": "proved",
   "theorems": [
    "Verif.C83_date_members"
   ],
   "note": "Checked mode, both inputs, timestamps in UTC (offsets: see C39)."
  },
  {
   "property": "C84",
   "status": "partial",
   "theorems": [
    "Verif.C84_text_is_written_back_partial",
    "Verif.C84_false"
   ],
   "note": "At the root and (C18) inside other types. False of the code for null and strings as raw JSON, for custom types that take any value, and for raw text that is not printable ASCII with OnlyAllow7bitsStrings."
  },
  {
   "property": "C85",
   "status": "partial",
   "theorems": [
    "Verif.C85_in_bounds_partial",
    "Verif.C85_any_text_partial",
    "Verif.C85_json_partial",
    "Verif.C85_before_quote_partial",
    "Verif.C85_false_for_arrays",
    "Verif.C85_false_for_strings",
    "Verif.C85_false_for_exact_tuples",
    "Verif.C85_false_for_variants",
    "Verif.C85_false_for_custom",
    "Verif.C85_false_for_reals"
   ],
   "note": "Proved for every byte string and all types but dates (see C125) and reals (bool, integers, strings, optionals, arrays, maps, text types, classes, tuples, array classes, both kinds of variants), under the conditions the falsity theorems show to be needed: no optional member before a string, no exact tuples or array classes unless a quote follows the text, and with arrays or variants a text that does not stop behind [ or : . Every JSON document is safe for the types without array classes and exact tuples."
  },
  {
   "property": "C86",
   "status": "partial",
   "theorems": [
    "Verif.C86_accepted_fits_partial",
    "Verif.C86_members_in_order",
    "Verif.C86_false_for_booleans",
    "Verif.C86_false_for_strings",
    "Verif.C86_false_for_arrays",
    "Verif.C86_false_for_integers",
    "Verif.C86_order_needed",
    "Verif.C86_false_for_tuples",
    "Verif.C86_not_json_accepted"
   ],
   "note": "Checked mode, string_view. Proved for all types but classes stored in arrays and tuples that are not exact, and booleans and integers that may or may not be strings (C92_false_for_quotes); members in order fit strictly, members out of order are strings, numbers or fit, or their type is one of text. False of the code for members out of order (strings are taken for booleans and arrays, anything for strings, 7.5 for the integer 3245) and for tuples with unmapped elements; text that is not JSON is accepted as well."
  },
  {
   "property": "C87",
   "status": "partial",
   "theorems": [
    "Verif.C87_real_members_partial",
    "Verif.C87_round_trip_partial",
    "Verif.C87_false_at_end",
    "Verif.C87_false_for_whole_numbers",
    "Verif.C87_false_for_many_digits"
   ],
   "note": "A real is the decimal fraction before it is rounded to double or float; checked mode; numbers with fewer than 18 (float: 10) digits. Inside of other types: part of C18, C50 and C62. False of the code for whole numbers at the very end of a string_view (read past the end) and for numbers with more digits."
  },
  {
   "property": "C88",
   "status": "partial",
   "theorems": [
    "Verif.C88_dependent_members_partial",
    "Verif.C88_tag_decides",
    "Verif.C88_unknown_tag",
    "Verif.C88_false_number_in_front_of_tag",
    "Verif.C88_false_string_in_front_of_tag",
    "Verif.C88_false_with_exact_mappings"
   ],
   "note": "Checked mode, string_view; the class is the document and the tag a named member. That the tag decides is proved for every order of the members; that the object is accepted unless the variant is a number or string in front of a member mapped before it, for which it is false of the code (rejected, or a null pointer is read)."
  },
  {
   "property": "C89",
   "status": "partial",
   "theorems": [
    "Verif.C89_sized_array_partial",
    "Verif.C88_dependent_members_partial",
    "Verif.C89_false_in_front_of_size",
    "Verif.C89_false_name_is_path",
    "Verif.C89_negative_size"
   ],
   "note": "Checked mode, string_view; the class is the document. Proved when the size stands in front of the array and its name is no path; false of the code otherwise. The size is not compared with the number of elements."
  },
  {
   "property": "C90",
   "status": "partial",
   "theorems": [
    "Verif.C90_pairs_partial",
    "Verif.C90_false_space_in_empty_array"
   ],
   "note": "Checked mode, string_view; the class is the document. Proved for every array but empty ones with whitespace inside, which are rejected by the code."
  },
  {
   "property": "C91",
   "status": "partial",
   "theorems": [
    "Verif.C91_round_trip_partial",
    "Verif.C91_false_behind_empty_member",
    "Verif.C91_false_for_shared_tag"
   ],
   "note": "Checked mode, string_view; the class is the document. Proved for values whose tags and sizes agree with one another, when no empty member is mapped before a variant that holds a number or string; false of the code without these conditions (the library rejects what it wrote)."
  },
  {
   "property": "C92",
   "status": "partial",
   "theorems": [
    "Verif.C92_members",
    "Verif.C92_elements",
    "Verif.C92_document_partial",
    "Verif.C92_always_wants_string",
    "Verif.C92_written",
    "Verif.C92_round_trip_partial",
    "Verif.C92_false_out_of_order",
    "Verif.C92_false_for_garbage",
    "Verif.C92_false_for_minus",
    "Verif.C92_false_at_the_end",
    "Verif.C92_false_round_trip",
    "Verif.C92_false_for_quotes",
    "Verif.C92_false_unchecked",
    "Verif.C92_false_for_variants",
    "Verif.C92_false_for_schema"
   ],
   "note": "Checked mode, both inputs. Proved for members in any order, elements and documents that are well-formed; that Always rejects what has no quotes is proved in place only. False of the code out of order (no quotes needed, garbage behind the first digit taken), for a lone minus sign, at the end of the text, for quotes that do not match with Maybe, for variants and for the JSON schema. Inside of other types the round trip is part of C18 and C62."
  },
  {
   "property": "C93",
   "status": "partial",
   "theorems": [
    "Verif.C93_leading_whitespace_partial",
    "Verif.C93_dependent_and_fixed_partial",
    "Verif.C93_false_for_scalars_and_maps",
    "Verif.C93_false_for_null"
   ],
   "note": "Both inputs. Proved, for every text that begins with a bracket or brace behind the whitespace and also without checks, for arrays, classes, tuples, classes stored in arrays, variants by a tag of these, and nullable values of these; as a string_view also for classes with tagged variants, sized arrays and key-value arrays, and for std::array. False of the code for every other type: each document of a boolean, number, string, text, map or variant by kind is rejected if whitespace stands in front of it (checked mode), and null as a nullable array or class."
  },
  {
   "property": "C94",
   "status": "partial",
   "theorems": [
    "Verif.C94_is_from_json_of_an_array_partial",
    "Verif.C94_with_path",
    "Verif.C94_false_for_whitespace",
    "Verif.C94_false_with_terminator"
   ],
   "note": "All options. Proved for texts that do not end with a NUL and, in a string_view, are not only whitespace; false of the code for the others: it reads behind the end of a string_view that is only whitespace, and takes a final NUL for a part of the document. With a member path: for every text."
  },
  {
   "property": "C95",
   "status": "partial",
   "theorems": [
    "Verif.C95_message_partial",
    "Verif.C95_false_column",
    "Verif.C95_false_reads_outside"
   ],
   "note": "Proved: the reason, the line and the excerpt, for locations behind the first line and the first 50 characters and not at the end. False of the code: the column is always one too large; for every other location there is undefined behaviour (a difference with a null pointer in the first line, the byte in front of the document, the byte behind it)."
  },
  {
   "property": "C96",
   "status": "partial",
   "theorems": [
    "Verif.C96_nullable_members_partial",
    "Verif.C96_false_for_null_visible",
    "Verif.C96_false_tag_without_member"
   ],
   "note": "Proved for every value whose NullVisible members are not empty. False of the code for every value with an empty NullVisible member: nothing is written for it; if it is a tagged variant its tag is written all the same."
  },
  {
   "property": "C97",
   "status": "partial",
   "theorems": [
    "Verif.C97_reads_partial",
    "Verif.C97_round_trip",
    "Verif.C97_accepted_partial",
    "Verif.C97_false_for_escapes",
    "Verif.C97_false_for_minus",
    "Verif.C97_false_out_of_range"
   ],
   "note": "Proved: the round trip; reading of names that are the text of a key as it is written; the form of the names that are accepted. False of the code: a name with escapes is not read; a minus sign alone is taken for 0; an integer out of range wraps around. The map is the document itself; keys that are reals are not modelled."
  },
  {
   "property": "C98",
   "status": "partial",
   "theorems": [
    "Verif.C98_nearest_partial",
    "Verif.C98_false_for_underflow",
    "Verif.C98_float_partial",
    "Verif.C98_false_for_float"
   ],
   "note": "double: proved, with std::from_chars as a parameter that is correct, for numbers that are not rounded to zero (false for those if from_chars calls them out of range, as that of libstdc++: they become infinity); the exceptions of C59. float: proved for few digits and small exponents, false in general. IEEE 754 arithmetic of the compiler is trusted."
  },
  {
   "property": "C99",
   "status": "partial",
   "theorems": [
    "Verif.C99_nearest_partial",
    "Verif.C99_error_partial",
    "Verif.C99_error_any_partial",
    "Verif.C99_error_small_partial",
    "Verif.C99_error_any_small_partial",
    "Verif.C99_infinity_partial",
    "Verif.C99_false_for_zero",
    "Verif.C99_false_two_ulp"
   ],
   "note": "Proved: the nearest double for a significand of at most 2^53 and an exponent between -22 and 22; a relative error of at most 2^-51 for up to 17 digits, 2^-51 + 10^-16 for any number of digits (integer part not 0, checked, not zero terminated), both for normal results of at least 10^-308 or so; 2^-50 and 2^-50 + 10^-16 for smaller exponents and results of at least 2^-1020; infinity for exponents above 308. False of the code: 0e309 is read as NaN and 0e1025 as infinity; an error of more than 2 ulp."
  },
  {
   "property": "C100",
   "status": "partial",
   "theorems": [
    "Verif.C100_round_trip_partial",
    "Verif.C100_default_partial",
    "Verif.C100_zero",
    "Verif.C100_false_by_default",
    "Verif.C100_bits_partial"
   ],
   "note": "Proved: precise mode, every format; default mode for scientific format and up to 15 digits with a small exponent. Zero is read back as zero, negative zero loses its sign. False of the code in default mode in general. C100_bits_partial starts from the bits of the double, with the decimal that dragonbox computes."
  },
  {
   "property": "C101",
   "status": "partial",
   "theorems": [
    "Verif.C101_special_partial",
    "Verif.C101_number_partial",
    "Verif.C101_number_default_partial",
    "Verif.C101_not_written",
    "Verif.C101_round_trip_partial",
    "Verif.C101_located_number",
    "Verif.C101_false_for_located_infinity",
    "Verif.C101_false_for_located_nan",
    "Verif.C101_false_for_nonsense",
    "Verif.C101_reads_past_end",
    "Verif.C101_false_at_end",
    "Verif.C101_bits_partial"
   ],
   "note": "Proved: special values read in place; numbers read in place or located (precise mode; default mode as far as C99_nearest); round trip in place in precise mode; writing throws where it should. False of the code: infinities, and NaN in a string_view, that are located before their turn are rejected; \"NaNsense\" is read as NaN; reads past the end of malformed documents; a bare number at the very end is rejected with Maybe."
  },
  {
   "property": "C102",
   "status": "partial",
   "theorems": [
    "Verif.C102_reads_partial",
    "Verif.C102_exact",
    "Verif.C102_round_trip",
    "Verif.C102_false_too_many",
    "Verif.C102_false_loses_elements",
    "Verif.C102_false_by_order"
   ],
   "note": "Proved: arrays with at most N elements, in place and as documents; round trip; C102_exact says for every text, valid or not, and every parser of elements what is accepted. False of the code for every array with more than N elements: the parser stops in front of the first element that does not fit, so that the outcome depends on where the array stands (accepted as a document or when located before its turn, rejected as an element or when the end is verified), and elements of an enclosing vector can be lost without an error."
  },
  {
   "property": "C103",
   "status": "proved",
   "theorems": [
    "Verif.C103_reads",
    "Verif.C103_round_trip"
   ],
   "note": "Checked mode, std::string_view documents; the map is the document itself."
  },
  {
   "property": "C104",
   "status": "proved",
   "theorems": [
    "Verif.C104_rounds",
    "Verif.C104_shortest",
    "Verif.C104_closest",
    "Verif.C104_zero"
   ],
   "note": "double, with the table of full size; float: C105. Which of two equally close decimals is taken is not stated."
  },
  {
   "property": "C105",
   "status": "proved",
   "theorems": [
    "Verif.C105_rounds",
    "Verif.C105_shortest",
    "Verif.C105_closest",
    "Verif.C105_zero"
   ],
   "note": "float, with the table of full size. Which of two equally close decimals is taken is not stated."
  },
  {
   "property": "C106",
   "status": "partial",
   "theorems": [
    "Verif.C106_false",
    "Verif.C106_error_partial"
   ],
   "note": "False of the code: 3246.0461f comes back as the float below, in default and in precise mode, since the significand is converted to float before it is scaled. Proved instead: in default mode and scientific format the relative error is at most 2^-21, for floats from 10^-28 to 2^126."
  },
  {
   "property": "C107",
   "status": "partial",
   "theorems": [
    "Verif.C107_hash_reads_partial",
    "Verif.C107_cpp_reads_partial",
    "Verif.C107_hash_all_types_partial",
    "Verif.C107_cpp_all_types_partial",
    "Verif.C107_false_behind_quoted",
    "Verif.C107_false_behind_bracket",
    "Verif.C107_false_right_behind",
    "Verif.C107_reads_past_the_end"
   ],
   "note": "Checked mode; for booleans and integers stored as strings comments must follow whitespace (a comment right behind a quoted unsigned integer is an error, C107_false_behind_quoted); an array or map that is empty has no comment in it; raw values contain the comments. Block comments as in C42 (no stars or slashes, two bytes of whitespace behind). False of the code: a comment after whitespace behind [ is an error; a comment right behind null or an unsigned integer is an error; a text that ends inside a class reads past the end."
  },
  {
   "property": "C108",
   "status": "proved",
   "theorems": [
    "Verif.C108_same_values",
    "Verif.C108_same_rejections",
    "Verif.C108_comment_matters"
   ],
   "note": "Checked mode, all types of the model. Values and rejection, not the reason of a rejection: a text that ends inside a class is an error without comments and read past its end with them (C107)."
  },
  {
   "property": "C109",
   "status": "partial",
   "theorems": [
    "Verif.C109_elements_are_arguments",
    "Verif.C109_document_is_argument",
    "Verif.C109_at_path_partial"
   ],
   "note": "Checked mode, string_view. Missing: a path together with MustVerifyEndOfDataIsValid, for which it is false of the code (C28_verify_end_false)."
  },
  {
   "property": "C110",
   "status": "proved",
   "theorems": [
    "Verif.C110_reads",
    "Verif.C110_round_trip",
    "Verif.C110_same_values"
   ],
   "note": "Checked mode. C110_whitespace_matters: documents with whitespace between tokens are rejected."
  },
  {
   "property": "C111",
   "status": "partial",
   "theorems": [
    "Verif.C111_array_partial",
    "Verif.C111_json_values_partial",
    "Verif.C111_once_partial",
    "Verif.C111_no_array",
    "Verif.C111_missing_partial",
    "Verif.C111_false_for_empty",
    "Verif.C111_index_false"
   ],
   "note": "Checked mode. Proved for paths in which every index follows a name (false of the code for the others: the index is ignored), with the conditions of C35 on the iteration and of C28 on what is missing. False of the code for every document without a value: the byte behind its end is read, whatever the path."
  },
  {
   "property": "C112",
   "status": "partial",
   "theorems": [
    "Verif.C112_day_partial",
    "Verif.C112_day_false",
    "Verif.C112_month_name",
    "Verif.C112_month_parse",
    "Verif.C112_month_round_trip"
   ],
   "note": "The months are proved in full. The days of the week are proved from 1970 on, and for midnight before; false of the code for every other time before 1970, where the name is the one of the following day."
  },
  {
   "property": "C113",
   "status": "partial",
   "theorems": [
    "Verif.C113_as_partial",
    "Verif.C113_array_partial",
    "Verif.C113_object_partial",
    "Verif.C113_missing_partial",
    "Verif.C113_later_partial",
    "Verif.C113_path_forgets_options",
    "Verif.C113_false_for_missing",
    "Verif.C113_false_for_later"
   ],
   "note": "Checked mode. Proved for values at any path, elements and members in a loop, and members kept as json_value that are not strings or null. False of the code: from_json( value, path, flags ) does not use the options of the value; a missing value is an empty string_view, and for variants and custom types of any kind a byte that is not there is read; strings kept for later lose their quotes and null is a value of no type."
  },
  {
   "property": "C114",
   "status": "partial",
   "theorems": [
    "Verif.C114_write_partial",
    "Verif.C114_strings_lose_their_quotes",
    "Verif.C114_false_for_strings_and_nothing"
   ],
   "note": "Checked mode, values found by a path. Proved for everything but strings; false of the code for every string, which is written without its quotes."
  },
  {
   "property": "C115",
   "status": "partial",
   "theorems": [
    "Verif.C115_choice",
    "Verif.C115_same_as_intrusive_partial",
    "Verif.C115_reads_partial",
    "Verif.C115_unknown_tag",
    "Verif.C115_round_trip_partial",
    "Verif.C115_false_for_eight",
    "Verif.C115_false"
   ],
   "note": "The alternatives are classes. The choice is proved right for any number of classes, the agreement with json_intrusive_variant on every text, checked or not, with known and unknown bounds; reading and the round trip in checked mode. False of the code: a multiple of eight classes cannot be compiled; with UseExactMappingsByDefault every object with a member other than the tag is rejected; a value with the tag of another class is not read back."
  },
  {
   "property": "C116",
   "status": "partial",
   "theorems": [
    "Verif.C116_c_string_partial",
    "Verif.C116_round_trip_partial",
    "Verif.C116_unescaped",
    "Verif.C116_null_pointer",
    "Verif.C116_endless",
    "Verif.C116_false_for_invalid"
   ],
   "note": "Proved for valid UTF-8, and without escapes for all bytes. False of the code for text that is not valid UTF-8: a sequence cut off by the zero byte is followed behind it, and a byte that starts no sequence makes the loop endless (under the contract of utf8::unchecked::iterator that the code for containers assumes)."
  },
  {
   "property": "C117",
   "status": "partial",
   "theorems": [
    "Verif.C117_document_partial",
    "Verif.C117_round_trip_partial",
    "Verif.C117_elements",
    "Verif.C117_members_partial",
    "Verif.C117_false"
   ],
   "note": "Elements: every text. Documents: every text but a lone zero byte. Members: every well formed object in which no alias is null, missing or the empty string. False of the code there: an alias of a string that is empty and comes before its turn is rejected, and an alias of a nullable type is not nullable as a member. An alias of an alias is not modelled."
  },
  {
   "property": "C118",
   "status": "partial",
   "theorems": [
    "Verif.C118_whole_or_rejected",
    "Verif.C118_whole_or_rejected_std_string",
    "Verif.C118_rejected",
    "Verif.C118_false"
   ],
   "note": "Proved: names are taken whole or rejected, exactly when. C118_rejected is about the first name of an object (later names are read by the same function). False of the code: escapes in the names of classes are not decoded, so that a name with escapes is never the mapped name it stands for; mapped names are written without escapes."
  },
  {
   "property": "C119",
   "status": "partial",
   "theorems": [
    "Verif.C119_containers",
    "Verif.C119_integer",
    "Verif.C119_boolean_partial",
    "Verif.C119_string_partial",
    "Verif.C119_string_in_bounds_partial",
    "Verif.C119_string_false",
    "Verif.C119_false",
    "Verif.C119_of_json_value_partial"
   ],
   "note": "Containers: every text. Integers: every value in range, all modes. Booleans: with checks. Strings: if the closing quote follows in memory. False of the code otherwise: a string without escapes and without a quote behind it is read beyond its end (proved for every such text), reals are read as other numbers, null is not read as an empty optional, and without checks true is read as false."
  },
  {
   "property": "C120",
   "status": "partial",
   "theorems": [
    "Verif.C120_total",
    "Verif.C120_round_trip_partial",
    "Verif.C120_optional_partial",
    "Verif.C120_own_partial",
    "Verif.C120_stream_false",
    "Verif.C120_empty_false",
    "Verif.C120_false"
   ],
   "note": "Types that are not nullable: texts that need no escapes (they are written without). Optionals with a value, of a type with to_string or convertible to text. Optionals, empty or not, as strings, if from_string is given for the optional itself. False of the code otherwise: an optional of a type that has only operator<< is written as 1 whatever its value (it streams has_value), an empty optional is written as the text null and read as a value. Other nullable types are not modelled."
  },
  {
   "property": "C121",
   "status": "partial",
   "theorems": [
    "Verif.C121_messages",
    "Verif.C121_reason_partial",
    "Verif.C121_reason_false"
   ],
   "note": "Proved for every exception but one: ExpectedTokenNotFound is raised without a token (daw_json_value.h L261), and reason() then reads the member of the union that is not active. The report with the place is C95."
  },
  {
   "property": "C122",
   "status": "partial",
   "theorems": [
    "Verif.C122_agrees",
    "Verif.C122_names_the_first_missing_partial",
    "Verif.C122_message",
    "Verif.C122_inside_agrees",
    "Verif.C122_exactly",
    "Verif.C122_inside_partial",
    "Verif.C122_false_for_array_classes",
    "Verif.C122_false_for_zeros",
    "Verif.C122_report_false"
   ],
   "note": "The class that is parsed itself, with its place, and classes inside of classes, arrays, maps, tuples, nullable values and variants, without the place, if all that is read before is right. For all documents the reason is about a member of the mapping if and only if the parse ends with missing_member. Missing: which member that is in documents with other faults in front of it, the place of inner classes. For a class stored in an array the name is always ordered_class_member. A name with a zero in it is cut. The report on the exception always reads in front of the document unless fifty blanks stand in front of the class."
  },
  {
   "property": "C123",
   "status": "partial",
   "theorems": [
    "Verif.C123_never_another_value",
    "Verif.C123_one_option_partial",
    "Verif.C123_both_options_partial",
    "Verif.C123_default",
    "Verif.C123_end_false",
    "Verif.C123_name_false",
    "Verif.C123_zero_false"
   ],
   "note": "No option ever gives another value (all options, all texts). With one of the options every accepted text is accepted with the same value. False for texts that end early: run-time and SIMD mode run over the end of the document when leaving a class, and long names make the parse read from a null pointer if a name has no end. With both options the same for checked parses of texts without zeros; false for texts with zeros. Missing: unchecked parses with both options. Strings are in C07 and C56."
  },
  {
   "property": "C124",
   "status": "partial",
   "theorems": [
    "Verif.C124_no_comments",
    "Verif.C124_next_no_comments",
    "Verif.C124_block_false",
    "Verif.C124_before_a_quote_partial",
    "Verif.C124_hash_false",
    "Verif.C124_cpp_false"
   ],
   "note": "False of the code: with ExpectLongNames the end of a comment is looked for as the next quote (daw_json_string_util.h L87-107 search for the quote whatever character is wanted). Holds without comments and for hash comments in front of a string. Checked mode only."
  },
  {
   "property": "C125",
   "status": "partial",
   "theorems": [
    "Verif.C125_defined_partial",
    "Verif.C125_document_partial",
    "Verif.C125_false"
   ],
   "note": "Proved for any characters if the date has 6 to 13 characters and the time 5 (the third no digit) or 8 to 15, whatever the zone. False of the code for shorter dates and times and for fractions of more than nine characters: pop_back and pop_front of daw::string_view (not part of the repository, taken for undefined) remove more than there is."
  }
 ]
}
