{"id": "C01", "title": "A skipped value is consumed exactly", "statement": "When the parser passes over a JSON value it does not need (an unknown member, an element before the requested index, the value behind a json_value cursor), and that value is well formed, it stops exactly one past the last byte of that value: not inside it, and not in the text that follows.", "quantifier": "every well-formed JSON value text (nesting depth below 2^32, any string contents and escapes, any interior whitespace) and every continuation that may follow a value: whitespace, then the end of the text or one of , ] } (the end of the text directly after a bare null excepted)", "why_tests_cant": "Values and continuations form an unbounded set; an off-by-one for one bracket/quote/escape combination at some depth shifts every later member.", "anchors": ["include/daw/json/impl/daw_json_skip.h: skip_value, skip_string, skip_number, skip_literal", "include/daw/json/impl/daw_json_parse_policy_no_comments.h: skip_bracketed_item_checked"]}
{"id": "C02", "title": "Checked skipping never reads outside the buffer", "statement": "In the default (checked, no comments) mode, passing over a value and skipping whitespace read only bytes of the supplied range, whatever the bytes are; malformed input ends in an error or a successful skip, never an out-of-range read.", "quantifier": "every byte string, including truncated, unbalanced and non-UTF-8 input, not assumed to be zero terminated", "why_tests_cant": "A fuzzer samples inputs; the claim is about all byte strings and in particular about every truncation point.", "anchors": ["include/daw/json/impl/daw_json_skip.h: skip_value", "include/daw/json/impl/daw_json_parse_policy_no_comments.h: trim_left_checked, skip_bracketed_item_checked", "include/daw/json/impl/daw_json_string_util.h"]}
{"id": "C03", "title": "The cursor only moves forward inside the document", "statement": "Whenever skipping a value, skipping whitespace or advancing to the next member succeeds, the new position is at or after the old one and never past the end of the document; a successfully skipped value is never empty.", "quantifier": "every byte string and every starting position", "why_tests_cant": "Loops over members terminate only if every step makes progress; tests cannot enumerate all inputs on which a step could stall.", "anchors": ["include/daw/json/impl/daw_json_skip.h: skip_value", "include/daw/json/impl/daw_json_parse_policy.h: BasicParsePolicy::move_next_member_or_end_checked, trim_left"]}
{"id": "C04", "title": "Unchecked mode agrees with checked mode on well-formed values", "statement": "CheckedParseMode::no is only an optimisation: whenever the checked mode skips a value and something is left, the unchecked mode skips exactly the same bytes and never reads past the end; this includes every well-formed value followed by at least one more byte (after true, false, null: one that is not whitespace).", "quantifier": "every byte string on which the checked mode succeeds with input left; every well-formed JSON value and every such continuation", "why_tests_cant": "The two modes are separate code paths that must agree on an infinite input set.", "anchors": ["include/daw/json/impl/daw_json_parse_policy_no_comments.h: skip_bracketed_item_unchecked, trim_left_unchecked", "include/daw/json/impl/daw_json_skip.h"]}
{"id": "C05", "title": "Whitespace between tokens is immaterial", "statement": "Skipping whitespace removes every space, tab, newline and carriage return at the cursor and stops at the first other byte or the end of the document; hence inserting or removing whitespace in front of a token never changes which token is seen next.", "quantifier": "every run of JSON whitespace of any length and any following text", "why_tests_cant": "Unbounded runs and all following bytes.", "anchors": ["include/daw/json/impl/daw_json_parse_policy_no_comments.h: trim_left_checked, trim_left_unchecked"]}
{"id": "C06", "title": "Bracket matching is respected when skipping containers", "statement": "If skipping an array or object succeeds, the skipped text has properly nested brackets: each closing bracket matches the kind of the innermost open one.", "quantifier": "every byte string starting with [ or {", "why_tests_cant": "A counter-based matcher looks right on every balanced sample; the question is about all unbalanced ones.", "anchors": ["include/daw/json/impl/daw_json_parse_policy_no_comments.h: skip_bracketed_item_checked"]}
{"id": "C07", "title": "The end of a string is the first unescaped quote in every execution mode", "statement": "The compile-time, runtime (memchr) and SIMD back ends find the same closing quote: the first quote preceded by an even number of consecutive backslashes.", "quantifier": "every string body of any length and every run length of backslashes, at every alignment relative to the SIMD block", "why_tests_cant": "The SIMD path carries escape state between 16-byte blocks; every block boundary and run parity matters.", "anchors": ["include/daw/json/impl/daw_not_const_ex_functions.h: find_escaped_branchless, mem_skip_until_end_of_string", "include/daw/json/impl/daw_json_parse_string_quote.h: parse_nq_check"]}
{"id": "C08", "title": "String values survive a serialise/parse round trip", "statement": "Writing any valid UTF-8 string with to_json and reading it back with from_json gives the identical bytes, with default options.", "quantifier": "every finite sequence of Unicode scalar values", "why_tests_cant": "The domain is all strings; escaping interacts with code-point boundaries and with the following character.", "anchors": ["include/daw/json/impl/to_daw_json_string.h: copy_to_iterator, utf32_to_utf8, output_hex", "include/daw/json/impl/daw_json_parse_std_string.h: parse_string_known_stdstring"]}
{"id": "C09", "title": "7-bit output is 7-bit and still round trips", "statement": "With OnlyAllow7bitsStrings every byte written for a string is printable ASCII (0x20..0x7E), and reading the result back gives the identical string.", "quantifier": "every finite sequence of Unicode scalar values, including those needing surrogate pairs", "why_tests_cant": "All 1.1M scalar values in all combinations.", "anchors": ["include/daw/json/impl/to_daw_json_string.h: copy_to_iterator, output_hex", "include/daw/json/impl/daw_json_parse_std_string.h: decode_utf16"]}
{"id": "C10", "title": "Written strings are valid JSON strings", "statement": "The body written for a string value never contains a raw control character, and every quote or backslash in it is part of an escape sequence, so the reader's closing quote is the writer's closing quote.", "quantifier": "every valid UTF-8 string", "why_tests_cant": "Injection-style safety claim over all strings.", "anchors": ["include/daw/json/impl/to_daw_json_string.h: utils::copy_to_iterator"]}
{"id": "C11", "title": "\\u escapes decode to the named code point", "statement": "A \\uXXXX escape outside the surrogate range, and a high/low surrogate pair of escapes, decode to the UTF-8 encoding of exactly that Unicode scalar value, for either letter case of the hex digits.", "quantifier": "every Unicode scalar value and every choice of hex digit case", "why_tests_cant": "Boundary values between 1/2/3/4-byte encodings and between BMP and supplementary planes.", "anchors": ["include/daw/json/impl/daw_json_parse_std_string.h: decode_utf16, byte_from_nibbles, to_nibble"]}
{"id": "C12", "title": "Malformed string escapes are rejected", "statement": "In checked mode a string containing a \\u escape whose four characters are not all hexadecimal digits, or an unpaired high surrogate, is an error.", "quantifier": "every string body containing such an escape", "why_tests_cant": "All ill-formed escapes.", "anchors": ["include/daw/json/impl/daw_json_parse_std_string.h: byte_from_nibbles, decode_utf16"]}
{"id": "C13", "title": "Integers survive a serialise/parse round trip", "statement": "Writing any value of an integer type of width 8, 16, 32 or 64, signed or unsigned, and parsing the text back as that type gives the same value.", "quantifier": "every value of every width, both when the end of the number is known in advance and when it is not", "why_tests_cant": "2^64 values; INT64_MIN and pairs-of-digits boundaries.", "anchors": ["include/daw/json/impl/to_daw_json_string.h: to_json_string_signed, to_json_string_unsigned", "include/daw/json/impl/daw_json_parse_unsigned_int.h: unsigned_parser_known, unsigned_parser_not_known, to_signed"]}
{"id": "C14", "title": "Integer output is canonical", "statement": "The text written for an integer is the standard decimal numeral: an optional minus sign, no leading zeros, digits most significant first, denoting exactly that value.", "quantifier": "every signed and unsigned value", "why_tests_cant": "Digit-pair tables and reversal interact at every length parity.", "anchors": ["include/daw/json/impl/to_daw_json_string.h: to_json_string_signed, to_json_string_unsigned, digits100, reverse"]}
{"id": "C15", "title": "Digit blocks are decoded positionally", "statement": "The 8- and 16-digit word-at-a-time decoders used for fast modes return the decimal value of the digits, and the digit-block test accepts exactly blocks of eight ASCII digits.", "quantifier": "every block of 8 (resp. 16) bytes", "why_tests_cant": "10^8 (10^16) digit blocks and 2^64 byte blocks.", "anchors": ["include/daw/json/impl/daw_json_parse_unsigned_int.h: parse_8_digits, parse_16_digits, is_made_of_eight_digits_cx"]}
{"id": "C16", "title": "Out-of-range integers are rejected when range checking is on", "statement": "Parsing a number into an integer type with range checking either yields the mathematical value of the numeral or reports NumberOutOfRange.", "quantifier": "every digit string", "why_tests_cant": "Overflow is only visible on specific inputs; the claim is over all of them.", "anchors": ["include/daw/json/impl/daw_json_parse_unsigned_int.h: unsigned_parser_not_known, narrow_cast"]}
{"id": "C17", "title": "Decimal rendering of reals is exact", "statement": "When a real is rendered from its shortest decimal significand and exponent, the text written (decimal or scientific) denotes exactly significand * 10^exponent.", "quantifier": "every positive significand of up to 17 digits and every exponent, every output format", "why_tests_cant": "Zero padding and decimal point placement differ by sign and size of the exponent.", "anchors": ["include/daw/json/impl/to_daw_json_string.h: to_chars, to_json_string_real"]}
{"id": "C18", "title": "Documents survive a typed round trip", "statement": "from_json<T>(to_json(v)) == v for every mapped type built from booleans, integers, strings, optionals, arrays, key/value maps, tuples and classes, nested to any depth.", "quantifier": "every such type whose classes have distinct member names that need no escaping, and every value of it whose strings are valid UTF-8", "why_tests_cant": "The set of mappings and of values is infinite; composition of the pieces is what users rely on.", "anchors": ["include/daw/json/impl/to_daw_json_string.h", "include/daw/json/impl/daw_json_parse_value.h", "include/daw/json/impl/daw_json_parse_class.h", "include/daw/json/daw_from_json.h: from_json", "include/daw/json/daw_to_json.h: to_json"]}
{"id": "C19", "title": "Formatting options never change the data", "statement": "Pretty printing with any indentation and newline style yields a document that parses to the same value as the minified one, and differs from it only by whitespace between tokens.", "quantifier": "every mapped type whose classes have distinct member names that need no escaping, every value, every indentation/newline option", "why_tests_cant": "Products of options, types and values.", "anchors": ["include/daw/json/impl/daw_json_serialize_policy.h: output_newline, indent, next_member", "include/daw/json/impl/to_daw_json_string.h"]}
{"id": "C20", "title": "to_json output is well-formed JSON", "statement": "With default or pretty options and no trailing commas, to_json writes a text generated by the JSON grammar.", "quantifier": "every mapped type and every value", "why_tests_cant": "Commas between omitted optional members and empty containers at arbitrary depth.", "anchors": ["include/daw/json/impl/to_daw_json_string.h: to_json_str, to_json_string_array, to_json_string_class", "include/daw/json/impl/daw_json_serialize_impl.h: serialize_json_class"]}
{"id": "C21", "title": "Member order does not matter", "statement": "A class value parses to the same result whatever the order of its (distinct) members in the document.", "quantifier": "every mapping, every document object and every permutation of its members", "why_tests_cant": "n! orders with arbitrary member values.", "anchors": ["include/daw/json/impl/daw_json_location_info.h: find_class_member, find_name", "include/daw/json/impl/daw_json_parse_class.h: parse_class_member, parse_json_class"]}
{"id": "C22", "title": "Unknown members are ignored", "statement": "By default, members of a document object whose names are not mapped do not affect the parsed class, wherever they appear and whatever they contain.", "quantifier": "every mapping, every object, every set of unmapped members with arbitrary well-formed values inserted anywhere", "why_tests_cant": "Unbounded insertions and values, and names are compared by hash.", "anchors": ["include/daw/json/impl/daw_json_location_info.h: find_class_member, find_name, make_locations_info", "include/daw/json/impl/daw_json_parse_class.h: class_cleanup_now"]}
{"id": "C23", "title": "Missing members: required is an error, optional is empty", "statement": "A class parse succeeds with an optional member absent, giving the empty value, and fails when a non-optional member is absent.", "quantifier": "every mapping and every object", "why_tests_cant": "All subsets of members in all orders.", "anchors": ["include/daw/json/impl/daw_json_location_info.h: find_class_member", "include/daw/json/impl/daw_json_parse_class.h: parse_class_member", "include/daw/json/impl/daw_json_parse_value.h: parse_value_null"]}
{"id": "C24", "title": "Full-name lookup is exact", "statement": "With ForceFullNameCheck (or when mapped names collide by hash) a document member is bound to a mapped member iff the names are equal.", "quantifier": "every set of mapped names and every document name", "why_tests_cant": "Hash collisions between arbitrary strings.", "anchors": ["include/daw/json/impl/daw_json_location_info.h: find_name, do_hashes_collide", "include/daw/json/impl/daw_murmur3.h: name_hash"]}
{"id": "C25", "title": "The long-name hash equals the plain hash", "statement": "ExpectLongNames changes only speed: the hash of any name is the same with and without it, so members are found alike.", "quantifier": "every byte string of every length", "why_tests_cant": "The unrolled loop depends on the length modulo 8.", "anchors": ["include/daw/json/impl/daw_murmur3.h: fnv1a_32, name_hash"]}
{"id": "C26", "title": "Iterating a json_value visits every element once, in order", "statement": "Iterating the members or elements of a well-formed object or array yields each of them exactly once in document order with its exact text (and name), then ends.", "quantifier": "every well-formed container with any interior whitespace", "why_tests_cant": "Unbounded containers and values.", "anchors": ["include/daw/json/impl/daw_json_value.h: basic_json_value_iterator, basic_json_value::begin", "include/daw/json/impl/daw_json_parse_policy.h: move_next_member_or_end_checked"]}
{"id": "C27", "title": "Lookup by name or index finds the right element", "statement": "find_member(name) on an object returns the first member with that name and the end iterator if there is none; find_element(i) returns the i-th element, if any.", "quantifier": "every well-formed container, every name, every index", "why_tests_cant": "All containers and keys.", "anchors": ["include/daw/json/impl/daw_json_value.h: find_class_member, find_element"]}
{"id": "C28", "title": "Path lookup is composition of member lookups", "statement": "Following a dotted/indexed JSON path from the document root reaches exactly the value obtained by following its components one at a time, and reports not-found when some component is missing.", "quantifier": "every well-formed document and every path", "why_tests_cant": "Paths and documents are unbounded.", "anchors": ["include/daw/json/impl/daw_json_parse_name.h: find_range2, pop_json_path, json_path_compare", "include/daw/json/daw_from_json.h: from_json with member_path"]}
{"id": "C29", "title": "Stateful lookup is history independent", "statement": "A json_value_state caches member positions; the answer to a lookup never depends on which lookups were made before.", "quantifier": "every object or array and every sequence of earlier lookups by name, index or size", "why_tests_cant": "The claim quantifies over all call histories.", "anchors": ["include/daw/json/daw_json_value_state.h: basic_stateful_json_value::move_to, operator[], at, size"]}
{"id": "C30", "title": "Negative indices count from the end", "statement": "Indexing a json_value_state with -k addresses the k-th element from the end for 1 <= k <= size and is an error otherwise.", "quantifier": "every array or object and every k", "why_tests_cant": "Boundary at k = size for all sizes.", "anchors": ["include/daw/json/daw_json_value_state.h: operator[], at"]}
{"id": "C31", "title": "Value type classification is correct", "statement": "json_value::type() of a well-formed value is its JSON kind (object, array, string, number, bool, null).", "quantifier": "every well-formed value with leading whitespace", "why_tests_cant": "All values.", "anchors": ["include/daw/json/impl/daw_json_value.h: basic_json_value::type"]}
{"id": "C32", "title": "The event parser reports the document in document order", "statement": "For a well-formed document the event handler is called with exactly the pre-order event sequence of the document tree, containers opened and closed in matching pairs, and the parse ends without error.", "quantifier": "every well-formed document of any depth when the handler always continues", "why_tests_cant": "Explicit-stack traversal of unbounded trees.", "anchors": ["include/daw/json/daw_json_event_parser.h: json_event_parser, process_value, process_range"]}
{"id": "C33", "title": "An event handler can stop or skip", "statement": "A handler returning Complete ends the parse normally at that point; one returning SkipClassArray skips exactly the remaining content of the current container.", "quantifier": "every well-formed document and every point at which the handler asks to stop or skip", "why_tests_cant": "All stopping points in all documents.", "anchors": ["include/daw/json/daw_json_event_parser.h: process_value, process_range"]}
{"id": "C34", "title": "JSON lines partitioning loses and duplicates nothing", "statement": "Splitting a JSON-lines document for parallel processing yields consecutive chunks whose concatenation is the document, each chunk but the last ending at a newline, and no more chunks than requested.", "quantifier": "every byte string and every requested number of partitions", "why_tests_cant": "All line-length patterns against all chunk sizes.", "anchors": ["include/daw/json/daw_json_lines_iterator.h: partition_jsonl_document"]}
{"id": "C35", "title": "JSON lines and array iteration yield every element in order", "statement": "Iterating an array document (json_array_iterator) or a JSON-lines document yields the parsed elements in order, once each, regardless of whether each element was dereferenced zero, one or more times.", "quantifier": "every well-formed sequence and every dereference pattern", "why_tests_cant": "History dependence: the skip/parse choice depends on whether the caller dereferenced.", "anchors": ["include/daw/json/daw_json_iterator.h: json_array_iterator_t", "include/daw/json/daw_json_lines_iterator.h: json_lines_iterator"]}
{"id": "C36", "title": "Iterator equality is an equivalence with the end", "statement": "Two end iterators of the same range compare equal, and an iterator that still has an element compares unequal to the end.", "quantifier": "every pair of iterator states", "why_tests_cant": "Depends on combinations of internal states.", "anchors": ["include/daw/json/daw_json_iterator.h: json_array_iterator_once operator==, operator!=", "include/daw/json/daw_json_iterator.h: json_array_iterator_t::operator=="]}
{"id": "C37", "title": "Calendar conversions are inverse", "statement": "Converting a civil date and time of day to a time point and back gives the same civil date and time.", "quantifier": "every valid proleptic Gregorian date from 1970 on and every time of day with millisecond resolution", "why_tests_cant": "Leap-year and era arithmetic over all dates.", "anchors": ["include/daw/json/impl/daw_json_parse_iso8601_utils.h: civil_to_time_point, time_point_to_civil"]}
{"id": "C38", "title": "Timestamps survive a round trip", "statement": "Writing a time point with json_date and parsing it back gives the same time point.", "quantifier": "every time point with sub-second part", "why_tests_cant": "All sub-second values, all dates.", "anchors": ["include/daw/json/impl/to_daw_json_string.h: to_json_string_date", "include/daw/json/impl/daw_json_parse_iso8601_utils.h: parse_iso8601_timestamp"]}
{"id": "C39", "title": "Time zone offsets shift the instant by the stated amount", "statement": "A timestamp with offset +hh:mm or -hh:mm denotes the instant obtained by subtracting that offset from the local time.", "quantifier": "every timestamp and every offset", "why_tests_cant": "All offsets and times of day, including those crossing midnight.", "anchors": ["include/daw/json/impl/daw_json_parse_iso8601_utils.h: parse_iso8601_timestamp"]}
{"id": "C40", "title": "Setting one option affects only that option", "statement": "Setting a parser (or serializer) option makes that option read back as the value set and leaves every other option unchanged.", "quantifier": "every option, every value of it and every prior option word", "why_tests_cant": "Products of options and words.", "anchors": ["include/daw/json/impl/daw_json_option_bits.h: set_bits, get_bits_for, set_bits_in", "include/daw/json/impl/daw_json_parse_options_impl.h: set_bits, get_bits_for, parse_options", "include/daw/json/impl/daw_json_serialize_policy_details.h"]}
{"id": "C41", "title": "Error locations name the right line and column", "statement": "Counting from zero, the line number reported for a position is the number of newlines before it, and the column is the number of bytes between the last newline before it (or the start of the document) and the position.", "quantifier": "every document and every position in it", "why_tests_cant": "All documents and positions.", "anchors": ["include/daw/json/daw_json_find_path.h: find_line_number_of, find_column_number_of"]}
{"id": "C42", "title": "Comments are equivalent to whitespace when enabled", "statement": "With a comment policy enabled, a complete comment in front of a token is skipped like whitespace.", "quantifier": "every comment text of the enabled kind, any run of comments and whitespace", "why_tests_cant": "All comment bodies, including ones with stars, slashes and quotes.", "anchors": ["include/daw/json/impl/daw_json_parse_policy_cpp_comments.h: skip_comments_checked, trim_left_checked, skip_bracketed_item_checked", "include/daw/json/impl/daw_json_parse_policy_hash_comments.h"]}
{"id": "C43", "title": "Trailing data is rejected when asked for", "statement": "With MustVerifyEndOfDataIsValid, from_json succeeds only if nothing but whitespace follows the value; without it the text after the value does not influence the result.", "quantifier": "every well-formed value and every trailing text", "why_tests_cant": "All trailing texts.", "anchors": ["include/daw/json/daw_from_json.h: from_json"]}
{"id": "C44", "title": "Ordered (array-mapped) classes are written and read by index", "statement": "A class mapped with json_ordered_member_list writes each member at its array index, and reading the array back gives the same members.", "quantifier": "every list of member indices (contiguous or with gaps) and every member values", "why_tests_cant": "All index patterns.", "anchors": ["include/daw/json/impl/to_daw_json_string.h: to_json_ordered_str", "include/daw/json/impl/daw_json_parse_class.h: parse_ordered_class_member, parse_json_tuple_class"]}
{"id": "C45", "title": "Trailing-comma output is still readable by the library", "statement": "With OutputTrailingComma the document written is accepted by from_json and gives the same value.", "quantifier": "every mapped type and every value, including classes with all members omitted", "why_tests_cant": "All combinations of omitted members.", "anchors": ["include/daw/json/impl/to_daw_json_string.h: to_json_string_array", "include/daw/json/impl/daw_json_serialize_impl.h: serialize_json_class"]}
{"id": "C46", "title": "Boolean and null literals are recognised exactly", "statement": "A bool or null value parses iff the text is the literal followed by something that cannot extend it; the parsed boolean is the one written.", "quantifier": "every byte string", "why_tests_cant": "All near-miss literals and continuations.", "anchors": ["include/daw/json/impl/daw_json_parse_value.h: parse_value for bool and null", "include/daw/json/impl/daw_json_skip.h: skip_true, skip_false, skip_null"]}
{"id": "C47", "title": "An integer must have digits", "statement": "In checked mode, parsing an integer member from a text that does not start with an optional minus sign followed by a digit is an error.", "quantifier": "for every integer type, with and without range checks, and every text not starting with an optional minus sign and a digit", "why_tests_cant": "the set of wrong prefixes is unbounded; a test tries a few and misses that a minus sign followed by a terminator slips through the sign handling", "anchors": ["include/daw/json/impl/daw_json_parse_policy_policy_details.h: validate_signed_first, validate_unsigned_first", "include/daw/json/impl/daw_json_parse_value.h: parse_value_signed, parse_value_unsigned", "include/daw/json/impl/daw_json_parse_unsigned_int.h: unsigned_parser_not_known"]}
{"id": "C48", "title": "DisallowHigh members reject high bytes when parsing", "statement": "A string member declared with EightBitModes::DisallowHigh fails to parse, in checked mode, when the string contains a byte above 0x7F.", "quantifier": "every string body and every position of a high byte in it", "why_tests_cant": "The byte can stand anywhere: first, after an escape, in the part copied before the loop; tests sample a few positions.", "anchors": ["include/daw/json/impl/daw_json_type_options.h:EightBitModes", "include/daw/json/impl/daw_json_parse_std_string.h:parse_string_known_stdstring"]}
{"id": "C49", "title": "String decoding stays inside its buffers", "statement": "Decoding a string value reads only bytes of the document and writes only inside the pre-sized result: in checked mode for any input, in unchecked mode for well formed strings.", "quantifier": "every byte sequence (checked); every well formed string followed by anything (unchecked)", "why_tests_cant": "Escapes consume and produce different numbers of bytes, and the decoder's idea of escapes differs from the scanner's; overruns need unusual combinations such as a truncated escape eating a backslash.", "anchors": ["include/daw/json/impl/daw_json_parse_std_string.h:parse_string_known_stdstring", "include/daw/json/impl/daw_json_parse_std_string.h:decode_utf16", "include/daw/json/impl/daw_json_parse_value.h:parse_value_string_escaped"]}
{"id": "C50", "title": "Typed parsing computes the meaning of the document", "statement": "For a well-formed document that is a value of type T (booleans, integers, strings, optionals, arrays, maps, classes, tuples, ordered classes, nested and recursive), from_json<T> succeeds and returns exactly that value, whatever the layout, member order and unmapped members.", "quantifier": "every type, every document that is a value of it, every whitespace layout", "why_tests_cant": "The set of types and of documents is infinite; tests sample a few mappings and documents.", "anchors": ["include/daw/json/daw_from_json.h: from_json", "include/daw/json/impl/daw_json_parse_value.h: parse_value", "include/daw/json/impl/daw_json_parse_class.h: parse_json_class", "include/daw/json/impl/daw_json_location_info.h: find_class_member"]}
{"id": "C51", "title": "Superfluous leading zeros are rejected in integers", "statement": "JSON numbers have no superfluous leading zero. In checked mode parsing an integer member (json_number<..., int>, json_checked_number, signed or unsigned, any width) from a text that starts with an optional minus sign, a 0 and a further digit is an error, whether the member is parsed where it stands or from a range found earlier.", "quantifier": "for all integer types, all following digits and all following text", "why_tests_cant": "Tests try 01 on one type; the property is about every integer type, both parse routes and all continuations, and it is in fact false for unsigned and for negative numbers.", "anchors": ["include/daw/json/impl/daw_json_parse_policy_policy_details.h: validate_signed_first, validate_unsigned_first", "include/daw/json/impl/daw_json_parse_value.h: parse_value_signed, parse_value_unsigned"]}
{"id": "C52", "title": "The parts of a JSON lines document hold its values", "statement": "Splitting a JSON-lines document (values without line breaks inside) and iterating over the parts one after another yields exactly the values of the whole document, in order: no value is cut in two, lost or seen twice.", "quantifier": "every JSON-lines document, every number of parts, every way of trimming whitespace at the end of a part", "why_tests_cant": "All line-length patterns against all chunk sizes; the cut points depend on every byte.", "anchors": ["include/daw/json/daw_json_lines_iterator.h: partition_jsonl_document, json_lines_range"]}
{"id": "C53", "title": "UTC timestamps are read as the instant they denote", "statement": "Parsing a well-formed ISO 8601 timestamp without offset, with or without separators, seconds, fraction and trailing Z, gives the time point that many milliseconds after the start of 1970, counted by the Gregorian calendar.", "quantifier": "every date of the calendar from the year 0 on within the 32 bit day count, every time of day, every fraction of up to nine digits, every format", "why_tests_cant": "Leap years, eras, optional parts and fraction lengths multiply.", "anchors": ["include/daw/json/impl/daw_json_parse_iso8601_utils.h: parse_iso8601_timestamp, parse_iso_8601_date, parse_iso_8601_time, civil_to_time_point"]}
{"id": "C54", "title": "Timestamps that denote no date are rejected", "statement": "A timestamp whose date does not exist in the calendar, whose time of day is out of range, or which has no time is rejected with an error.", "quantifier": "every text of the timestamp form", "why_tests_cant": "All combinations of fields, including days past the end of a month.", "anchors": ["include/daw/json/impl/daw_json_parse_iso8601_utils.h: parse_iso8601_timestamp, parse_iso_8601_date, parse_iso_8601_time, civil_to_time_point"]}
{"id": "C55", "title": "The path to a location names the value there", "statement": "For a position inside a value of a well-formed document, find_json_path_to returns the member names and array indices that lead from the root to that value.", "quantifier": "every well-formed document and every position in it", "why_tests_cant": "All documents, depths and positions; it rests on which callbacks of its handler the event parser finds, which a test of the handler alone does not see.", "anchors": ["include/daw/json/daw_json_find_path.h: find_json_path_to, find_json_path_stack_to, handler_t", "include/daw/json/daw_json_event_parser.h: has_on_value_handler_v, has_on_array_start_handler_v, has_on_class_start_handler_v"]}
{"id": "C56", "title": "Strings decode to the same value in every execution mode", "statement": "Reading a JSON string into a std::string yields the bytes the string stands for, whichever execution mode (compile time, runtime, SIMD) the parser was configured with, and writes only inside the result.", "quantifier": "every well formed string with any placement of escapes, whatever follows it in the document, in all three execution modes", "why_tests_cant": "The non-constexpr scanners record where the first escape is; a wrong position only shows for particular placements of the escape relative to the start of the string, the block size and the end of the document.", "anchors": ["include/daw/json/impl/daw_not_const_ex_functions.h: mem_skip_until_end_of_string, mem_move_to_next_of", "include/daw/json/impl/daw_json_parse_string_quote.h: parse_nq_check, parse_nq_uncheck", "include/daw/json/impl/daw_json_parse_string_need_slow.h: needs_slow_path", "include/daw/json/impl/daw_json_parse_std_string.h: parse_string_known_stdstring"]}
{"id": "C57", "title": "ExcludeSpecialEscapes rejects raw control characters in every execution mode", "statement": "With ExcludeSpecialEscapes::yes a checked parser accepts no string that contains a raw control character (a byte below 0x20), whichever execution mode is configured.", "quantifier": "every input text, all three execution modes", "why_tests_cant": "The option is only looked at in one of the branches selected at compile time by the execution mode.", "anchors": ["include/daw/json/impl/daw_json_parse_string_quote.h: parse_nq_check"]}
{"id": "C58", "title": "Reals are read from all their digits", "statement": "Reading a JSON number into a double or float computes the result from a sign, a significand and a power of ten that stand for exactly the number's value when it has at most 17 (9) digits, and for that value rounded towards zero in the last digit kept otherwise; whether the number is read in place or from a range found before, for every kind of input.", "quantifier": "every JSON number of any length and exponent, every parse policy, known and unknown range", "why_tests_cant": "The number of digits kept depends on where the point is, on the policy and on how the number was found; overflow only shows with particular long digit strings.", "anchors": ["include/daw/json/impl/daw_json_parse_real.h: parse_real_known, parse_real_unknown, parse_digits_until_last, parse_digits_while_number", "include/daw/json/impl/daw_json_skip.h: skip_number, skip_digits"]}
{"id": "C59", "title": "Precise mode reads the nearest double", "statement": "With IEEE754Precise::yes a real is computed either by strtod/from_chars on its text or from a significand and power of ten that are exact in the result type and stand for exactly the number's value, so that the result is correctly rounded.", "quantifier": "every JSON number, every policy, double and float", "why_tests_cant": "The fallback must trigger for every number the fast path cannot do exactly; the exceptions are a thin set of digit strings.", "anchors": ["include/daw/json/impl/daw_json_parse_real.h: parse_real_known, parse_real_unknown, parse_digits_until_last, parse_digits_while_number", "include/daw/json/impl/daw_json_skip.h: skip_number, skip_digits"]}
{"id": "C60", "title": "Default mode loses no more than the last digits", "statement": "In default mode the number computed from differs from the number in the text by a relative error below 10^-16 (double), as the documentation's 0-2 ulp promises.", "quantifier": "every JSON number of any number of digits", "why_tests_cant": "Numbers with many digits or many leading zeros after the point are rare in tests.", "anchors": ["include/daw/json/impl/daw_json_parse_real.h: parse_real_known, parse_real_unknown, parse_digits_until_last, parse_digits_while_number", "include/daw/json/impl/daw_json_skip.h: skip_number, skip_digits"]}
{"id": "C61", "title": "Written reals are read back", "statement": "The text written for a real from its shortest decimal significand and exponent is read back as the same decimal number.", "quantifier": "every significand of up to 17 digits, every exponent, every output format, every parse policy", "why_tests_cant": "Writer and reader choose their formats and digit limits independently.", "anchors": ["include/daw/json/impl/daw_json_parse_real.h: parse_real_known, parse_real_unknown, parse_digits_until_last, parse_digits_while_number", "include/daw/json/impl/daw_json_skip.h: skip_number, skip_digits", "include/daw/json/impl/to_daw_json_string.h: to_chars"]}
{"id": "C62", "title": "A std::string is parsed right", "statement": "from_json of a std::string, which takes the code paths for zero terminated input, gives the value the document means, reads back what to_json wrote into a std::string, and with MustVerifyEndOfDataIsValid accepts exactly whitespace after the document.", "quantifier": "every mapping, every document that is a value of it (unmapped names not sharing a hash with a mapped name unless names are compared in full), every text after it, every set of parse options in checked mode", "why_tests_cant": "End checks are replaced by the terminator in a dozen places, each of which is right only because of what can follow a value there; that needs an argument for every document, nesting and member order.", "anchors": ["include/daw/json/daw_from_json.h: from_json", "include/daw/json/impl/daw_json_traits.h: is_zero_terminated_string", "include/daw/json/impl/daw_json_parse_policy.h: BasicParsePolicy", "include/daw/json/impl/daw_json_skip.h: skip_value", "include/daw/json/impl/daw_json_parse_string_quote.h: parse_nq_check", "include/daw/json/impl/daw_json_parse_unsigned_int.h: unsigned_parser"]}
{"id": "C63", "title": "Parsing a std::string stays inside it", "statement": "Parsing a std::string in checked mode never reads past its terminator, whatever the string holds.", "quantifier": "every byte string, every mapping, every set of parse options in checked mode", "why_tests_cant": "The overrun needs particular malformed text; the bytes read after the terminator are usually harmless, so tests pass anyway.", "anchors": ["include/daw/json/daw_from_json.h: from_json", "include/daw/json/impl/daw_json_traits.h: is_zero_terminated_string", "include/daw/json/impl/daw_json_parse_policy.h: BasicParsePolicy", "include/daw/json/impl/daw_json_skip.h: skip_value", "include/daw/json/impl/daw_json_parse_string_quote.h: parse_nq_check", "include/daw/json/impl/daw_json_parse_unsigned_int.h: unsigned_parser", "include/daw/json/impl/daw_json_parse_policy_no_comments.h: move_to_next_of"]}
{"id": "C64", "title": "std::string and string_view give the same result", "statement": "The same text gives the same result, value or rejection, whether it is passed as a std::string or as a string_view.", "quantifier": "every text, every mapping, every set of parse options in checked mode", "why_tests_cant": "The two take different code paths for every token; the texts on which they differ are malformed or ill-typed.", "anchors": ["include/daw/json/daw_from_json.h: from_json", "include/daw/json/impl/daw_json_traits.h: is_zero_terminated_string", "include/daw/json/impl/daw_json_parse_policy.h: BasicParsePolicy", "include/daw/json/impl/daw_json_skip.h: skip_value", "include/daw/json/impl/daw_json_parse_string_quote.h: parse_nq_check", "include/daw/json/impl/daw_json_parse_unsigned_int.h: unsigned_parser"]}
{"id": "C65", "title": "A schema is well-formed JSON", "statement": "to_json_schema writes well-formed JSON for every mapped type, id and title.", "quantifier": "every type (classes written out), every output format, every id and title", "why_tests_cant": "Commas and brackets are placed by a template per kind of type, nested in each other without bound; tests see a handful of nestings and never an empty class or a quote in a title.", "anchors": ["include/daw/json/daw_json_schema.h: to_json_schema, json_class_processor"]}
{"id": "C66", "title": "A schema is a JSON Schema", "statement": "What to_json_schema writes is a valid schema in the draft that its $schema member declares (2020-12): every keyword has a value of the kind the meta-schema requires.", "quantifier": "every type, every output format, every id and title", "why_tests_cant": "A validator has to be run on the output of each type; the keyword misused depends on the kind of type and on emptiness.", "anchors": ["include/daw/json/daw_json_schema.h: to_json_schema, json_class_processor"]}
{"id": "C67", "title": "What is written conforms to the schema", "statement": "The document to_json writes for a value is valid against the schema to_json_schema writes for its type.", "quantifier": "every type, every value of it, every pair of output formats", "why_tests_cant": "Needs the semantics of JSON Schema related to every value of every type; the failing combinations (null elements) are rarely in samples.", "anchors": ["include/daw/json/daw_json_schema.h: to_json_schema, json_class_processor", "include/daw/json/daw_to_json.h: to_json"]}
{"id": "C68", "title": "What is accepted conforms to the schema", "statement": "Every document that from_json reads as a value of a type is valid against the schema of the type.", "quantifier": "every type, every document that means a value of it, any member order and unmapped members", "why_tests_cant": "Documents come from elsewhere: order, extra members, null for absent are free; tests validate what the library itself writes.", "anchors": ["include/daw/json/daw_json_schema.h: to_json_schema, json_class_processor", "include/daw/json/daw_from_json.h: from_json"]}
{"id": "C69", "title": "What conforms to the schema is accepted", "statement": "Every document that is valid against the schema of a type is read by from_json.", "quantifier": "every type, every document valid against its schema", "why_tests_cant": "The set of valid documents is infinite and differs from what is written; missing constraints (number of elements, range) only show on documents nobody writes by hand.", "anchors": ["include/daw/json/daw_json_schema.h: to_json_schema, json_class_processor", "include/daw/json/daw_from_json.h: from_json"]}
{"id": "C70", "title": "Writing to a span stays inside of it", "statement": "to_json( value, span ) writes the same text as to_json( value ) to the front of the span and returns the rest of it; if the text does not fit it throws OutputError; in every case, also when value cannot be written, nothing outside of the span changes, and inside only a prefix is overwritten.", "quantifier": "every value, every output format, every span size and every position of the span in memory", "why_tests_cant": "Whether a size check is missed depends on where the boundary falls between the calls a value is written with; tests cannot try every size for every value.", "anchors": ["include/daw/json/daw_to_json.h: to_json", "include/daw/json/concepts/daw_writable_output_basics.h: writable_output_trait", "include/daw/json/impl/daw_json_serialize_policy.h: serialization_policy::write, put"]}
{"id": "C71", "title": "Writing to a pointer writes the text and nothing else", "statement": "to_json( value, ptr ) rejects a null pointer, otherwise writes exactly the text and returns the pointer behind it; the length of the text is the only requirement on the memory.", "quantifier": "every value, every output format, every pointer", "why_tests_cant": "A byte written beyond the text (a terminator, a temporary comma) shows only if the byte after it is checked for every value.", "anchors": ["include/daw/json/daw_to_json.h: to_json", "include/daw/json/concepts/daw_writable_output_basics.h: writable_output_trait", "include/daw/json/impl/daw_json_serialize_policy.h: serialization_policy::write, put"]}
{"id": "C72", "title": "Containers, iterators and returned strings get the same text", "statement": "to_json( value, container ) appends to what the container holds the text that to_json( value ) returns; an output iterator is given the same characters; the mapping used is the one given. On an error what the container held is kept.", "quantifier": "every value, every output format, every mapping, every container content", "why_tests_cant": "The outputs use different code paths (resize and copy, push_back, assignment) chosen per call; only equality over all values shows that they agree.", "anchors": ["include/daw/json/daw_to_json.h: to_json", "include/daw/json/concepts/daw_writable_output_basics.h: writable_output_trait", "include/daw/json/impl/daw_json_serialize_policy.h: serialization_policy::write, put", "include/daw/json/daw_to_json.h: to_json_array"]}
{"id": "C73", "title": "Writing to a stream succeeds exactly if the stream takes everything", "statement": "to_json( value, FILE * ) and to_json( value, ostream ) return normally exactly if all of the text was accepted, and throw OutputError otherwise; what the stream got is the text up to where it stopped.", "quantifier": "every value, every output format, every amount of room left in the stream, signed and unsigned char", "why_tests_cant": "Devices that fill up at an arbitrary byte, and characters above 0x7F in each way of writing, are not tried by tests.", "anchors": ["include/daw/json/concepts/daw_writable_output_cstdio.h: writable_output_trait<std::FILE *>", "include/daw/json/concepts/daw_writable_output_ostream.h: writable_output_trait", "include/daw/json/impl/to_daw_json_string.h: copy_to_iterator"]}
{"id": "C74", "title": "to_json_array writes what to_json writes", "statement": "to_json_array( c ) writes the same text as to_json( c ) for the same container.", "quantifier": "every container of values, every output format", "why_tests_cant": "Two implementations of the same loop; they differ only for some option values.", "anchors": ["include/daw/json/daw_to_json.h: to_json_array", "include/daw/json/impl/to_daw_json_string.h: to_json_string_array"]}
{"id": "C75", "title": "A variant is told by the kind of its JSON value", "statement": "A json_variant member or document is read as the alternative that is stored as that kind of JSON value (boolean, number, string, array, object), with the value that this alternative has when read on its own; if there is none it is an error; whatever is accepted as a variant is accepted as the alternative it then holds.", "quantifier": "every list of alternatives stored as different kinds, every document, at the root and nested, std::string and string_view", "why_tests_cant": "The choice is made from one character (or from the text without its quotes when the member was skipped before); tests try a few alternatives in a few positions.", "anchors": ["include/daw/json/impl/daw_json_parse_value.h: parse_value_variant, parse_variant_value", "include/daw/json/daw_json_link_types.h: json_variant, json_base::json_variant"]}
{"id": "C76", "title": "An intrusive variant is told by its tag", "statement": "A json_intrusive_variant is read as the alternative the switcher names for the value of the tag member, wherever in the object that member stands and whatever else is in the object; a tag that names no alternative and a missing tag are errors.", "quantifier": "every list of alternatives, every switcher, every object, every position of the tag", "why_tests_cant": "The object is parsed twice, first as a class of the tag alone; every arrangement of members matters.", "anchors": ["include/daw/json/impl/daw_json_parse_value.h: parse_value_variant_intrusive, parse_visit", "include/daw/json/daw_json_link_types.h: json_intrusive_variant"]}
{"id": "C77", "title": "Variants survive a round trip", "statement": "to_json of a variant is the text of the value it holds, and from_json gives back the same alternative with the same value.", "quantifier": "every variant (by kind or by tag), every value, every output format", "why_tests_cant": "Values and mappings are unbounded, and reading back depends on the first character of what is written for every possible value.", "anchors": ["include/daw/json/impl/daw_json_parse_value.h: parse_value_variant, parse_variant_value", "include/daw/json/daw_json_link_types.h: json_variant, json_base::json_variant", "include/daw/json/impl/to_daw_json_string.h: to_json_string_variant, to_json_string_variant_intrusive, to_variant_string"]}
{"id": "C78", "title": "Exact mappings reject what is not mapped", "statement": "from_json of a class declared exact_class_mapping, or of any class with UseExactMappingsByDefault, fails with UnknownMember when the object has a member that is not mapped (the array an element behind the last one mapped), wherever it stands.", "quantifier": "every mapping, every object or array with something unmapped in any position, std::string and string_view", "why_tests_cant": "The unmapped member may stand before, between or after the members looked for, and members may have been skipped and stored before; unit tests try one or two arrangements.", "anchors": ["include/daw/json/impl/daw_json_parse_class.h: class_cleanup_now, parse_ordered_class_member, parse_json_class, parse_json_tuple_class", "include/daw/json/impl/daw_json_parse_value.h: parse_tuple_value", "include/daw/json/impl/daw_json_parse_name.h", "include/daw/json/daw_json_parse_options.h: exact_class_mapping, UseExactMappingsByDefault"]}
{"id": "C79", "title": "Unmapped elements of tuples and array classes are ignored", "statement": "Without an exact mapping a tuple or a class stored in an array is read from the first elements of the JSON array with the same result as if there were no others, and the surrounding document is read on behind the array.", "quantifier": "every tuple type and class stored in an array, every number and kind of further elements, at the root and nested, std::string and string_view", "why_tests_cant": "The rest of the array is skipped by counting brackets from the middle of it; the elements left can be any JSON.", "anchors": ["include/daw/json/impl/daw_json_parse_class.h: class_cleanup_now, parse_ordered_class_member, parse_json_class, parse_json_tuple_class", "include/daw/json/impl/daw_json_parse_value.h: parse_tuple_value", "include/daw/json/impl/daw_json_parse_name.h", "include/daw/json/daw_json_parse_options.h: exact_class_mapping, UseExactMappingsByDefault"]}
{"id": "C80", "title": "Unchecked parsing agrees with checked parsing on documents of the type", "statement": "For a document that is a value of the type, from_json with CheckedParseMode::no gives the same value as with checks, whatever readable bytes follow the document (one of them not white space), without reading on behind the first such byte.", "quantifier": "every mapping, every document of the type, every white space behind it, every memory behind that", "why_tests_cant": "The unchecked parser compares nothing with the end of the range; whether it stays inside depends on the whole document and on the memory behind it, which a test does not vary.", "anchors": ["include/daw/json/daw_from_json.h: from_json", "include/daw/json/impl/daw_json_parse_value.h: parse_value_null, parse_value_bool, parse_value_real, parse_value_signed, parse_value_unsigned", "include/daw/json/impl/daw_json_location_info.h: find_class_member", "include/daw/json/impl/daw_json_parse_policy_no_comments.h: trim_left_unchecked, move_next_member_unchecked"]}
{"id": "C81", "title": "Raw strings and custom types get the characters of the document", "statement": "A json_string_raw or json_custom member is given exactly the characters between the quotes of the string (escapes included), or those of the number or boolean, wherever the member stands in the object.", "quantifier": "every class with such members, every document of the class, any order of members and other members, std::string and string_view", "why_tests_cant": "The text is found in one of two ways, depending on the order of the members; strings can be any text.", "anchors": ["include/daw/json/impl/daw_json_parse_value.h: parse_value_string_raw, parse_value_custom, parse_value_unknown, parse_value_date", "include/daw/json/impl/daw_json_skip.h: skip_value, skip_string, skip_literal", "include/daw/json/daw_json_link_types.h: json_string_raw, json_custom, json_raw, json_date"]}
{"id": "C82", "title": "json_raw gets the text of the value", "statement": "A json_raw member is given exactly the text of the value in the document, wherever the member stands in the object.", "quantifier": "every class with such members, every document of the class, any value, any order of members, std::string and string_view", "why_tests_cant": "The value can be any JSON, nested to any depth, and is skipped in one of two ways, depending on the order of the members.", "anchors": ["include/daw/json/impl/daw_json_parse_value.h: parse_value_string_raw, parse_value_custom, parse_value_unknown, parse_value_date", "include/daw/json/impl/daw_json_skip.h: skip_value, skip_string, skip_literal", "include/daw/json/daw_json_link_types.h: json_string_raw, json_custom, json_raw, json_date"]}
{"id": "C83", "title": "Date members are the instant that their text denotes", "statement": "A json_date member given a timestamp in UTC is that instant, wherever the member stands in the object.", "quantifier": "every class with such members, every document of the class, every date and time, std::string and string_view", "why_tests_cant": "A timestamp found out of order takes another path through the parser than one found in order; unit tests try one.", "anchors": ["include/daw/json/impl/daw_json_parse_value.h: parse_value_string_raw, parse_value_custom, parse_value_unknown, parse_value_date", "include/daw/json/impl/daw_json_skip.h: skip_value, skip_string, skip_literal", "include/daw/json/daw_json_link_types.h: json_string_raw, json_custom, json_raw, json_date"]}
{"id": "C84", "title": "What a text member was read from is written back", "statement": "to_json of a json_string_raw, json_custom or json_raw value writes the text it was read from, byte for byte, in every format.", "quantifier": "every document, every kind of text member, every output option", "why_tests_cant": "The text can be any JSON; parser and writer are separate code.", "anchors": ["include/daw/json/impl/to_daw_json_string.h: to_json_string_string_raw, to_json_string_custom, to_json_string_unknown", "include/daw/json/impl/daw_json_parse_value.h: parse_value_string_raw, parse_value_custom, parse_value_unknown, parse_value_date", "include/daw/json/impl/daw_json_skip.h: skip_value, skip_string, skip_literal", "include/daw/json/daw_json_link_types.h: json_string_raw, json_custom, json_raw, json_date"]}
{"id": "C85", "title": "Checked parsing of a string_view stays inside it", "statement": "from_json of a std::string_view in checked mode looks at no byte behind the view, whether or not the text is JSON and whether or not it has the shape of the type.", "quantifier": "every byte string, every mapping (recursive ones included), every set of parse options in checked mode", "why_tests_cant": "An overrun by one byte goes unnoticed in most tests, needs text that stops at the wrong place, and depends on the order in which members are listed.", "anchors": ["include/daw/json/daw_from_json.h: from_json", "include/daw/json/impl/daw_json_parse_value.h: parse_value, parse_value_array, parse_value_class, parse_value_variant, parse_value_custom, parse_value_tuple", "include/daw/json/impl/daw_json_parse_class.h: parse_json_class, find_class_member, class_cleanup_now", "include/daw/json/impl/daw_json_parse_std_string.h: parse_string_known_stdstring", "include/daw/json/impl/daw_json_parse_policy.h: front, remove_prefix, trim_left_unchecked"]}
{"id": "C86", "title": "from_json accepts only documents that fit the type", "statement": "If checked from_json gives a value for a JSON document then the document fits the type at every depth: booleans come from true and false, integers from numbers without fraction or exponent and without a sign for unsigned types, strings from strings, arrays from arrays whose elements fit, classes from objects that have all the members that are not nullable, no unmapped member under an exact mapping, and values that fit the types of the members; a variant from a document that fits one of its alternatives.", "quantifier": "every JSON document, every mapping (recursive ones included), every set of parse options in checked mode, any nesting", "why_tests_cant": "A test can show that particular wrong documents are rejected; that no wrong document gets through at any depth and in any order of members is a statement about all of them.", "anchors": ["include/daw/json/daw_from_json.h: from_json", "include/daw/json/impl/daw_json_parse_value.h: parse_value, parse_value_array, parse_value_class, parse_value_variant", "include/daw/json/impl/daw_json_parse_class.h: parse_json_class, find_class_member, parse_class_member"]}
{"id": "C87", "title": "Reals inside documents keep their value", "statement": "A real number as member of a class, element of an array or map, alternative of a variant or document of its own is read by from_json as the number its text denotes, in any order of the members and for both kinds of input, and what to_json writes for a real reads back as the same real.", "quantifier": "every mapping with real members, every document that has numbers for them, every real, every output format, every set of parse options in checked mode", "why_tests_cant": "A test tries particular numbers in particular places; whether a number is parsed in place or from a range found earlier depends on the order of the members, and the digits that are kept on which of the two it is.", "anchors": ["include/daw/json/impl/daw_json_parse_real.h: parse_real, parse_real_known, parse_real_unknown", "include/daw/json/impl/daw_json_parse_value.h: parse_value_real", "include/daw/json/impl/to_daw_json_string.h: to_json_string_real, to_chars"]}
{"id": "C88", "title": "A tagged variant holds the alternative that goes with its tag", "statement": "from_json of a class with a json_tagged_variant member gives the alternative whose number the switcher gives for the tag, a member of the same object, wherever in the object the tag and the variant stand; with a tag for which there is no alternative nothing is accepted.", "quantifier": "every mapping with tagged variants among its members, every switcher, every list of alternatives, every object and every order of its members, every set of parse options in checked mode", "why_tests_cant": "Tests use a few documents with the tag in front; the tag is found by parsing the object a second time from a position that other code may have overwritten, so the outcome depends on the order of the members and on the kind of the value.", "anchors": ["include/daw/json/impl/daw_json_parse_value.h: find_index, parse_value_variant_tagged, parse_visit", "include/daw/json/impl/daw_json_skip.h: skip_number", "include/daw/json/daw_json_link_types.h: json_tagged_variant"]}
{"id": "C89", "title": "A sized array has all its elements and the size the object gives", "statement": "from_json of a class with a json_sized_array member gives all the elements of the array, in order, and constructs the container with the value of the size member of the same object, wherever the two stand.", "quantifier": "every size name and type, every element type, every object and every order of its members, every set of parse options in checked mode", "why_tests_cant": "Tests have the size in front of the array; the size is looked for in a range that ends where the array ends, by a path that is taken apart at dots and brackets.", "anchors": ["include/daw/json/impl/daw_json_parse_value.h: parse_value_sz_array", "include/daw/json/daw_json_link_types.h: json_sized_array", "include/daw/json/impl/daw_json_parse_name.h: find_range"]}
{"id": "C90", "title": "An array of key/value objects gives all the pairs", "statement": "from_json of a class with a json_key_value_array member accepts every JSON array whose elements are objects with a key and a value, in whichever order, and gives all the pairs in order.", "quantifier": "every key and value type, every array of such objects with any whitespace, every set of parse options in checked mode", "why_tests_cant": "Tests use a few arrays; whether whitespace is skipped and the end of the text looked at differs from that of ordinary arrays.", "anchors": ["include/daw/json/impl/daw_json_parse_value.h: parse_value_keyvalue_array", "include/daw/json/impl/daw_json_parse_kv_array_iterator.h: json_parse_kv_array_iterator", "include/daw/json/daw_json_link_types.h: json_key_value_array"]}
{"id": "C91", "title": "Tagged variants, sized arrays and key/value arrays survive a round trip", "statement": "For every value of a class with json_tagged_variant, json_sized_array and json_key_value_array members, to_json writes each tag and size once and from_json of what was written gives the value again.", "quantifier": "every mapping with such members, declared tags or not, nullable members or not, every consistent value, every set of output options and of parse options in checked mode", "why_tests_cant": "to_json writes tags and sizes in a pass of its own before the members and leaves out empty members, so which member from_json passes over depends on the value; tests try a few values.", "anchors": ["include/daw/json/impl/to_daw_json_string.h: dependent_member_to_json_str, to_json_str, to_json_string_variant_tagged, to_json_string_sized_array, to_json_string_kv_array", "include/daw/json/impl/daw_json_serialize_impl.h: serialize_json_class", "include/daw/json/impl/daw_json_parse_value.h: find_index, parse_value_sz_array, parse_value_keyvalue_array"]}
{"id": "C92", "title": "Booleans and integers stored as strings", "statement": "A json_bool or json_number of an integer type with LiteralAsStringOpt::Always or Maybe is given the value that stands between the quotes (with Maybe also without quotes), wherever the member stands; with Always a value that is not in quotes is rejected; to_json writes quotes exactly with Always, and what it writes is read back.", "quantifier": "every mapping, every document, every order of the members, every value of the type, string_view and std::string, every set of options in checked mode", "why_tests_cant": "the quotes are skipped in three functions when the member is in its place and not looked at when it was passed over earlier; whether the quotes match, what stands behind the digits and whether the text ends there take different paths, and tests only have matching quotes in members in order.", "anchors": ["include/daw/json/impl/daw_json_parse_value.h: skip_quote_when_literal_as_string, parse_value_signed, parse_value_unsigned, parse_value_bool", "include/daw/json/impl/daw_json_type_options.h: LiteralAsStringOpt", "include/daw/json/impl/to_daw_json_string.h: to_json_string_signed, to_json_string_unsigned, to_json_string_bool"]}
{"id": "C93", "title": "Whitespace in front of a document", "statement": "Whitespace in front of a document is ignored: from_json of the text with it gives what from_json gives without it.", "quantifier": "every type, every text, every run of whitespace in front of it, string_view and std::string", "why_tests_cant": "from_json does not skip whitespace itself; whether it is skipped depends on the parser of the outermost type, and tests start their documents with the value.", "anchors": ["include/daw/json/daw_from_json.h: from_json", "include/daw/json/impl/daw_json_parse_value.h: parse_value_array, parse_value_class, parse_value_tuple, parse_value_keyvalue, parse_value_bool, parse_value_signed, parse_value_string_escaped"]}
{"id": "C94", "title": "from_json_array reads what from_json reads as an array", "statement": "from_json_array<T>( doc ) returns or throws what from_json of an array of T returns or throws for the same document.", "quantifier": "every element type, every text, every set of options, string_view and std::string", "why_tests_cant": "it is a second entry point with its own checks, in its own order; tests call it with well-formed arrays.", "anchors": ["include/daw/json/daw_from_json.h: from_json_array, from_json"]}
{"id": "C95", "title": "The formatted message of an exception tells where the error is", "statement": "to_formatted_string( je, doc ) gives the reason, the line and the column, both from 1, of the location of the error and the characters of the document around it, and reads nothing but the document.", "quantifier": "every document, every location in it, every reason, with and without colours", "why_tests_cant": "tests print the message and do not look at it; whether it is right depends on where line ends are, and reading one byte outside the document goes unnoticed.", "anchors": ["include/daw/json/daw_json_exception.h: to_formatted_string"]}
{"id": "C96", "title": "A nullable member is written if it has a value or is NullVisible", "statement": "A nullable member that has a value is written; an empty one is left out with JsonNullable::Nullable and written as null with JsonNullable::NullVisible; every other member is written once, and nothing else is but the members on which those written depend.", "quantifier": "every class with plain members, tagged variants, sized arrays and key/value arrays, every value of it, every set of output options", "why_tests_cant": "which members are written depends on all members and values together; no test uses NullVisible.", "anchors": ["include/daw/json/impl/to_daw_json_string.h: to_json_str, dependent_member_to_json_str", "include/daw/json/impl/daw_json_enums.h: JsonNullable"]}
{"id": "C97", "title": "Maps with keys that are not strings", "statement": "from_json of a map whose keys are integers, booleans, dates, raw strings or custom types reads an object as one pair for each member, in document order, whose key is what the name stands for; a document with a name that stands for no key is rejected; what to_json writes for such a map is read back as the same pairs.", "quantifier": "every key type stored as a string, every value type, every JSON object with any number of members and any whitespace, every map", "why_tests_cant": "tests have a map with two or three integer keys; the quotes, the whitespace in front of the colon and the end of the number interact for every name.", "anchors": ["include/daw/json/impl/daw_json_parse_kv_class_iterator.h: json_parse_kv_class_iterator", "include/daw/json/impl/daw_json_parse_value.h: parse_value_keyvalue", "include/daw/json/impl/to_daw_json_string.h: to_json_string_kv", "include/daw/json/daw_json_link_types.h: json_key_lit_fix_t, json_key_value"]}
{"id": "C98", "title": "The double read in precise mode is the nearest one", "statement": "With IEEE754Precise::yes reading a JSON number into a double or float gives the nearest value of that type, ties to even, and infinity exactly if the number is too large.", "quantifier": "every JSON number of any number of digits and any exponent, every policy, range known before or not", "why_tests_cant": "the floating point operations round for every one of infinitely many digit strings; tests compare some with strtod", "anchors": ["include/daw/json/impl/daw_json_parse_real.h: parse_real", "include/daw/json/impl/daw_json_parse_real_power10.h: power10, dpow10_tbl", "include/daw/json/impl/daw_fp_fallback.h: parse_with_strtod"]}
{"id": "C99", "title": "Error of the double read in default mode", "statement": "Without IEEE754Precise::yes reading a JSON number gives the nearest double when the digits and the exponent are small, and a double at most two units in the last place away otherwise; a number too large for a double gives infinity, and zero gives zero.", "quantifier": "every JSON number of any number of digits and any exponent, every policy, range known before or not", "why_tests_cant": "the errors of the digits dropped, the table of powers and up to three operations add up; the worst cases are not found by chance", "anchors": ["include/daw/json/impl/daw_json_parse_real.h: parse_real", "include/daw/json/impl/daw_json_parse_real_power10.h: power10, dpow10_tbl", "include/daw/json/impl/daw_fp_fallback.h: parse_with_strtod", "include/daw/json/daw_json_parse_options.h: IEEE754Precise"]}
{"id": "C100", "title": "Doubles survive a round trip", "statement": "A finite double written by to_json, in any format, from its shortest decimal is read back by from_json as the same double.", "quantifier": "every finite double, every output format, every decimal of up to 17 digits that rounds to it, every policy", "why_tests_cant": "2^64 doubles; writer and reader choose their precision independently", "anchors": ["include/daw/json/impl/daw_json_parse_real.h: parse_real", "include/daw/json/impl/daw_json_parse_real_power10.h: power10, dpow10_tbl", "include/daw/json/impl/daw_fp_fallback.h: parse_with_strtod", "include/daw/json/impl/to_daw_json_string.h: to_chars"]}
{"id": "C101", "title": "Reals stored as strings, infinities and NaN", "statement": "A double mapped with LiteralAsString::Always or Maybe is written and read back as the same double, NaN and the infinities included where JsonNumberErrors allows them, in whatever order the members of the document come; where they are not allowed to_json throws; no other string is read as one of them and no document makes the parser read outside of it.", "quantifier": "every double, every setting of the two options, every format and policy, every continuation of the document, members in any order", "why_tests_cant": "the special values take separate code paths for values read in place and values located before; tests use members in mapping order and well-formed text", "anchors": ["include/daw/json/impl/daw_json_parse_value.h: parse_value_real", "include/daw/json/impl/to_daw_json_string.h: to_json_string_real", "include/daw/json/impl/daw_json_parse_value.h: skip_quote_when_literal_as_string", "include/daw/json/impl/daw_json_type_options.h: JsonNumberErrors"]}
{"id": "C102", "title": "Arrays of a fixed size", "statement": "A JSON array read into a std::array<T, N> gives its elements in order, T{} for those that are missing; an array with more than N elements is either rejected or its further elements are skipped, in every place where such an array can stand, and what follows the array is read as without it. What to_json writes for a std::array is read back as the same array.", "quantifier": "every element type, every N, every document of that type with any whitespace and any number of elements, any text behind it, members in any order", "why_tests_cant": "the iterator of the array is left standing between two elements when the array is too long; tests use arrays of exactly N elements", "anchors": ["include/daw/json/impl/daw_json_default_constuctor.h: default_constructor<std::array<T, Sz>>", "include/daw/json/impl/daw_json_parse_value.h: parse_value_array", "include/daw/json/impl/daw_json_parse_array_iterator.h: json_parse_array_iterator"]}
{"id": "C103", "title": "Maps have one entry for each name", "statement": "A std::map read from an object has exactly one entry for each name that occurs, names compared after escapes are resolved, with the value of the first member of that name; a std::map written by to_json is read back as the same map.", "quantifier": "every value type, every object with any number of members and repetitions in any order, every map, every output format", "why_tests_cant": "duplicate names and the order of insertion are input dependent; tests use a few distinct names", "anchors": ["include/daw/json/impl/daw_json_default_constuctor.h: default_constructor<std::map>, default_constructor<std::unordered_map>", "include/daw/json/impl/daw_json_parse_value.h: parse_value_keyvalue"]}
{"id": "C104", "title": "The decimal written for a double is the shortest one", "statement": "The decimal that to_json chooses for a finite double rounds to that double, no decimal with fewer digits does, none with as few digits that does is closer to the double, and it does not end in a zero.", "quantifier": "every finite double, that is all 2^64 bit patterns without infinities and NaN", "why_tests_cant": "the algorithm computes with truncated powers of ten and decides the border cases by parities and divisibility tests that are hit by very few of the 2^64 doubles", "anchors": ["include/daw/json/impl/to_daw_json_string.h: to_chars", "include/daw/third_party/dragonbox/dragonbox_to_decimal.h: to_decimal, compute_nearest, remove_trailing_zeros, cache_holder"]}
{"id": "C105", "title": "The decimal written for a float is the shortest one", "statement": "The decimal that to_json chooses for a finite float rounds to that float, no decimal with fewer digits does, none with as few digits that does is closer to the float, and it does not end in a zero.", "quantifier": "every finite float, that is all 2^32 bit patterns without infinities and NaN", "why_tests_cant": "the algorithm computes with truncated powers of ten and decides the border cases by parities and divisibility tests; the tests try a handful of floats", "anchors": ["include/daw/json/impl/to_daw_json_string.h: to_chars", "include/daw/third_party/dragonbox/dragonbox_to_decimal.h: to_decimal, compute_nearest, remove_trailing_zeros, cache_holder"]}
{"id": "C106", "title": "A float survives the round trip", "statement": "A finite float that is written with to_json and read with from_json is the same float.", "quantifier": "every finite float other than zero, default and precise mode", "why_tests_cant": "only some floats are lost; the tests compare a handful of them", "anchors": ["include/daw/json/impl/daw_json_parse_real.h: parse_real", "include/daw/json/impl/daw_json_parse_real_power10.h: power10", "include/daw/json/impl/to_daw_json_string.h: to_chars", "include/daw/third_party/dragonbox/dragonbox_to_decimal.h: to_decimal, compute_nearest, remove_trailing_zeros, cache_holder"]}
{"id": "C107", "title": "from_json reads the same value from a text with comments", "statement": "With a comment policy enabled, from_json gives the value that the document means, with any comments of the enabled kind between its tokens and behind it.", "quantifier": "every mapped type, every document of that type, every choice of gaps of whitespace and comments between the tokens", "why_tests_cant": "comments can stand in any of the gaps and every kind of value finds its end in its own way; the tests have a few texts with comments in a few of the places", "anchors": ["include/daw/json/impl/daw_json_parse_policy_hash_comments.h", "include/daw/json/impl/daw_json_parse_policy_cpp_comments.h", "include/daw/json/impl/daw_json_parse_value.h: parse_value", "include/daw/json/impl/daw_json_parse_class.h", "include/daw/json/daw_from_json.h: from_json"]}
{"id": "C108", "title": "Enabling a comment policy changes nothing for texts without the comment character", "statement": "If the character that begins a comment does not occur in a text, checked from_json with a comment policy returns a value exactly when it does without comments, and then the same value.", "quantifier": "every byte string without the comment character, valid or not, every mapped type, every setting of the other options", "why_tests_cant": "the comment policies have their own trim, skip and move functions, written separately; malformed texts could be accepted by one and not by the other at any nesting", "anchors": ["include/daw/json/impl/daw_json_parse_policy_hash_comments.h", "include/daw/json/impl/daw_json_parse_policy_cpp_comments.h", "include/daw/json/impl/daw_json_parse_policy_no_comments.h", "include/daw/json/impl/daw_json_parse_value.h: parse_value", "include/daw/json/daw_from_json.h: from_json"]}
{"id": "C109", "title": "json_apply calls the callable with the elements of the array", "statement": "json_apply on a document that is an array calls the callable with the values of the elements in order, each read as the type of its parameter, elements behind the last parameter being ignored; a callable with one parameter is called with the value of the whole document instead; with a path the same holds of the document at that path.", "quantifier": "every list of parameter types, every JSON document whose elements are of these types, every callable, every path", "why_tests_cant": "the arguments are built by a chain of templates over the signature; tests fix a few signatures", "anchors": ["include/daw/json/daw_json_apply.h: json_apply, json_apply_impl", "include/daw/json/daw_from_json.h: from_json", "include/daw/json/impl/daw_json_parse_value.h: parse_tuple_value"]}
{"id": "C110", "title": "MinifiedDocument::yes changes nothing for minified documents", "statement": "With MinifiedDocument::yes, from_json reads every JSON document that has nothing between its tokens (names and strings may hold whitespace) to the value it means; in particular what to_json writes without formatting is read back. On any text without whitespace, valid or not, it gives the same values and rejections as without the option.", "quantifier": "every type of the model, every document without whitespace between tokens; every byte string without whitespace", "why_tests_cant": "the option turns skipping of whitespace off in all parsers at once; tests try a few documents and few types", "anchors": ["include/daw/json/impl/daw_json_parse_policy_no_comments.h: trim_left_checked, trim_left_unchecked, move_to_next_of", "include/daw/json/impl/daw_json_parse_policy.h: trim_left, move_next_member_or_end", "include/daw/json/daw_from_json.h: from_json"]}
{"id": "C111", "title": "Array iterators over an array inside a document", "statement": "A json_array_iterator, json_array_iterator_once or range made from a document and a path iterates over exactly the elements of the array that the path leads to; if the path leads nowhere or to something that is not an array, an exception is thrown.", "quantifier": "every document, every path, every element type and dereference pattern", "why_tests_cant": "tests use a few paths into small documents; a wrong range shows only for some shapes of paths and documents", "anchors": ["include/daw/json/daw_json_iterator.h: json_array_iterator_t::get_range, json_array_iterator_once::get_range, json_array_range, json_array_range_once", "include/daw/json/impl/daw_json_parse_name.h: find_range, find_range2"]}
{"id": "C112", "title": "Names of days and months", "statement": "short_day_of_week of a time point is the name of the day of the week of the calendar date of that time point; month_short_name and parse_short_month are inverse, and parse_short_month rejects every text that does not start with the name of a month.", "quantifier": "every time point of the calendar, every text", "why_tests_cant": "tests check two time points; the formula has a branch for negative days, and the rounding of the duration matters only before 1970", "anchors": ["include/daw/json/impl/daw_json_parse_iso8601_utils.h: short_day_of_week, month_short_name, parse_short_month, month2num"]}
{"id": "C113", "title": "A json_value is converted to what it means as the type", "statement": "A json_value found by a path, met in an iteration, or kept in a class and looked at later gives, by as<T>() or by from_json<T>(value), the T that the same value in the document means, as if it had been read directly; from_json<T>(value, path) is the lookup followed by the conversion, with the options of the json_value. A value that is not there is not converted: the conversion throws, unless T is nullable.", "quantifier": "every document, path, type and mapping", "why_tests_cant": "tests convert a few values of a few documents; whether untyped and typed reading agree depends on where a value ends, on the context that follows it and on the options both use", "anchors": ["include/daw/json/impl/daw_json_value.h: basic_json_value::as, as", "include/daw/json/daw_from_json.h: from_json( basic_json_value )", "include/daw/json/daw_json_link_types.h: json_raw"]}
{"id": "C114", "title": "A json_value is written as the value it stands for", "statement": "to_json of a json_value, alone or as a member, writes JSON text that is the value it stands for in the document it was taken from.", "quantifier": "every document, every value in it, both string output options", "why_tests_cant": "tests write back a few values; a string needs its quotes, null has its own branch", "anchors": ["include/daw/json/impl/to_daw_json_string.h: copy_to_iterator( basic_json_value )"]}
{"id": "C115", "title": "A variant of classes is told apart by one of their members", "statement": "A class mapped with json_submember_tagged_variant< TagMember, Switcher, Classes... > reads an object as the class that the switcher gives for the member of it named by TagMember, wherever in the object that member stands; an object whose tag stands for no class is rejected with UnexpectedJSONVariantType; writing writes the class that is held and reading it back gives the same. It may have any number of classes.", "quantifier": "every object, tag, switcher and list of classes, every text for the agreement with json_intrusive_variant", "why_tests_cant": "tests have variants of two or three classes; the choice is a chain of switch statements of eight cases each that is different for every number of classes, and the object is parsed twice from the same position", "anchors": ["include/daw/json/daw_json_link_types.h: json_submember_tagged_variant", "include/daw/json/impl/daw_json_parse_value.h: parse_nth_class, parse_value_class"]}
{"id": "C116", "title": "C strings are written as the strings they are", "statement": "to_json of a member that is a char const * to a zero terminated string writes what it writes for a std::string with the same characters, reads nothing behind the zero byte and returns; what is written is read back as these characters. A custom type or raw value whose text is a char const * is written as the same std::string is. The null pointer is written as the empty string.", "quantifier": "every string, every content of memory behind it, all output options", "why_tests_cant": "tests write a few ASCII literals; the loop for pointers is a copy of the one for containers without its check that the iterator has moved, and it looks for the end only where a code point starts", "anchors": ["include/daw/json/impl/to_daw_json_string.h: utils::copy_to_iterator( WriteableType, char const * )"]}
{"id": "C117", "title": "An alias is read and written as its type is", "statement": "A class whose json_data_contract is json_type_alias<T> is read wherever T is read, and from the same text with the same outcome: as a document, as an element of an array and as a member of a class, with the members of the object in any order; it is written as T is, and read back.", "quantifier": "every text for documents and arrays, valid or not; every well formed object for members; every aliased type and value", "why_tests_cant": "tests wrap an integer or a string and read documents with the members in the order of the mapping; members met before their turn are parsed from a range, and the alias asks whether that range is empty before the aliased type does", "anchors": ["include/daw/json/daw_json_link_types.h: json_type_alias", "include/daw/json/impl/daw_json_parse_value.h: parse_value_class"]}
{"id": "C118", "title": "A name with escapes is the name it stands for, or is rejected", "statement": "With AllowEscapedNames::yes the name of a member may hold escapes, is taken whole, and is the mapped name if it stands for it; by default, when only the next quote is looked for, a name that holds an escaped quote or ends in an escaped backslash is rejected, and no part of it is taken for the name.", "quantifier": "every name, everything that follows it, every mapping; string_view and std::string", "why_tests_cant": "tests use names without escapes; what is wrong with taking part of a name shows only with particular text behind it", "anchors": ["include/daw/json/impl/daw_json_parse_name.h: name_parser::parse_nq, parse_name", "include/daw/json/daw_json_parse_options.h: AllowEscapedNames"]}
{"id": "C119", "title": "A value whose bounds are known is read as any other", "statement": "from_json<T, true>( text ), for a text that is exactly one value as json_value::get_string_view gives it (strings without their quotes), gives the value that the text means; for arrays, maps and classes it gives on every text what from_json<T>( text ) gives; and it looks at nothing behind the text.", "quantifier": "every value and its every text, whatever follows in memory; for containers every text, valid or not", "why_tests_cant": "tests convert the string view of a value inside of a larger document, in which the closing quote always follows; what is read behind a text that ends its buffer does not show in a test", "anchors": ["include/daw/json/daw_from_json.h: from_json", "include/daw/json/impl/daw_json_parse_policy.h: BasicParsePolicy", "include/daw/json/impl/daw_json_parse_std_string.h: parse_string_known_stdstring", "include/daw/json/impl/daw_json_parse_real.h: parse_real_known"]}
{"id": "C120", "title": "A custom type with the default converters is read back as it was written", "statement": "If the conversions between a type and text are inverse to each other, values of the type stored as json_custom with the default converters are written and read back unchanged, whichever conversions the type has; std::optional of such a type too, with a value or empty.", "quantifier": "every type, every set of conversions that it may have, every value and container of values, every output format", "why_tests_cant": "tests use types with one pair of conversions; which conversion is chosen depends on the whole set that the type has, and two values that are written alike show only when they are compared", "anchors": ["include/daw/json/impl/to_daw_json_string.h: default_to_json_converter_t", "include/daw/json/impl/to_daw_json_string.h: default_from_json_converter_t", "include/daw/json/impl/to_daw_json_string.h: to_json_string_custom", "include/daw/json/impl/daw_json_parse_value.h: parse_value_custom"]}
{"id": "C121", "title": "An exception tells its reason", "statement": "what() and reason() of a json_exception tell why it was raised: different reasons have different messages, and for a missing member or token the message contains its name or the token, whatever function raised the exception.", "quantifier": "every reason, every name and token, every place", "why_tests_cant": "tests compare reason_type(); a message that belongs to another reason, or a member of a union that was not the one written, shows only for the one reason concerned", "anchors": ["include/daw/json/daw_json_exception.h: json_exception::reason", "include/daw/json/daw_json_exception.h: reason_message", "include/daw/json/impl/daw_json_assert.h: daw_json_error", "include/daw/json/impl/daw_json_value.h: basic_json_value_iterator::good"]}
{"id": "C122", "title": "The exception names the member that is missing", "statement": "If a document lacks required members of a class, the exception names the first of them in the order of the mapping and its place is the beginning of the class, whatever the order and number of the members the document does have.", "quantifier": "every class mapping, every object, every order of its members, every text in front of it", "why_tests_cant": "which member is reported depends on the order of members in the document and on which were passed over before; tests look at the kind of the exception", "anchors": ["include/daw/json/impl/daw_json_parse_class.h: parse_class_member", "include/daw/json/impl/daw_json_location_info.h: find_class_member", "include/daw/json/impl/daw_json_assert.h: daw_json_error", "include/daw/json/daw_json_exception.h: missing_member"]}
{"id": "C123", "title": "Options for speed do not change the result", "statement": "ExpectLongNames and ExecModeTypes are options for speed: a checked parse of a class gives the same value or exception whatever they are.", "quantifier": "every class mapping and type built from them, every text, right or wrong, every combination of the options, with and without checks", "why_tests_cant": "the options matter only for texts that end early, have zeros in them or names without an end, and tests run the modes on right documents", "anchors": ["include/daw/json/impl/daw_json_string_util.h: mempbrk", "include/daw/json/impl/daw_json_string_util.h: memchr_checked", "include/daw/json/impl/daw_json_parse_policy_no_comments.h: move_to_next_of", "include/daw/json/impl/daw_json_parse_class.h: class_cleanup_now", "include/daw/json/impl/daw_json_parse_name.h: parse_nq"]}
{"id": "C124", "title": "What is a comment does not depend on ExpectLongNames", "statement": "With a policy that allows comments, the same text is passed over as a comment whether names are expected to be long or not.", "quantifier": "every text, every comment policy", "why_tests_cant": "comments and long names are tested apart; the result depends on where the next quote stands behind the comment", "anchors": ["include/daw/json/impl/daw_json_string_util.h: memchr_checked", "include/daw/json/impl/daw_json_parse_policy.h: move_to_next_of_checked", "include/daw/json/impl/daw_json_parse_policy_hash_comments.h: skip_comments_checked", "include/daw/json/impl/daw_json_parse_policy_cpp_comments.h: skip_comments_checked"]}
{"id": "C125", "title": "A timestamp of any content is read or rejected", "statement": "Reading a timestamp returns a value or throws whatever characters the string holds: it removes no more characters from the string than there are, looks at none outside of it and no number overflows.", "quantifier": "every string", "why_tests_cant": "The functions remove two characters at a time without looking at the length, so it takes strings that are short in one field only.", "anchors": ["include/daw/json/impl/daw_json_parse_iso8601_utils.h: parse_iso8601_timestamp, parse_iso_8601_date, parse_iso_8601_time, parse_unsigned, parse_number"]}
