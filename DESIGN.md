# Formal model of daw_json_link: design

Source: `/repo` (daw_json_link, header-only C++), read as text. Nothing in `/repo` is built or run.
Model and proofs: `/verif/lean` (Lean 4.33.0). Properties: `/verif/properties.jsonl`. Status: `/verif/MANIFEST.json`.
Tests of the theorems against wrong programs: `/verif/seeded/LOG.jsonl`, one line per attempt. Lines with an `outcome` are attempts that no theorem of the named claim caught when they were made; until the last hours of the work such attempts were left out of the log, and they were added afterwards from the results that were still stored. A later line with the same edit and `(again)` tells what happens now.

## Trusted base

* Lean's kernel (every theorem is re-checked by it). No `sorry`, `admit`, own axioms, `native_decide`, `bv_decide`,
  `implemented_by`, `unsafe`.
* Axioms: at most `propext`, `Classical.choice`, `Quot.sound` (Lean's standard three); per theorem at the end of this file.
* The reading of the C++ source: each definition cites the file and lines it models; simplifications are stated there.
* The specifications in `Verif/Spec` and the statements in `Verif/Props`: they have to be read to know what is proved.
* The contracts of code that is not in the repository or not modelled, listed next.

### External contracts

| what | where it is used | assumed |
|------|------------------|---------|
| `utf8::unchecked::iterator` (`daw/utf8/unchecked.h`) | string output | written out as `utf8Next` in `Model/Str.lean` |
| `daw::to_uint64_buffer` | digit blocks, string scanning | the eight bytes as a little endian word |
| `daw::string_view`: `pop_front_until`, `trim_suffix`, `escaped_any_of` | paths, JSON lines partition | as described in `Model/Value.lean` and `Model/Iter.lean`; which characters `trim_suffix` removes is a parameter |
| `daw::cxmath::pow10`, `count_digits` | writing reals | power of ten, number of decimal digits |
| `count_trailing_zeros` of header_libraries | dragonbox | the number of zero bits below the lowest one that is set |
| `power10`, `strtod`, `from_chars` | reading reals | not evaluated: the model says which of them runs, on which integers or text |
| SSE intrinsics (`_mm_cmpeq_epi8`, `_mm_movemask_epi8`, `_mm_clmulepi64_si128`) | SIMD string scanning | their documented bitwise meaning |
| `std::memchr`, `std::search` and other algorithms | throughout | their standard meaning |
| `std::vector`, `std::string`, `std::map`, `std::optional` | parse results | lists, byte strings, lists of pairs, options |

## Modelling conventions

* A character is a `UInt8`. A parse state `[first,last)` is the list of bytes from `first` to `last`. Moving `first` is
  taking a suffix; returning a sub-range is returning a prefix.
* Result of a step: `Res α = ok a | err | ub`. `err` is a C++ exception thrown through `daw_json_ensure` /
  `daw_json_assert_weak`. `ub` is an out-of-range read (dereference of `last` or beyond) or other undefined behaviour.
  Undefined behaviour is thus an outcome that theorems must exclude, not something assumed away.
* A dereference of `*last` is `ub`: the model describes parsing from a `string_view` (policy
  `ZeroTerminatedString::no`) unless a definition says that it covers the zero terminated policy.
* The text a member was skipped over is inside of the buffer: behind the inside of a string there is its closing quote, behind
  other text what the document has there. `Cfg.endQuote` says that `*last` is such a quote; then reading it is not `ub`.
* C++ templates (mappings) are modelled by a deep embedding: a Lean datatype of type descriptions and an interpreter.
* Fixed-width arithmetic is `UInt32`/`UInt64`/`BitVec` or explicit `% 2^n`.
* Loops are structural or well-founded recursion: no fuel, no bounds on size or depth. (The depth argument of the typed
  parser is the C++ call stack: running out of it is `ub`, and the theorems hold for any sufficient depth.)

## Layout

`Verif/Model/*` definitions that model code, `Verif/Spec/*` independent specifications (grammar, numerals, UTF-8,
calendar...), `Verif/Proof/*` helper lemmas, `Verif/Props/*` the property theorems with their non-vacuity examples.

## What is modelled, and what is not

Files are in `/repo/include/daw/json` and its `impl` directory.

| model | code | left out |
|-------|------|----------|
| `Skip` | `daw_json_skip.h`, `daw_json_parse_policy_no_comments.h`, `daw_json_parse_string_quote.h`, the cursor functions of `daw_json_parse_policy.h`; checked and unchecked | zero terminated branches (see `ZeroTerm`), `MinifiedDocument::yes` (see `Comments`), `class_last` is identified with `last` |
| `Comments` | `daw_json_parse_policy_cpp_comments.h`, `daw_json_parse_policy_hash_comments.h`, `MinifiedDocument::yes` of `daw_json_parse_policy_no_comments.h` (`Cmt.mini`), and the skip functions through them | typed parsing (see `CommentTyped`) |
| `Exec` | run-time and SIMD variants in `daw_not_const_ex_functions.h`, and the string parsers on top of them | `ExpectLongStrings` variants, AVX |
| `Int` | integer output, `daw_json_parse_unsigned_int.h`, `parse_value_signed`, `parse_value_unsigned` | `LiteralAsString` other than Never (see `Text`), user supplied integer types, the SSE4.2 parser |
| `RealOut`, `RealIn` | `to_chars`, dragonbox `to_chars_impl`, `daw_json_parse_real.h` incl. zero terminated policy | choice of the shortest decimal, NaN and infinities when writing |
| `Str` | `copy_to_iterator`, `utf32_to_utf8`, `daw_json_parse_std_string.h`, `parse_value_string_raw`, `parse_value_string_escaped` | containers other than `std::string` / `string_view`, the `EightBitModes` of the parser options beyond the two modes |
| `Hash` | `daw_murmur3.h` name hash | |
| `Typed` | `daw_json_parse_value.h`, `daw_json_parse_class.h`, `daw_json_location_info.h`, member names of `daw_json_parse_name.h`, array and map iterators, `from_json`, `from_json_array` without a member path | `LiteralAsString` for reals (see `RealLit`), `IEEE754Precise::yes` for members, tagged variants (`json_tagged_variant`), sized arrays and key/value arrays (see `Dep`), `json_delayed`, converters other than the identity for `json_custom` and `json_raw`, classes with user constructors that throw, allocators |
| `Text` | `json_string_raw`, `json_custom`, `json_raw` (parsing and writing), as types of `Typed`; `json_number` of `double` and `float` as types of `Typed`, on top of `RealIn` and `RealOut`; `json_bool` and `json_number` of integer types with `LiteralAsStringOpt::Always` or `Maybe` as types of `Typed` | a real is the decimal fraction `± sig * 10 ^ exp` that the code computes from, not the rounded floating point number (so no rounding, overflow or negative zero); reals with `LiteralAsStringOpt`; a range inside of the body of a string is taken to end in front of a quote; `AllowEscapeCharacter::NotBeforeDblQuote`; what the user's converter makes of the text |
| `Dep` | `json_tagged_variant`, `json_sized_array`, `json_key_value_array` as members: `find_index`, `parse_value_variant_tagged`, `parse_visit`, `parse_value_sz_array`, `parse_value_keyvalue_array`, `json_parse_kv_array_iterator`, the two passes of `serialize_json_class` | the class with such members is the document; the tag is a named member; the size is an integer; what unchecked mode does with a class position that was overwritten; zero terminated input |
| `Unchecked` | `from_json` of a `string_view` with `CheckedParseMode::no` and the memory behind it, on top of `Typed` | zero terminated input; the few comparisons with `last` that remain see the end of memory instead |
| `ZeroTerm` | the same functions for zero terminated input (`from_json` of a `std::string`), checked mode, compile-time execution mode | unchecked mode; the final NUL of a string that ends in one is taken for the terminator |
| `Write` | `to_json`, `to_daw_json_string.h`, `daw_json_serialize_impl.h`, `daw_json_serialize_policy.h` for the same types | as above; output goes to a byte list, see `Output` |
| `Output` | the calls `to_json` and `to_json_array` make on an output, in order; the outputs of `concepts/daw_writable_output_basics.h`, `_cstdio.h`, `_ostream.h` | user defined outputs; `std::size_t` sums do not wrap; a stream is a device that accepts a given number of characters; `daw::string_view` of an array of `char` without terminator is the whole array (`output_hex`, `utf32_to_utf8`) |
| `Schema` | `daw_json_schema.h`, all kinds of types, for static types written out | recursive classes and indexed `json_tuple_member` (do not compile); the output iterator |
| `Value` | `daw_json_value.h`, `daw_json_value_state.h`, path functions of `daw_json_parse_name.h`, `find_range` | conversions of a `json_value` to typed values other than by `from_json` |
| `Event` | `daw_json_event_parser.h` | handlers that throw |
| `FindPath` | `daw_json_find_path.h` | null pointers |
| `Iter` | `daw_json_iterator.h`, `daw_json_lines_iterator.h`, `skip_known_value` | constructors taking a path (see `IterPath`) |
| `IterPath` | the constructors of the array iterators that take a path, `daw_json_iterator.h` | nothing |
| `Date` | `daw_json_parse_iso8601_utils.h`, date output and input with millisecond `system_clock` time points | other clocks and resolutions |
| `DayName` | `month_short_name`, `short_day_of_week`, `parse_short_month`, `daw_json_parse_iso8601_utils.h` L358-462 | other clocks and resolutions |
| `ValueAs` | `basic_json_value::as`, `from_json` of a `json_value`, `daw_json_value.h` L503-519, L715-719, `daw_from_json.h` L379-467; `json_value` as the type of a `json_raw` member; `copy_to_iterator` of a `json_value`, `to_daw_json_string.h` L440-453 | allocators; comments and unchecked parsing |
| `SubVariant` | `json_submember_tagged_variant`, `daw_json_link_types.h` L338-420; `parse_nth_class`, `daw_json_parse_value.h` L1225-1551, including which instantiations can be compiled | constructed classes other than a variant; `DAW_ASSUME` as undefined behaviour |
| `CStr` | `copy_to_iterator` of a `char const *`, `to_daw_json_string.h` L361-438 | `utf8::unchecked::iterator` by its contract, as in `Str` |
| `Alias` | `json_type_alias`, `daw_json_link_types.h` L146-206; `parse_value_class` for it, `daw_json_parse_value.h` L583-611 | the class constructed is taken to be the value it is constructed from; an alias of an alias |
| `Known` | `from_json<T, true>`, `daw_from_json.h` L36-84; the constructor of the parse policy, `daw_json_parse_policy.h` L166-170 | the check of the end of the data; zero terminated texts |
| `Conv` | the default converters of custom types, `to_daw_json_string.h` L56-63, L90-203 | the conversions of a type are given functions; nullable types other than `std::optional` |
| `Report` | `json_exception`, `reason_message`, `daw_json_error`, `daw_json_exception.h` L26-42, L93-284, `daw_json_assert.h` L74-153; the member named by `parse_class_member` | places are offsets; the place of exceptions other than those for a missing member is a parameter; error handlers that do not throw |
| `ReportIn` | the name in a `missing_member` that comes out of `parse_value`, for classes inside of others: cases and loops of `parseU` and `parseK` | no place |
| `Modes` | `mempbrk`, `memchr_checked`, `memchr_unchecked` with `ExpectLongNames` and `ExecModeTypes`, `daw_json_string_util.h` L35-209; `move_to_next_of`, `daw_json_parse_policy_no_comments.h` L92-135; names, the class parse and `from_json` on top of them; comment skipping with `ExpectLongNames` | strings and skipped values are read as in the mode `compile_time` (see `Exec`); `ZeroTerminatedString::no`; a read behind a range with known bounds is undefined |
| `Options` | `daw_json_option_bits.h`, option parts of `daw_json_parse_options_impl.h`, `daw_json_serialize_policy_details.h`, `daw_json_type_options.h` | |
| `Format` | `to_formatted_string` of `daw_json_exception.h` | the reason is a parameter; locations outside of the document |
| `KeyMap` | `json_key_value` with a key type of its own: `parse_value_keyvalue`, `json_parse_kv_class_iterator`, `to_json_string_kv`, `json_key_lit_fix_t` | the map is the document itself, its container keeps the pairs as they come; keys that are reals |
| `Float` | `power10`, `parse_with_strtod` and the final computation of `parse_real` on `double` and `float` | IEEE 754 multiplication, division and conversion of the compiler are taken to round to nearest, ties to even, without excess precision; `std::from_chars` is a parameter; `DAW_JSON_USE_STRTOD`, `long double` |
| `RealLit` | `parse_value_real` with `LiteralAsStringOpt::Always` or `Maybe` and `JsonNumberErrors`, `to_json_string_real` | one value with what follows it, not as a member of a class; in a located range what is read in front of a known end is taken from the document behind it |
| `Container` | `default_constructor` for `std::array` and `std::map`, with `json_parse_array_iterator` as the constructor uses it | the array is the document, an element of an array or a member of one class; `std::map` and `std::unordered_map` as the list of their pairs in the order of the keys |
| `Dragonbox`, `DragonboxCache` | `to_decimal` for `double`: `compute_nearest`, `shorter_interval_case`, `remove_trailing_zeros`, the divisibility tests, all 619 entries of the table | other policies; the products of two words by their mathematical value |
| `DragonboxFloat` | the same for `float`, all 78 entries of the table | as `Dragonbox` |
| `CommentTyped` | `parse_value` for all types of `Typed`, and `from_json`, with the two comment policies and with `MinifiedDocument::yes` | as `Typed`; unchecked mode |
| `Apply` | `json_apply`, `from_json_array` with a path (`daw_json_apply.h`, `daw_from_json.h`) | what the callable throws |

Not modelled at all: the rest of `daw_json_exception.h` (the texts of the reasons; the location an exception carries), the
reflection and describe front ends (their result, a list of members, is the input of the model), allocators,
the container and nullable traits of `concepts/`.

## Properties: approach and status

Status of each is in MANIFEST.json. "negation" means the English claim is false of the code: a theorem with suffix `_false` (or a
name that says what happens instead) exhibits a witness, and a `_partial` theorem proves the claim on the largest region found.

| id | modelled | how proved |
|----|----------|------------|
| C01 | skip_value and everything it calls | grammar as an inductive relation on byte lists; induction over derivations, invariant on the two bracket counters |
| C02 | same functions | induction on the remaining input: the result is never `ub` |
| C03 | skip_value, trim_left, move_next_member_or_end | result is a suffix, by induction |
| C04 | the unchecked variants | simulation: equal results wherever the checked run succeeds with input left |
| C05 | trim_left | induction on the whitespace run |
| C06 | skip_bracketed_item | negation; counts of brackets modulo 2^32 |
| C07, C56, C57 | the string scanners of the three execution modes | compile-time and run-time: induction; SIMD: bit-level lemma for find_escaped_branchless (carry-save over blocks), induction over blocks; negations |
| C08-C12, C48, C49 | string output and decoding | independent UTF-8/UTF-16 spec, induction over scalar lists; exhaustive byte facts by kernel evaluation; negations for C12, C48 |
| C13-C16, C47, C51 | integer output and both unsigned parsers, SWAR decoders | strong induction on the value, positional value spec; bit-vector identities for the word decoders; negations |
| C17, C58-C61 | writing and reading of reals | decimal value over rationals; invariant of the digit buffer; case analysis of the split into integer, fraction, exponent; negations |
| C18-C20, C44, C45 | deep embedding of mappings; serializer and parser interpreters | mutual induction over types and values; output lies in the grammar relation used by C50 |
| C21-C24, C43, C46, C50 | class lookup, location table, typed parsing | invariant of the location table over the member list; induction over the relation "text is a value of type T" |
| C62-C64 | typed parsing of zero terminated input | induction over the relation "text is a value of type T" with the bytes behind `last` as an extra parameter; for types stored without names, induction on the type and the remaining text (safety, and agreement with the `string_view` parser); negations |
| C65, C66 | schema output | the text is laid out as a document by structural recursion on the type; JSON Schema semantics (two families of drafts) as a separate specification; `text_unique` (a text is the text of one document up to whitespace) makes statements about texts independent of the layout chosen; negations |
| C67-C69 | schema output, serializer, typed parser | what a schema allows is computed by induction on the type and compared, by induction, with the relation "document is a value of type T"; negations |
| C70-C74 | calls on outputs, the six kinds of outputs | the calls spell the text (mutual induction over values, also for writers that throw); per output an invariant over the sequence of calls; negations |
| C75-C77 | `json_variant` and `json_intrusive_variant` in the typed model (both inputs), serializer | part of the inductions of C50, C62 and C18; rejection by direct evaluation of the choice; negations |
| C78, C79 | class, tuple and array class parsing of the typed model (both inputs), exact or not | invariant of the member search kept while an unmapped name is ahead; bracket counting from the middle of an array; negations |
| C80 | the typed model with `checked = false` on the document and the memory behind it (`Model/Unchecked.lean`) | the induction behind C50, carried out for both modes: without checks every value must be followed by a byte that is not white space; negations |
| C81 | `json_string_raw` and `json_custom` members of classes in both parsers (`Model/Text.lean`) | corollary of C50 and C62, which cover these types; negations |
| C82 | `json_raw` members of classes in both parsers | corollary of C50 and C62; negations for strings and null |
| C83 | `json_date` members of classes in both parsers | C53's lemma inside the induction of C50 and C62 |
| C84 | reading and writing of the same | the writer copies the text; negations |
| C85 | the whole typed model on any bytes (`string_view` input) | safety of every parser by induction on the fuel and the length of the text; the location table holds ranges of text in front of the cursor, each followed by a quote if it is the inside of a string; negations |
| C86 | the whole typed model (`string_view` input) on any JSON document; `Spec/Shaped.lean` says when a document fits | induction on the fuel with the document: what a parser consumes is the document and the document fits; members are followed through the location table; negations |
| C87 | reals as leaves of the typed model, both kinds of input, and of the serializer | the induction behind C50, C62 and C18 with the exact value of the number as leaf case (C58, C17); a text denotes one number only; negations |
| C88 | classes with tagged variants, sized arrays and arrays of pairs among their members | the search for members with the positions of what is found (`Proof/DepClass`), the second parse of the class for the tag or size (`Proof/DepSem`); that the tag decides by inversion of an accepting run; negations |
| C89 | the size member, looked for by path in the range up to the end of the array | the same induction; negations |
| C90 | the key/value array iterator over objects of two members | the same induction; negations |
| C91 | the two passes of `serialize_json_class` and the writers of the three kinds of members | what is written is the text of an object whose members are those of a plain class (`Proof/DepWrite`); the order of the members is that of the mapping behind the tags and sizes (`Proof/DepTrip`); then C88; negations |
| C92 | `skip_quote_when_literal_as_string` and its callers in both parsers, the writers of literals | quoted literals are leaves of the inductions of C50, C62, C18 and C86; a text denotes one literal only; negations, one of them for every type and value |
| C93 | `from_json` in the typed model, both inputs | induction on the type: the two positions are the same once the first function has trimmed; the other types fail at the first character |
| C94 | `from_json_array` (`fromJsonArray`, `fromJsonArrayZ`) | trimming twice is trimming once; negations |
| C95 | `to_formatted_string` (`Model/Format.lean`) | the loop over the characters counts newlines and finds the last (induction); the characters around the location by arithmetic; negations |
| C96 | the writer of `Dep`, with the `JsonNullable` of a member | the two passes over the members and the object they write, as for C91; a text is the text of one document; negations |
| C97 | `Model/KeyMap.lean` | the loop over the pairs by induction on the object, as for maps with string keys (C50), with what a key reads in front of the colon; the written text is the text of an object (induction on the pairs); what the loop accepts by induction; negations |
| C98, C99, C100 | `Model/Float.lean` on top of `RealIn`, `RealOut` | the model's rounding is the nearest number with ties to even, for all arguments (separate specification over the rationals), and that number is unique; powers of ten up to 10^22 are exact; relative errors multiply; case split of `power10`; negations |
| C101 | `Model/RealLit.lean` on top of `Float` | a number does not begin like a special value, then C98 and C99 with the closing quote as continuation; evaluation of the special texts with the continuation as a variable; negations |
| C102 | `Model/Container.lean`; `Spec.fill` is take and pad | induction on N with the continuation as in C50; what the iterator leaves behind is the text of the elements that do not fit; negations |
| C103 | `mapInsert`/`mapOf`; `Spec.IsMap` is ascending order of the bytes, content compared by `List.lookup` | C50 and C18 for the pairs, then an invariant of insertion |
| C104 | `Spec.doubleOf` gives the meaning of the 64 bits, `Spec.Rounds` is rounding to nearest even among all numbers of the format | the table is precise enough: for each of the 2046 exponents the kernel finds neighbours in the Farey sequence of order 2^54 that enclose both the exact factor and the one of the table, so that floor(n x factor) agrees for all n; the interval, the parity and divisibility tests by arithmetic for all significands; powers of two by evaluation of all 2046; then the interval is shown to be that of rounding |
| C105 | `Spec.floatOf` gives the meaning of the 32 bits | as C104, with the Farey sequences of order 2^25 and 254 exponents |
| C106 | `Spec.IsNum`, `Spec.absOf32` | negation by evaluation; the relative error of `power10` on floats from those of its three roundings (the 39 entries of the table by evaluation) |
| C107 | `Spec.Reads`, with `JVal.WFc` for where comments may stand | induction over `Reads`, for any policy with six properties (`Pol`) that both policies have; negations by evaluation |
| C108 | the comment character, any byte string | the two parsers step by step give the same value or none (`Sm`), with the text left free of the character; induction over the depth of calls and the length of the text |
| C109 | the number of parameters, any document | `jsonApply`, from C50 and C28 |
| C110 | documents without gaps; any byte string without whitespace | the proofs of C107 and C108, which are about any policy, with gaps that are empty; `layVal` of the writer has no gaps |
| C111 | path components and documents of C28, elements of C35 | the range found is the text of the array and what follows (C28), so the iterator is that of an array document with text behind it (C35) |
| C112 | names of days and months | the days of the week counted from the start of the calendar; the remainder of seven and the truncation by cases on the sign; three bytes packed into a number are told apart by it |
| C113 | conversion of untyped values | the lookup of C28 and the iteration of C26 give the text of the value and what follows it, where the parser reads what the specification says (the induction behind C50); a member kept for later is the text of C82 |
| C114 | writing untyped values | the text that `skip_value` returns is exact, by kind of value |
| C115 | variants told apart by a member of the classes | the choice by induction over the chain of `switch` statements; the same result as an intrusive variant (C76, C77) step by step, as the text behind a class is trimmed already |
| C116 | C strings | the two loops in lockstep over the code points; memory behind the string is arbitrary |
| C117 | aliases | equality of the two parsers on documents and arrays, valid or not; members through the generic theorem about `parseObj` |
| C118 | names with escapes | in the body of a string each quote follows a backslash, so the first quote found ends the name or gives the trap away |
| C119 | known bounds | equality with `from_json<T>` on every text for containers; the lemmas about located members for integers and strings; a general theorem for the read behind the text |
| C120 | default converters | over all sets of conversions; the round trip of containers of text |
| C121 | messages of exceptions | over all reasons, names and tokens |
| C122 | name of the missing member | a run of `parse_class_member` along the mapping with the invariant of C21, up to the first member that is absent; for inner classes a relation `Lacks` (what is read before is right, then a class without the member) and induction on it, for both kinds of bounds; the name function is sound and complete for the parser by induction on the stack depth: of all functions called by `parse_value` none but these throws `missing_member` |
| C123 | options for speed | the class parse and the dispatch carry along every relation that contains equality and agrees with sequencing; instantiated with "equal or undefined where the default is an exception"; with both options the invariant that no zero is left is carried along |
| C124 | comments with long names | induction over the text; the exact text passed over with the option |
| C125 | timestamps of any characters | lengths followed through every field; negation for every date of fewer than two characters, and by witness for short times and long fractions |
| C25 | name_hash both variants | induction in steps of 8, 4, 1 |
| C26-C31 | json_value, its iterator, lookup, path, stateful cache | induction over members; cache invariant over histories |
| C32, C33 | event parser with explicit stack | simulation against the recursive pre-order; handlers as functions of the history |
| C34-C36, C52 | partition, lines iterator, array iterators | induction over lines / elements |
| C37-C39, C53, C54 | calendar conversions, timestamp text | Euclidean division over integers against a calendar defined by adding up lengths; negations |
| C40 | option words | bit-field lemmas |
| C41, C55 | find_line_number_of, find_column_number_of, path handler | induction |
| C42 | comment policies | induction over comment runs; negations |

## Disagreements between the claims and the code

Each is a theorem (named in MANIFEST.json) with a concrete witness evaluated by the kernel.

* C01: a bare `null` at the very end of the text is an error when skipped; nesting depth wraps at 2^32.
* C04: unchecked mode reads past the end after a literal followed by whitespace only.
* C06: `[}{]` is skipped as an array: two counters, no stack.
* C07: SIMD scanning misses the carry into the tail: a last block ending inside an escape lets the tail take the escaped quote for the end.
* C12: `\u` escapes with non-hexadecimal digits and unpaired surrogates are accepted.
* C16, C47, C51: 2^64 parses as 0; range-checked `int8_t` reads 200 as -56; a lone `-` is 0; leading zeros pass for unsigned types and behind a minus sign (each proved for every number, not only for these).
* C20, C44: ordered classes with a gap before a member that is not the last, and names that need escaping, give text that is not JSON.
* C21, C46: a bool found out of order looks at the first letter only; a missing value is taken for null.
* C22: a member whose name collides by hash with a mapped name is taken for it (unless full names are compared).
* C26: the text of a null behind a json_value is empty. C27: index = size throws for objects. C30: index -size is rejected.
* C28: an index into a string and a verify-end request behind a path are not rejected; `find_range` differs at the end of containers.
* C29: lookups by name in an array answer by cached position.
* C32: handlers never get `handle_on_value`, `handle_on_array_start`, `handle_on_class_start` (the traits test the wrong type).
* C33: `Complete` inside a container ends with an exception; `SkipClassArray` always does.
* C34: whitespace between chunks is dropped. C35: elements that are not dereferenced, and the last step of the once-iterator. C36: the once-iterator's `==` is inverted.
* C37: instants before 1970 convert back wrongly. C38: fractions lose leading zeros. C39: offset minutes are read from the hour digits. C54: 31 February and fields with a non-digit second character are accepted.
* C40: options or-ed onto a default that is not zero; `set_bits_in`.
* C41: position 0 throws. C55: the path is always empty.
* C42: block comments with an odd number of stars before `*/`; block comments in skipped containers; unchecked mode after whitespace; reads past the end.
* C43, C46: characters 0x01-0x1F count as whitespace.
* C45: an exact ordered class with a trailing comma is rejected.
* C48: `DisallowHigh` looks only at the byte after a backslash. C49: the empty string of such a member in unchecked mode.
* C56, C57: run-time mode returns raw text when the first escape is not the first character; SIMD mode loses escapes in the tail and can write out of bounds; ExcludeSpecialEscapes is ignored in both.
* C58-C61: digit overflow for zero terminated or unchecked input; miscounted digits for located members; exponents wrap; read past the end for an integer at the end of a `string_view`; precise mode for `float`; leading zeros of a fraction use up the precision; a real written in the automatic format need not come back in default mode.
* C63: from a `std::string`, a string ending in a backslash, a literal cut off, raw JSON cut off and a class cut off are read past the terminator.
* C64: `{"b":txyz,"a":1}` is accepted and an `int` member with a fraction gives another number when the text is a `std::string`; text after a NUL passes the end check; the document `"5"` is accepted as an unsigned number in quotes only when it is a `std::string`.
* C65: `id`, `title` and names are not escaped; an empty class leaves a comma after the title. C66: the declared draft 2020-12 has no array form of `items`, which is written for tuples and classes stored in arrays (and `dependencies`, written for dependent members, has no meaning there).
* C72: `to_json<JsonClass>( value, flags )` and `to_json_array<JsonElement>( c )` do not pass the mapping on. C73: `put` on a `FILE *` compares the result of `fputc` with a signed `char`; a raw string that is not ASCII throws OutputError. C74: `to_json_array` writes no trailing comma.
* C67: an empty `optional` element is written as null, the schema of its array does not allow null. C68: null for a nullable member is read but not allowed by the schema. C69: the schema of a tuple does not fix the number of elements.
* C75, C77: a variant takes every class for an object, so `[1,2]` is never an alternative that is stored in an array; `null` is never an alternative; `json_raw` as an alternative takes no value at all; whitespace in front of a root variant is an error. C76: with UseExactMappingsByDefault the members beside the tag are errors.
* C78: an unmapped name with the hash of a mapped one passes an exact mapping. C79: when the first element behind a tuple's components is an array, skip_array stops at the end of that element, and the rest of the surrounding array is lost (`[[1,[2]],[3]]` as `vector<tuple<int>>` has one element).
* C80: without checks `parse_value_null` drops the character behind `null`, so `[null]` loses its bracket; an absent nullable member is looked for behind the end of the object, and taken from the next document in memory if it is there; a boolean given as the string "false" and stored before use is true; a number at the end of the document takes the digits behind it.
* C35, C75: a custom type counts as a string even if it is stored as a literal: an element that is not dereferenced is an error, a variant never takes it for a number.
* C81: `json_custom` rejects the empty string and strings that start with a bracket or brace, rejects null as a literal; `JsonCustomTypes::Any` gives strings without their closing quote and rejects arrays and objects. C82: the text of a string behind `json_raw` lacks its quotes when other members come first; null has the empty text or counts as absent. C84: so what was read as raw JSON or as `Any` need not be written back as JSON.
* C85: `[`, `[true` for an exact tuple, `[1` for a class stored in an array, `{"a":` for a variant are followed behind the end of the view; a string member stored while an optional member in front of it is looked for is scanned up to the next quote wherever it is, so that `{"t":1}` is overrun, `1` as a real is followed behind the end, and `{"t":1,"a":2}` gives `t` the text `1,`.
* C86: a member that is passed over while another one is looked for is read from its range without quotes and without looking at its kind: `{"b":"t","a":7}` gives the boolean `b` the value true, `{"b":[7],"a":7}` gives the string `b` the text `[7],`, `{"b":"[7]","a":7}` gives the array `b`, `{"b":7.5,"a":7}` gives the integer `b` the value 3245.  `[[7,[7]],true]` is taken for a vector of `std::tuple<int>`.
* C87: `5` at the end of a `string_view` is followed behind its end when read as a `double`, and `5` is what `to_json` writes for 5.0; 1.2345678901234567e-4 as a member is written as `0.00012345678901234567` and read back with four digits less, or as a number a thousand times too large from a `std::string` if it stands in front of a member that is mapped earlier.
* C88: a tagged variant that is passed over while another member is looked for loses the position of its class if it is a number: `{"v":5, "t":0}` is rejected with `InvalidClassStart`, and for `{"v":1e3, "t":3}` a null pointer is read; if it is a string it is parsed as if its range had quotes and rejected.  With `UseExactMappingsByDefault` every object with a tagged variant is rejected.
* C89: `{"v":[1,2],"n":2}` with the size `n` of `v` is rejected with `TagMemberNotFound`; a size named `a.b` is taken from `{"a":{"b":5}}`; a size is never compared with the number of elements in checked mode, and a negative one is cast to `std::size_t`.
* C90: `[ ]` is rejected as an array of pairs; in a `string_view` that ends behind `[` the character behind the end is read.
* C91: the class `{ optional<bool> o; variant<int, string, ...> v; }` with `v` tagged: the value with an empty `o` and the string `a` in `v` is written as `{"t":1,"v":"a"}`, which `from_json` rejects.  Two variants with tags of the same name and different alternatives: only the first tag is written.
* C92: with `LiteralAsStringOpt::Always`, `{"b":5,"a":1}` is accepted although `b` has no quotes (the documentation calls that an error) and `{"b":"5zz","a":1}` gives `b` the value 1314, if `b` is mapped behind `a`; `"-"` is read as 0.  An unsigned number in quotes is not read at the very end of a `string_view`, and with `Maybe` nothing without quotes is read at the very end of any text, so what `to_json` writes for such a document is always rejected.  With `Maybe` `["5]`, `[5"]` and `["5,6"]` are accepted as arrays of integers.  Without checks a boolean in quotes that stands in front of a member mapped earlier is always true.  Variants do not find alternatives in quotes, and the JSON schema asks for a boolean or number where a string is written.
* C93: `from_json<int>( " 1" )`, `from_json<std::map<std::string, int>>( " {}" )` and `from_json<std::optional<std::vector<int>>>( " null" )` are errors: whitespace in front of a document is skipped for arrays, classes and tuples only.
* C94: `from_json_array` skips whitespace in front of the array without looking for the end: of a `string_view` that is only whitespace it reads behind the end, in checked mode too.  With `MustVerifyEndOfDataIsValid` an array of characters with its terminating NUL is an error, which `from_json` accepts.
* C95: `to_formatted_string` gives a column one too large; in the first line it subtracts a null pointer, for a location among the first 50 characters it reads the byte in front of the document, and for one at the end the byte behind it.
* C96: `JsonNullable::NullVisible` ("always serialize member and output null") is ignored: an empty member is never written.  Of an empty tagged variant with it the tag is written.
* C97: names of integer keys: escapes are not decoded, a minus sign alone is 0, out of range wraps around even with range checks.
* C98-C100: precise mode reads a number too small for a `double` as infinity when `from_chars` calls it out of range; precise mode for `float` uses the limits of `double`; in default mode `0e309` is NaN and `0e1025` infinity, errors exceed the documented 2 ulp, and doubles such as 1.7280283235977703 do not survive a round trip.
* C101: `"Infinity"` and, in a `string_view`, `"NaN"` are rejected when the member is found before its turn although the library writes them; `"NaNsense"` is NaN; `"NaN` at the end of a `std::string` and `"` at the end of a `string_view` make the parser read past the end; with `Maybe` a bare number at the very end is rejected.
* C102: an array with more elements than the `std::array` leaves the parser in front of the first element that does not fit (`~json_parse_array_iterator` is not asked to skip the rest): accepted as a document, rejected with the end verified, as an element of an array or when a further member follows in mapping order; `[{"a":[{"x":1},{"x":2}]},{"a":[{"x":3}]}]` as a vector of classes with a `std::array` of one element silently loses its second element.
* C106: a float that is written with its shortest decimal need not be read back as the same float, not even in precise mode (3246.0461f); about one in seven floats of moderate size is affected.
* C107: a comment after whitespace behind `[` is taken for the first element; a comment right behind `null` or an unsigned integer, in quotes or not, is an error though one behind a signed integer is not; `{"a":"q"x` is read past its end with checks on, as `move_to_next_of` reads before it asks.
* C111: a json_array_iterator or range made from an empty (or whitespace only) document and any path reads the byte behind the end of the document, checked mode included (`get_range` calls `front( )` on the empty range); an index that does not follow a name is ignored, so that `[0]` iterates over the outer array.
* C112: `short_day_of_week` names the following day for every time before 1970 that is not midnight (`duration_cast` truncates towards the epoch).
* C113: `from_json( json_value, path, flags )` drops the options of the `json_value`; `as<std::string_view>( )` of a missing value is an empty string; `as` of a missing value as a variant or a custom type of any kind reads the byte behind the text; a string kept as `json_raw` `json_value` that is not in order has lost its quotes.
* C114: `to_json` of a `json_value` that is a string writes it without its quotes.
* C115: with 8, 16, 24, ... alternatives the chain of `switch` statements instantiates `parse_nth_class` with no alternative left, and `nth_element` has no such element.
* C116: `to_json` of a `char const *` that is not valid UTF-8: a cut off sequence at the end of the string takes the zero byte for its continuation, and what is behind the string is written or read out of bounds; a lone continuation byte makes the loop endless.
* C117: a member that is an alias of a string cannot be the empty string when it comes before its turn (`{"s":"","a":1}` is rejected, `{"a":1,"s":""}` is read); a member that is an alias of a nullable type is neither null before its turn nor missing.
* C118: `{"\u0061":1}` has no member `a` for a class, with or without `AllowEscapedNames`; a member mapped as `a"b` is written as `"a"b":`, which is not JSON; by default the valid name `"\\"` is rejected.
* C119: `from_json<std::string, true>( "abc"sv )` reads behind the text up to the next quote or backslash, because a counter of zero counts as an escape and the loop that looks for the end of the run does not look at the end of the text when bounds are known; `from_json<double, true>( "15"sv )` is 0.5, because the ends of the text are in the fields that hold the positions of the decimal point and the exponent.
* C120: `std::optional<T>` stored as `json_custom`, where `T` has only `operator<<`, is written as `"1"` for every value: `to_daw_json_string.h` L160 streams `nullable_value_has_value( value )` and not the value.  An empty optional is written as `"null"`, a string, and read back as a value.
* C121: `reason( )` of the exception raised at `daw_json_value.h` L261 reads `m_data.token` while `m_data.pointer` is active.
* C122: for a class that is stored in an array the exception names `ordered_class_member` (`daw_json_parse_class.h` L72-75), not the member.
* C122: the place of a missing member is the brace of its class, so that for the outermost class the report reads in front of the document, always.
* C123: `mempbrk` (`daw_json_string_util.h` L197-209) calls `mempbrk_unchecked` in both branches, so that in the modes `runtime` and `simd` a checked parse of `{"a":1,` reads over the end of the document.  With `ExpectLongNames` `memchr_checked` returns a null pointer if the name has no end, which `is_quotes_checked` reads from; with both options `strpbrk` stops at zeros.
* C124: with `ExpectLongNames` `memchr_checked<c>` and `memchr_unchecked<c>` (`daw_json_string_util.h` L40-55, L87-107) look for `'"'` instead of `c`, so that a comment ends at the next quote: tokens in front of it are lost, and behind `//` the quote too.
* C125: a date of fewer than two characters in front of the `T`, a time with fewer than two characters left where a field is expected, and a fraction of more than nine characters are not checked for: `pop_back( 2U )` and `pop_front( 2 )` are called without looking at the length, and the exponent of `pow10` goes below zero. What `daw::string_view` does then is not in the repository; the model takes it for undefined.
## Axioms by theorem

Produced with `#print axioms` on every theorem named in MANIFEST.json.

* no axioms: C120_stream_false, C34_concat_false, C37_before_1970_false, C39_borrow_false, C39_minutes_false, C40_or_lists, C41_start_false, C54_false.
* `Classical.choice`, `Quot.sound`, `propext`: C01_depth_bound_needed, C01_skip_value_exact, C04_unchecked_agrees, C04_unchecked_agrees_on_values, C05_whitespace_immaterial, C07_constexpr, C07_runtime, C07_simd_partial, C07_unterminated_partial, C08_round_trip, C08_round_trip_skipped, C09_seven_bit, C100_bits_partial, C100_default_partial, C100_false_by_default, C100_round_trip_partial, C100_zero, C101_bits_partial, C101_false_at_end, C101_false_for_located_infinity, C101_false_for_located_nan, C101_false_for_nonsense, C101_located_number, C101_number_default_partial, C101_number_partial, C101_reads_past_end, C101_round_trip_partial, C101_special_partial, C102_exact, C102_false_by_order, C102_false_loses_elements, C102_false_too_many, C102_reads_partial, C102_round_trip, C103_reads, C103_round_trip, C104_closest, C104_rounds, C104_shortest, C105_closest, C105_rounds, C105_shortest, C106_error_partial, C106_false, C107_cpp_all_types_partial, C107_cpp_reads_partial, C107_false_behind_bracket, C107_false_behind_quoted, C107_false_right_behind, C107_hash_all_types_partial, C107_hash_reads_partial, C107_reads_past_the_end, C108_comment_matters, C108_same_rejections, C108_same_values, C109_at_path_partial, C109_document_is_argument, C109_elements_are_arguments, C10_closing_quote, C10_valid_is_written, C10_written_strings_are_json, C110_reads, C110_round_trip, C110_same_values, C111_array_partial, C111_false_for_empty, C111_json_values_partial, C111_missing_partial, C111_no_array, C111_once_partial, C112_day_partial, C112_month_name, C112_month_round_trip, C113_array_partial, C113_as_partial, C113_false_for_later, C113_false_for_missing, C113_later_partial, C113_missing_partial, C113_object_partial, C113_path_forgets_options, C114_false_for_strings_and_nothing, C114_strings_lose_their_quotes, C114_write_partial, C115_false, C115_false_for_eight, C115_reads_partial, C115_round_trip_partial, C115_same_as_intrusive_partial, C115_unknown_tag, C116_c_string_partial, C116_round_trip_partial, C117_document_partial, C117_false, C117_members_partial, C117_round_trip_partial, C118_false, C118_rejected, C118_whole_or_rejected, C118_whole_or_rejected_std_string, C119_boolean_partial, C119_containers, C119_false, C119_integer, C119_of_json_value_partial, C119_string_false, C119_string_in_bounds_partial, C119_string_partial, C11_escapes_decode, C11_single, C120_false, C120_optional_partial, C120_own_partial, C120_round_trip_partial, C122_agrees, C122_exactly, C122_false_for_array_classes, C122_inside_agrees, C122_inside_partial, C122_names_the_first_missing_partial, C122_report_false, C123_both_options_partial, C123_default, C123_end_false, C123_name_false, C123_never_another_value, C123_one_option_partial, C123_zero_false, C124_cpp_false, C125_defined_partial, C125_document_partial, C12_false, C12_partial, C13_round_trip, C13_round_trip_skipped, C14_output_is_canonical, C15_block_test, C15_digit_loops, C15_eight_digits, C15_sixteen_digits, C16_exactly_signed, C16_exactly_unsigned, C16_false, C16_partial, C16_signed_wraps, C17_exact, C18_round_trip, C19_format_is_whitespace, C19_format_same_value, C20_false_for_gaps, C20_false_for_quotes_in_names, C20_output_is_json_partial, C21_false_for_ill_typed_members, C21_member_order_partial, C22_false_for_colliding_names, C22_unknown_members_ignored_partial, C23_absent_optional_is_empty, C23_absent_required_is_an_error, C23_absent_required_rejected, C23_std_string_absent_optional, C23_std_string_absent_required, C24_full_name_lookup_exact, C26_iteration_partial, C27_find_element_partial, C27_find_escaped_member_partial, C27_find_member_partial, C28_find_member_missing_partial, C28_find_member_partial, C28_find_range_missing_partial, C28_find_range_partial, C28_from_json_at_path_partial, C28_from_json_missing_partial, C28_verify_end_false, C29_answers_by_name, C29_history_independent_arrays_partial, C29_history_independent_partial, C30_false_for_the_first, C30_index_partial, C31_type, C32_callbacks, C32_events_partial, C33_complete_partial, C33_skip_is_an_error, C34_partition_partial, C35_array_of_json_values, C35_array_partial, C35_bool_false, C35_bool_stuck, C35_custom_literal_false, C35_lines_false, C35_lines_of_json_values_partial, C35_lines_partial, C35_nullable_false, C35_once_false, C35_once_partial, C35_ordered_class_false, C36_end, C36_equality, C37_back, C37_round_trip, C37_to_time_point, C38_round_trip_partial, C39_offset_partial, C40_defaults, C40_last_one_counts, C40_or_others, C40_or_partial, C40_others_unchanged, C40_reads_back, C41_line_partial, C42_cpp_next_partial, C42_cpp_skip_partial, C42_cpp_stars_false, C42_cpp_trim_partial, C42_hash_skip, C43_control_characters_pass, C43_literal_false, C43_trailing_text_partial, C44_false_for_gaps, C44_ordered_by_index_partial, C45_false_for_exact_ordered, C45_trailing_comma_partial, C46_bool_exact_partial, C46_bool_out_of_order_false, C46_missing_value_is_null, C46_null_exact_partial, C47_false_for_minus, C47_partial, C48_false, C48_false_for_every_string, C48_partial, C49_string_decoding_in_bounds, C49_unchecked_empty_misread, C49_unchecked_well_formed, C50_from_json_reads, C51_false_for_negative, C51_false_for_unsigned, C51_leading_zero_partial, C51_zero_terminated_partial, C52_chunks_hold_the_values, C52_iterating_the_chunks, C53_reads_utc, C54_false_for_days, C56_constexpr, C56_runtime_false, C56_runtime_partial, C56_simd_next, C56_simd_overrun_false, C56_simd_partial, C56_simd_plain_partial, C56_simd_tail_false, C58_digits, C58_end_false, C58_exact, C58_truncated_partial, C59_precise_partial, C60_precision_partial, C61_precise_partial, C61_scientific_partial, C62_std_string_reads, C62_std_string_round_trip, C62_std_string_trailing, C63_false_for_classes, C63_false_for_final_backslash, C63_false_for_raw_json, C63_no_overrun_partial, C64_false_for_fractions, C64_false_for_literals, C64_false_for_nul, C64_false_for_quoted_unsigned, C64_same_document_partial, C64_same_result_partial, C64_string_view_overrun, C65_false_for_empty_classes, C65_false_for_quotes, C66_false_for_tuples, C67_false_for_null_elements, C67_written_is_valid_partial, C68_false_for_null_members, C68_read_is_valid_partial, C69_false_for_short_tuples, C69_valid_is_read_partial, C70_span, C71_pointer, C72_append_partial, C73_stream_partial, C74_array_partial, C74_false_for_every_trailing_comma, C75_false_for_array_classes, C75_false_for_custom_literals, C75_false_for_leading_whitespace, C75_false_for_null, C75_false_for_raw, C75_no_alternative, C75_null, C75_only_alternatives, C75_std_string_partial, C75_variant_by_kind_partial, C76_false_with_exact_mappings, C76_no_tag, C76_std_string_partial, C76_unknown_tag, C76_variant_by_tag_partial, C77_false_for_array_classes_and_null, C77_false_for_wrong_tag, C77_tagged_round_trip_partial, C77_variant_round_trip_partial, C78_extra_element_of_class_partial, C78_extra_element_of_tuple_partial, C78_false_for_colliding_names, C78_unmapped_member_partial, C78_unmapped_member_rejected, C79_extra_elements_of_class, C79_extra_elements_of_tuple_partial, C79_false_for_arrays, C80_false_for_absent_member, C80_false_for_null, C80_false_for_number_before_digits, C80_false_for_quoted_bool, C80_unchecked_agrees_partial, C80_unchecked_literal_partial, C81_false_for_custom, C81_raw_and_custom_partial, C82_false_for_strings_and_null, C82_raw_json_partial, C83_date_members, C84_false, C84_text_is_written_back_partial, C85_any_text_partial, C85_before_quote_partial, C85_false_for_arrays, C85_false_for_custom, C85_false_for_exact_tuples, C85_false_for_reals, C85_false_for_strings, C85_false_for_variants, C85_in_bounds_partial, C85_json_partial, C86_accepted_fits_partial, C86_false_for_arrays, C86_false_for_booleans, C86_false_for_integers, C86_false_for_strings, C86_false_for_tuples, C86_members_in_order, C86_not_json_accepted, C86_order_needed, C87_false_at_end, C87_false_for_many_digits, C87_false_for_whole_numbers, C87_real_members_partial, C87_round_trip_partial, C88_dependent_members_partial, C88_false_number_in_front_of_tag, C88_false_string_in_front_of_tag, C88_false_with_exact_mappings, C88_tag_decides, C88_unknown_tag, C89_false_in_front_of_size, C89_false_name_is_path, C89_negative_size, C89_sized_array_partial, C90_false_space_in_empty_array, C90_pairs_partial, C91_false_behind_empty_member, C91_false_for_shared_tag, C91_round_trip_partial, C92_always_wants_string, C92_document_partial, C92_elements, C92_false_at_the_end, C92_false_for_garbage, C92_false_for_minus, C92_false_for_quotes, C92_false_for_schema, C92_false_for_variants, C92_false_out_of_order, C92_false_round_trip, C92_false_unchecked, C92_members, C92_round_trip_partial, C92_written, C93_dependent_and_fixed_partial, C93_false_for_null, C93_false_for_scalars_and_maps, C93_leading_whitespace_partial, C94_false_for_whitespace, C94_false_with_terminator, C94_is_from_json_of_an_array_partial, C94_with_path, C95_false_column, C95_message_partial, C96_false_for_null_visible, C96_nullable_members_partial, C97_accepted_partial, C97_false_for_escapes, C97_false_for_minus, C97_false_out_of_range, C97_reads_partial, C97_round_trip, C98_false_for_float, C98_false_for_underflow, C98_float_partial, C98_nearest_partial, C99_error_any_partial, C99_error_any_small_partial, C99_error_partial, C99_error_small_partial, C99_false_for_zero, C99_false_two_ulp, C99_infinity_partial, C99_nearest_partial.
* `Quot.sound`, `propext`: C01_null_at_end_of_text_is_an_error, C02_checked_skip_reads_inside, C03_cursor_forward_only, C04_literal_then_space_reads_past_end, C06_bracket_counts_partial, C06_mismatched_brackets_accepted, C07_simd_false, C101_not_written, C104_zero, C105_zero, C111_index_false, C112_day_false, C112_month_parse, C115_choice, C116_endless, C116_false_for_invalid, C116_null_pointer, C116_unescaped, C117_elements, C120_total, C122_false_for_zeros, C124_before_a_quote_partial, C124_block_false, C124_hash_false, C124_next_no_comments, C124_no_comments, C14_numeral_determines_value, C17_zero, C24_hash_only_lookup_is_not_exact, C24_long_names_collide, C24_short_names_never_collide, C25_hash_is_fnv1a, C25_long_hash_eq, C26_null_has_no_text, C27_object_end_throws, C28_find_range_false, C28_index_into_string, C29_false_for_names_in_arrays, C32_false, C33_complete_false, C33_skip_unchecked_false, C36_once_partial, C38_false, C40_or_false, C40_set_bits_in_false, C41_column, C41_first_column_partial, C42_cpp_end_false, C42_cpp_skip_false, C42_hash_end_false, C42_hash_next, C42_hash_trim, C42_unchecked_false, C47_false, C51_false, C54_rejects_partial, C55_false, C55_path_partial, C57_constexpr, C57_false, C58_exponent_false, C58_located_false, C58_zero_terminated_false, C59_exponent_false, C59_float_false, C59_zero_terminated_false, C60_leading_zeros_false, C61_auto_false, C65_schema_is_json_partial, C66_schema_is_schema_partial, C72_false_for_mapping, C73_false_for_raw_strings, C74_false_for_trailing_comma, C95_false_reads_outside, C96_false_tag_without_member.
* `propext`: C05_trim_absorbs_whitespace, C120_empty_false, C121_messages, C121_reason_false, C121_reason_partial, C122_message, C125_false, C36_once_false, C54_no_time.
