import Verif.Model.Typed

/-!
# Parsing a zero terminated document

`from_json` of a `std::string` uses `ZeroTerminatedString::yes` (`daw_from_json.h` L57-59,
`daw_json_traits.h` L226-250): many end checks are replaced by the `'\0'` that follows the last character.  This
module models that instantiation of the functions of `Model/Skip`, `Model/Int`, `Model/Str` and `Model/Typed`, for
`CheckedParseMode::yes` and `ExecModeTypes::compile_time`.

A parse state is a list `s` of bytes and a number `k`: `s` are the bytes from `first` up to, and without, the
terminator of the buffer, of which the last `k` are at or after `last`.  So `*first` may be read when `s` is empty,
it is the terminator; moving past the terminator and reading there is undefined behaviour.  `k` is 0 for a whole
document and the number of bytes behind the range for a member found out of order.
`class_last` is identified with `last`, as in `Model/Skip`.
-/

namespace Verif

/-- `has_more( )`, `daw_json_parse_policy.h` L304-306. -/
def moreZ (k : Nat) (s : Bytes) : Bool := decide (k < s.length)

/-- `front( )`, `daw_json_parse_policy.h` L344-346: the terminator when nothing is left. -/
def frontZ (s : Bytes) : UInt8 := s.headD 0

/-- `empty( )`, `daw_json_parse_policy.h` L293-302 (branch L297-298). -/
def emptyZ (k : Nat) (s : Bytes) : Bool := !moreZ k s || frontZ s == 0

/-- `is_opening_bracket_checked( )` and its relatives, `daw_json_parse_policy.h` L408-422. -/
def atZ (c : UInt8) (k : Nat) (s : Bytes) : Bool := moreZ k s && frontZ s == c

/-- The part of the buffer in front of `last`. -/
def beforeZ (k : Nat) (s : Bytes) : Bytes := s.take (s.length - k)

/-- The part of the buffer from `last` on. -/
def behindZ (k : Nat) (s : Bytes) : Bytes := s.drop (s.length - k)

/-- The range returned by the skip functions: `first`, given by the bytes from there to the terminator, `last`, given
by the number `k` of bytes from there to the terminator, and `counter`; `null` is `first == nullptr`; `dec` and `exp` are the
positions of the decimal point and the exponent in a number, kept in `class_first` and `class_last`; `quoted` is
set for a stored range if the byte in front of it is a quote. -/
structure ZRange where
  s : Bytes
  k : Nat
  counter : Nat := 0
  null : Bool := false
  dec : Option Nat := none
  exp : Option Nat := none
  quoted : Bool := false
  deriving DecidableEq, Repr

/-- The characters of a range. -/
def ZRange.text (r : ZRange) : Bytes := beforeZ r.k r.s

/-! ## Skipping -/

/-- The scanning loop of `parse_nq_check`, `daw_json_parse_string_quote.h` L190-206, L259-261, for a zero terminated string:
`first += 2` over a backslash may step over the terminator. -/
def nqScanZ (off slow : Nat) : Bytes → Res (Nat × Nat)
  | [] => .err .invalidString
  | c :: cs =>
    if c = chQuote then .ok (slow, off)
    else if c = 0 then .err .invalidString
    else if c = chBslash then
      match cs with
      | [] => .ub
      | _ :: cs' => nqScanZ (off + 2) (if slow = npos then off else slow) cs'
    else nqScanZ (off + 1) slow cs

/-- The scanning loop of `parse_nq_check` with `exclude_special_escapes`, `daw_json_parse_string_quote.h`
L157-189, L259-261. -/
def nqScanExclZ (k : Nat) (off slow : Nat) : Bytes → Res (Nat × Nat)
  | [] => .err .invalidString
  | c :: cs =>
    if c.toNat < 0x20 then .err .invalidString
    else if c = chBslash then
      if k + 1 < (c :: cs).length then
        match cs with
        | [] => .err .invalidString
        | d :: cs' =>
          if isStdEscape d then nqScanExclZ k (off + 2) (if slow = npos then off else slow) cs'
          else .err .invalidString
      else .err .invalidString
    else if c = chQuote then .ok (slow, off)
    else nqScanExclZ k (off + 1) slow cs

/-- `parse_nq_check`, `daw_json_parse_string_quote.h` L137-268; the block pre-skip (L150-156) stays in front of
`last`. -/
def parseNqZ (cfg : Cfg) (k : Nat) (s : Bytes) : Res (Nat × Nat) :=
  if cfg.exclSpecial then nqScanExclZ k 0 npos s
  else nqScanZ (preSkip (beforeZ k s)) npos (s.drop (preSkip (beforeZ k s)))

/-- `skip_string_nq`, `daw_json_skip.h` L38-50. -/
def skipStringNqZ (cfg : Cfg) (k : Nat) (s : Bytes) : Res (ZRange × Bytes) := do
  let (slow, n) ← parseNqZ cfg k s
  .ok ({ s := s, k := s.length - n, counter := slow }, s.drop (n + 1))

/-- `skip_string<false>`, `daw_json_skip.h` L55-73. -/
def skipStringZ (cfg : Cfg) (k : Nat) (s : Bytes) : Res (ZRange × Bytes) :=
  if emptyZ k s then .ok ({ s := s, k := k }, s)
  else do
    ensure (frontZ s == chQuote) .invalidString
    ensure (moreZ k s.tail) .invalidString
    skipStringNqZ cfg k s.tail

/-- The end of `skip_true` and `skip_false`, `daw_json_skip.h` L88-92, L110-114. -/
def endOfLiteralZ (k : Nat) (e : Err) (s : Bytes) : Res Bytes := do
  ensure (!moreZ k (trimChecked s) || isTokenAfterValue (frontZ (trimChecked s))) e
  .ok (trimChecked s)

/-- `skip_true` (`n = 4`, `c = 1`) and `skip_false` (`n = 5`, `c = 0`), `daw_json_skip.h` L75-95, L97-117: the
letters of the literal are not looked at. -/
def skipBoolZ (n c : Nat) (k : Nat) (s : Bytes) : Res (ZRange × Bytes) :=
  if s.length < n then .ub
  else do
    let r ← endOfLiteralZ k .invalidEndOfValue (s.drop n)
    .ok ({ s := s, k := s.length - n, counter := c }, r)

/-- `skip_null`, `daw_json_skip.h` L119-141: the letters are not looked at. -/
def skipNullZ (k : Nat) (s : Bytes) : Res (ZRange × Bytes) := do
  ensure (moreZ k (s.drop 4)) .unexpectedEndOfData
  let r ← endOfLiteralZ k .unexpectedEndOfData (s.drop 4)
  .ok ({ s := [], k := 0, null := true }, r)

/-- The guarded call `if( first < last ) first = skip_digits<true>( first, last )`, `daw_json_skip.h` L249-254,
L263-268, L297-302: up to a character that is not a digit, be it behind `last`. -/
def skipDigitsZ (k : Nat) (s : Bytes) : Bytes := if moreZ k s then skipDigits s else s

/-- Decimal part of `skip_number`, `daw_json_skip.h` L256-269. -/
def skipFracZ (k : Nat) (s : Bytes) : Bytes := if frontZ s = chDot then skipDigitsZ k s.tail else s

/-- Exponent part of `skip_number`, `daw_json_skip.h` L270-303. -/
def skipExpZ (k : Nat) (s : Bytes) : Res Bytes :=
  if frontZ s = chLe ∨ frontZ s = chUe then do
    ensure (moreZ k s.tail) .unexpectedEndOfData
    let b := if frontZ s.tail = chPlus ∨ frontZ s.tail = chMinus then s.tail.tail else s.tail
    ensure (moreZ k b && isDigit (frontZ b)) .invalidNumber
    .ok (skipDigitsZ k b)
  else .ok s

/-- `skip_number`, `daw_json_skip.h` L217-310. -/
def skipNumberZ (k : Nat) (s : Bytes) : Res (ZRange × Bytes) := do
  ensure (moreZ k s) .unexpectedEndOfData
  let b₁ := if frontZ s = chMinus then s.tail else s
  let b₂ := skipDigitsZ k b₁
  let b₃ := skipFracZ k b₂
  let b₄ ← skipExpZ k b₃
  .ok ({ s := s, k := b₄.length
         dec := if frontZ b₂ = chDot then some (s.length - b₂.length) else none
         exp := if frontZ b₃ = chLe ∨ frontZ b₃ = chUe then some (s.length - b₃.length) else none }, b₄)

/-- `skip_bracketed_item_checked`, `daw_json_parse_policy_no_comments.h` L141-215: not affected by the terminator,
the loop stays in front of `last`. -/
def skipBracketedZ (br : Brackets) (k : Nat) (s : Bytes) : Res (ZRange × Bytes) :=
  if moreZ k s then do
    let b := if frontZ s = br.primLeft then (beforeZ k s).tail else beforeZ k s
    let (cnt, rest) ← brLoop br 1 0 0 b
    .ok ({ s := s, k := (rest ++ behindZ k s).length, counter := cnt }, rest ++ behindZ k s)
  else .ok ({ s := s, k := k }, s)

/-- `skip_value<false>`, `daw_json_skip.h` L318-361. -/
def skipValueZ (cfg : Cfg) (k : Nat) (s : Bytes) : Res (ZRange × Bytes) := do
  ensure (moreZ k s) .unexpectedEndOfData
  let c := frontZ s
  if c = chQuote then skipStringZ cfg k s
  else if c = chLBrack then skipBracketedZ arrBr k s
  else if c = chLBrace then skipBracketedZ objBr k s
  else if c = chT then skipBoolZ 4 1 k s
  else if c = chF then skipBoolZ 5 0 k s
  else if c = chN then skipNullZ k s
  else if c = chMinus ∨ isDigit c = true then skipNumberZ k s
  else .err .invalidStartOfValue

/-- `skip_literal`, `daw_json_skip.h` L403-438. -/
def skipLiteralZ (k : Nat) (s : Bytes) : Res (ZRange × Bytes) := do
  ensure (moreZ k s) .unexpectedEndOfData
  let c := frontZ s
  if c = chT then skipBoolZ 4 1 k s
  else if c = chF then skipBoolZ 5 0 k s
  else if c = chN then skipNullZ k s
  else if c = chMinus ∨ isDigit c = true then skipNumberZ k s
  else .err .invalidStartOfValue

/-! ## Scalars -/

/-- The value and rest computed by `unsigned_parser_not_known`, `daw_json_parse_unsigned_int.h` L272-316: blocks in
front of `last`, then digits up to a character that is not one (L298-305). -/
def notKnownValZ (k : Nat) (s : Bytes) : Nat × Bytes :=
  let (r, b, hasEight) := notKnown16 0 (beforeZ k s)
  if hasEight then notKnown1 (mulAdd64 r 100000000 (parse8 b)) ((b ++ behindZ k s).drop 8)
  else notKnown1 r (b ++ behindZ k s)

/-- `unsigned_parser_not_known<Unsigned, RangeChecked>`, `daw_json_parse_unsigned_int.h` L255-334. -/
def unsignedNotKnownZ (bits : Nat) (rangeChecked : Bool) (k : Nat) (s : Bytes) : Res (Nat × Bytes) := do
  ensure (moreZ k s) .unexpectedEndOfData
  let (r, rest) := notKnownValZ k s
  if rangeChecked then do
    ensure (decide (s.length - rest.length ≤ 20)) .numberOutOfRange
    let v ← narrowUnsigned bits r
    .ok (v, rest)
  else .ok (r % 2 ^ bits, rest)

/-- The value computed by `unsigned_parser_known`, `daw_json_parse_unsigned_int.h` L207-229: blocks in front of
`last`, then digits up to a character that is not one. -/
def knownValZ (k : Nat) (s : Bytes) : Nat :=
  let (r, b) := known16 0 (beforeZ k s)
  if 8 ≤ b.length then (notKnown1 (mulAdd64 r 100000000 (parse8 b)) ((b ++ behindZ k s).drop 8)).1
  else (notKnown1 r (b ++ behindZ k s)).1

/-- `unsigned_parser_known<Unsigned, RangeChecked>`, `daw_json_parse_unsigned_int.h` L191-252. -/
def unsignedKnownZ (bits : Nat) (rangeChecked : Bool) (k : Nat) (s : Bytes) : Res Nat :=
  if rangeChecked then narrowUnsigned bits (knownValZ k s) else .ok (knownValZ k s % 2 ^ bits)

/-- `validate_signed_first`, `daw_json_parse_policy_policy_details.h` L76-107. -/
def validateSignedFirstZ (k : Nat) (s : Bytes) : Res (Int × Bytes) := do
  ensure (moreZ k s) .unexpectedEndOfData
  if frontZ s = chMinus then .ok (-1, s.tail)
  else if frontZ s ≠ ch0 ∧ isDigit (frontZ s) = true then .ok (1, s)
  else if frontZ s = ch0 then do
    ensure (!moreZ k s.tail || !isDigit (frontZ s.tail)) .invalidNumberStart
    .ok (1, s)
  else .err .invalidNumberStart

/-- `not has_more( ) or at_end_of_item( front( ) )`. -/
def endOfItemZ (k : Nat) (s : Bytes) : Bool := !moreZ k s || atEndOfItem (frontZ s)

/-- `parse_value_signed<JsonMember, false>`, `daw_json_parse_value.h` L177-233. -/
def parseSignedZ (bits : Nat) (rc : Bool) (k : Nat) (s : Bytes) : Res (Int × Bytes) := do
  let (sign, b) ← validateSignedFirstZ k s
  let (u, b) ← unsignedNotKnownZ bits rc k b
  ensure (endOfItemZ k (trimChecked b)) .invalidEndOfValue
  .ok (toSigned bits u sign, trimChecked b)

/-- `parse_value_signed<JsonMember, true>`, `daw_json_parse_value.h` L177-216. -/
def parseSignedKnownZ (bits : Nat) (rc : Bool) (k : Nat) (s : Bytes) : Res Int := do
  ensure (frontZ s == chMinus || isDigit (frontZ s)) .invalidNumberStart
  let (sign, b) ← validateSignedFirstZ k s
  let u ← unsignedKnownZ bits rc k b
  .ok (toSigned bits u sign)

/-- `parse_value_unsigned<JsonMember, false>`, `daw_json_parse_value.h` L252-290. -/
def parseUnsignedZ (bits : Nat) (rc : Bool) (k : Nat) (s : Bytes) : Res (Int × Bytes) := do
  ensure (isDigit (frontZ s)) .invalidNumber
  let (u, b) ← unsignedNotKnownZ bits rc k s
  ensure (endOfItemZ k b) .invalidEndOfValue
  .ok ((u : Int), b)

/-- `validate_unsigned_first`, `daw_json_parse_policy_policy_details.h` L44-69. -/
def validateUnsignedFirstZ (k : Nat) (s : Bytes) : Res Unit :=
  if frontZ s = ch0 then ensure (!moreZ k s.tail || isDigit (frontZ s.tail)) .invalidNumberStart
  else ensure (isDigit (frontZ s)) .invalidNumberStart

/-- `parse_value_unsigned<JsonMember, true>`, `daw_json_parse_value.h` L245-251. -/
def parseUnsignedKnownZ (bits : Nat) (rc : Bool) (k : Nat) (s : Bytes) : Res Int := do
  validateUnsignedFirstZ k s
  let u ← unsignedKnownZ bits rc k s
  .ok (u : Int)

/-- Parsing an integer type when the end of the number is not known. -/
def parseIntZ (t : IntTy) (rc : Bool) (k : Nat) (s : Bytes) : Res (Int × Bytes) :=
  if t.signed then parseSignedZ t.bits rc k s else parseUnsignedZ t.bits rc k s

/-- Parsing an integer type from the range found by `skip_number`. -/
def parseIntKnownZ (t : IntTy) (rc : Bool) (k : Nat) (s : Bytes) : Res Int :=
  if t.signed then parseSignedKnownZ t.bits rc k s else parseUnsignedKnownZ t.bits rc k s

/-- The second half of `parse_value_string_escaped`, `daw_json_parse_value.h` L491-506.  `parse_string_known_stdstring`
has no branch for zero terminated strings in this execution mode; the terminator is one more readable byte. -/
def parseStrRangeZ (cfg : Cfg) (allowHigh : Bool) (r : ZRange) : Res Bytes :=
  parseStrRange cfg allowHigh { text := r.text, counter := r.counter } (behindZ r.k r.s ++ [0])

/-- `parse_value_string_escaped<JsonMember, false>`, `daw_json_parse_value.h` L474-506. -/
def parseStrZ (cfg : Cfg) (allowHigh : Bool) (k : Nat) (s : Bytes) : Res (Bytes × Bytes) := do
  ensure (!emptyZ k s) .unexpectedNull
  let (r, rest) ← skipStringZ cfg k s
  let v ← parseStrRangeZ cfg allowHigh r
  .ok (v, rest)

/-- The first half of `parse_value_bool<JsonMember, false>`, `daw_json_parse_value.h` L409-418.  `starts_with`,
`daw_json_parse_policy.h` L308-319, compares the size first.  (Simplification: with `first` behind `last`, which
needs a range that does not end with its closing bracket, the size would wrap around; here nothing is left then.) -/
def eatBoolZ (k : Nat) (s : Bytes) : Res (Bool × Bytes) :=
  if (txtTrue).isPrefixOf (beforeZ k s) then .ok (true, s.drop 4)
  else if (txtFalse).isPrefixOf (beforeZ k s) then .ok (false, s.drop 5)
  else .err .invalidLiteral

/-- `parse_value_bool<JsonMember, false>`, `daw_json_parse_value.h` L395-431. -/
def parseBoolZ (k : Nat) (s : Bytes) : Res (Bool × Bytes) := do
  let (r, b) ← eatBoolZ k s
  ensure (endOfItemZ k (trimChecked b)) .invalidEndOfValue
  .ok (r, trimChecked b)

/-- `parse_value_bool<JsonMember, true>`, `daw_json_parse_value.h` L377-394. -/
def parseBoolKnownZ (s : Bytes) : Res Bool :=
  if frontZ s = chT then .ok true else if frontZ s = chF then .ok false else .err .invalidLiteral

/-- What `parse_value_null<JsonMember, false>` finds, `daw_json_parse_value.h` L337-352; see `eatNull`. -/
def eatNullZ (k : Nat) (s : Bytes) : Res (Option Bytes) :=
  if !moreZ k s || isTokenAfterValue (frontZ s) then .ok (some s)
  else if (txtNull).isPrefixOf (beforeZ k s) then do
    ensure (endOfItemZ k (s.drop 4)) .invalidLiteral
    .ok (some (trimChecked (s.drop 4)))
  else .ok none

/-! ## Text -/

/-- The text that `parse_value_custom<JsonMember, false>` takes, `daw_json_parse_value.h` L538-574, see `customText`. -/
def customTextZ (cfg : Cfg) (c : CustomKind) (k : Nat) (s : Bytes) : Res (Bytes × Bytes) :=
  match c with
  | .str => do
    let (r, rest) ← skipStringZ cfg k s
    .ok (r.text, rest)
  | .lit => do
    let (r, rest) ← skipLiteralZ k s
    .ok (r.text, rest)
  | .any =>
    if frontZ s = chQuote then do
      let (r, rest) ← skipStringZ cfg k s
      .ok (chQuote :: r.text, rest)
    else do
      let (r, rest) ← skipValueZ cfg k s
      .ok (r.text, rest)

/-- The text that `skip_value<true>` returns, `daw_json_skip.h` L318-361: strings with their quotes. -/
def rawTextZ (cfg : Cfg) (k : Nat) (s : Bytes) : Res (Bytes × Bytes) := do
  let (r, rest) ← skipValueZ cfg k s
  .ok (if frontZ s = chQuote then chQuote :: (r.text ++ [chQuote]) else r.text, rest)

/-! ## Reals -/

/-- The digits before the point, `daw_json_parse_real.h` L309-343, see `unkWhole`. -/
def unkWholeZ (maxDig k : Nat) (b : Bytes) : Nat × Int × Bytes :=
  let (sig, b₁) := notKnown1 0 b
  if min (b.length - k) maxDig ≤ b.length - b₁.length then
    (sig, (if sig = 0 then 0 else ((b₁.length - (skipDigits b₁).length : Nat) : Int)), skipDigits b₁)
  else (sig, 0, b₁)

/-- The optional fraction, `daw_json_parse_real.h` L345-385, see `unkFrac`; `b` is the range after the sign. -/
def unkFracZ (maxDig k : Nat) (b : Bytes) (sig : Nat) (p1 : Int) (b₂ : Bytes) : Nat × Int × Bytes :=
  if frontZ b₂ = chDot then
    let cs := b₂.tail
    if p1 ≠ 0 then (sig, p1, if moreZ k cs then skipDigits cs else cs)
    else
      let n : Int := min ((cs.length : Int) - k) ((maxDig : Int) - ((b.length : Int) - (cs.length : Int)))
      let (sig, c₁) := notKnown1 sig cs
      let count := cs.length - c₁.length
      if n ≤ (count : Int) ∧ moreZ k c₁ = true then (sig, p1 - count, skipDigits c₁) else (sig, p1 - count, c₁)
  else (sig, p1, b₂)

/-- The sign of the exponent, `daw_json_parse_real.h` L391-415, see `unkExpSign`. -/
def unkExpSignZ (k : Nat) (cs : Bytes) : Res (Int × Bytes) :=
  if frontZ cs = chPlus then do
    ensure (moreZ k cs.tail && isDigit (frontZ cs.tail)) .invalidNumber
    .ok (1, cs.tail)
  else if frontZ cs = chMinus then do
    ensure (moreZ k cs.tail && isDigit (frontZ cs.tail)) .invalidNumber
    .ok (-1, cs.tail)
  else do
    ensure (isDigit (frontZ cs)) .invalidNumber
    .ok (1, cs)

/-- The optional exponent, `daw_json_parse_real.h` L387-426, see `unkExp`. -/
def unkExpZ (k : Nat) (b₃ : Bytes) : Res (Int × Bytes) :=
  if moreZ k b₃ = true ∧ frontZ b₃ ||| 0x20 = chLe then do
    let (sgn, d) ← unkExpSignZ k b₃.tail
    ensure (moreZ k d) .unexpectedEndOfData
    .ok (toSigned 64 (notKnown1 0 d).1 sgn, (notKnown1 0 d).2)
  else .ok (0, b₃)

/-- `parse_value_real<JsonMember, false>`, `daw_json_parse_value.h` L144-173, with `parse_real_unknown`, `daw_json_parse_real.h`
L277-478; see `parseReal`. -/
def parseRealZ (dbl : Bool) (k : Nat) (s : Bytes) : Res (Dec × Bytes) := do
  ensure (moreZ k s && isNumberStart (frontZ s)) .invalidNumberStart
  let (sign, b) ← validateSignedFirstZ k s
  let (sig, p1, b₂) := unkWholeZ (if dbl then 18 else 10) k b
  let (sig, p1, b₃) := unkFracZ (if dbl then 18 else 10) k b sig p1 b₂
  let (p2, b₄) ← unkExpZ k b₃
  let exp ← addExp (Cfg.real {} true dbl) p1 p2
  ensure (emptyZ k b₄ || atEndOfItem (frontZ b₄)) .invalidEndOfValue
  .ok ((RealOut.calc sign sig exp).dec, b₄)

/-- `parse_value_real<JsonMember, true>`, see `parseRealKnown`. -/
def parseRealKnownZ (dbl : Bool) (r : ZRange) : Res Dec := do
  let x ← realKnown (Cfg.real {} true dbl) { text := r.text, dec := r.dec, exp := r.exp } (behindZ r.k r.s)
  .ok x.dec

/-! ## Literals as strings -/

/-- `skip_quote_when_literal_as_string<literal_as_string>`, `daw_json_parse_value.h` L54-72. -/
def skipQuoteZ (always : Bool) (k : Nat) (s : Bytes) : Res Bytes :=
  if always then do
    ensure (atZ chQuote k s) .invalidNumberUnexpectedQuoting
    .ok s.tail
  else do
    ensure (moreZ k s) .unexpectedEndOfData
    .ok (if frontZ s = chQuote then s.tail else s)

/-- `parse_value_signed<JsonMember, false>`, see `parseSignedQ`. -/
def parseSignedQZ (always : Bool) (bits : Nat) (rc : Bool) (k : Nat) (s : Bytes) : Res (Int × Bytes) := do
  let b ← skipQuoteZ always k s
  let (sign, b) ← validateSignedFirstZ k b
  let (u, b) ← unsignedNotKnownZ bits rc k b
  let b ← skipQuoteZ always k b
  ensure (endOfItemZ k (trimChecked b)) .invalidEndOfValue
  .ok (toSigned bits u sign, trimChecked b)

/-- `parse_value_unsigned<JsonMember, false>`, see `parseUnsignedQ`. -/
def parseUnsignedQZ (always : Bool) (bits : Nat) (rc : Bool) (k : Nat) (s : Bytes) : Res (Int × Bytes) := do
  let b ← skipQuoteZ always k s
  ensure (isDigit (frontZ b)) .invalidNumber
  let (u, b) ← unsignedNotKnownZ bits rc k b
  let b ← skipQuoteZ always k b
  ensure (endOfItemZ k b) .invalidEndOfValue
  .ok ((u : Int), b)

/-- `parse_value_bool<JsonMember, false>`, see `parseBoolQ`. -/
def parseBoolQZ (always : Bool) (k : Nat) (s : Bytes) : Res (Bool × Bytes) := do
  let b ← skipQuoteZ always k s
  let (r, b) ← eatBoolZ k b
  let b ← skipQuoteZ always k b
  ensure (endOfItemZ k (trimChecked b)) .invalidEndOfValue
  .ok (r, trimChecked b)

/-- A literal that is or may be a string, with unknown bounds, see `parseLit`. -/
def parseLitZ (always : Bool) (l : LitTy) (k : Nat) (s : Bytes) : Res (Lit × Bytes) :=
  match l with
  | .bool => do
    let (b, r) ← parseBoolQZ always k s
    .ok (.bool b, r)
  | .int t rc => do
    let (i, r) ← if t.signed then parseSignedQZ always t.bits rc k s else parseUnsignedQZ always t.bits rc k s
    .ok (.int i, r)

/-- The same with known bounds, see `parseLitKnown`. -/
def parseLitKnownZ (l : LitTy) (r : ZRange) : Res Lit :=
  match l with
  | .bool => do
    let b ← parseBoolKnownZ r.s
    .ok (.bool b)
  | .int t rc => do
    let i ← parseIntKnownZ t rc r.k r.s
    .ok (.int i)

/-- `parse_value_string_raw`, `parse_value_date`, `parse_value_custom`, `parse_value_unknown`, `parse_value_real` and quoted literals
with unknown bounds, see `parseTxt`. -/
def parseTxtZ (cfg : Cfg) (ki : TxtKind) (k : Nat) (s : Bytes) : Res (Val × Bytes) :=
  match ki with
  | .rawStr _ => do
    let (r, rest) ← skipStringZ cfg k s
    .ok (.txt r.text, rest)
  | .date => do
    ensure (moreZ k s) .unexpectedEndOfData
    let (r, rest) ← skipStringZ cfg k s
    let x ← parseTimestamp r.text
    .ok (.date x, rest)
  | .custom c => do
    let (x, rest) ← customTextZ cfg c k s
    customStart cfg x
    .ok (.txt x, rest)
  | .raw => do
    let (x, rest) ← rawTextZ cfg k s
    .ok (.txt x, rest)
  | .real dbl _ => do
    let (x, rest) ← parseRealZ dbl k s
    .ok (.real x, rest)
  | .quoted al l => do
    let (x, rest) ← parseLitZ al l k s
    .ok (.lit x, rest)

/-- The same with known bounds, see `parseTxtKnown`. -/
def parseTxtKnownZ (cfg : Cfg) (ki : TxtKind) (r : ZRange) : Res Val :=
  match ki with
  | .real dbl _ => do
    let x ← parseRealKnownZ dbl r
    .ok (.real x)
  | .quoted _ l => do
    let x ← parseLitKnownZ l r
    .ok (.lit x)
  | _ => parseTxtKnown cfg ki { text := r.text, quoted := r.quoted } []

/-! ## Classes -/

/-- `trim_end_of_name`, `daw_json_parse_name.h` L33-41. -/
def trimEndOfNameZ (k : Nat) (s : Bytes) : Res Bytes := do
  let b := trimChecked s
  ensure (moreZ k b) .unexpectedEndOfData
  ensure (frontZ b == chColon) .invalidMemberName
  .ok (trimChecked b.tail)

/-- `name_parser::parse_nq`, `daw_json_parse_name.h` L43-65, and `parse_name`, L148-155.  `memchr_checked` stays in
front of `last`. -/
def parseNameZ (t : TCfg) (k : Nat) (s : Bytes) : Res (Bytes × Bytes) := do
  ensure (atZ chQuote k s) .invalidMemberName
  if t.escNames then do
    let (r, b) ← skipStringNqZ t.cfg k s.tail
    let b ← trimEndOfNameZ k b
    .ok (r.text, b)
  else do
    let (nm, b) := toQuote (beforeZ k s.tail)
    ensure (!b.isEmpty && nm.getLast? != some chBslash) .invalidString
    let b ← trimEndOfNameZ k (b.tail ++ behindZ k s.tail)
    .ok (nm, b)

/-- `location_info_t`, see `Locs`. -/
abbrev LocsZ := List (Option ZRange)

/-- The result of `find_class_member`, see `Found`. -/
inductive FoundZ where
  | here
  | known (r : ZRange)
  | absent

/-- `locations[name_pos].set_range( skip_value( ... ) )`, `daw_json_location_info.h` L262. -/
def setLocZ (locs : LocsZ) (n : Nat) (r : ZRange) : LocsZ := locs.set n (if r.null then none else some r)

/-- What `*( first - 1 )` is for a stored range, see `markRange`. -/
def markRangeZ (b : Bytes) (r : ZRange) : ZRange := { r with quoted := frontZ b == chQuote }

/-- The loop of `find_class_member`, `daw_json_location_info.h` L222-277, while `locations[pos]` is missing.  A step
that does not move forward would loop for ever. -/
def findLoopZ (t : TCfg) (exact : Bool) (names : List Bytes) (pos : Nat) (k : Nat) (locs : LocsZ) (s : Bytes) :
    Res (FoundZ × LocsZ × Bytes) :=
  if emptyZ k s || frontZ s == chRBrace then .ok (.absent, locs, s)
  else do
    let (name, b) ← parseNameZ t k s
    let np := findName t names pos name
    if exact = true ∧ names.length ≤ np then .err .unknownMember
    else if names.length ≤ np then do
      let (_, b₂) ← skipValueZ t.cfg k b
      if _h : (moveNextChecked b₂).length < s.length then findLoopZ t exact names pos k locs (moveNextChecked b₂)
      else .ub
    else if np = pos then .ok (.here, locs, b)
    else do
      let (r, b₂) ← skipValueZ t.cfg k b
      if _h : (moveNextChecked b₂).length < s.length then
        findLoopZ t exact names pos k (setLocZ locs np (markRangeZ b r)) (moveNextChecked b₂)
      else .ub
termination_by s.length

/-- `find_class_member`, `daw_json_location_info.h` L206-293.  `trim_left_unchecked` stops at the terminator. -/
def findMemberZ (t : TCfg) (exact : Bool) (names : List Bytes) (pos : Nat) (nullable : Bool) (k : Nat) (locs : LocsZ)
    (s : Bytes) : Res (FoundZ × LocsZ × Bytes) := do
  ensure (nullable || ((locs[pos]?).join).isSome || !atZ chRBrace k s) .missingMember
  match (locs[pos]?).join with
  | some r => .ok (.known r, locs, trimChecked s)
  | none => findLoopZ t exact names pos k locs (trimChecked s)

/-- `parse_class_member`, `daw_json_parse_class.h` L93-151, for the members from `pos` on; see `classMembers`. -/
def classMembersZ (t : TCfg) (exact : Bool) (names : List Bytes) (pU : Ty → Nat → Bytes → Res (Val × Bytes))
    (pK : Ty → ZRange → Res Val) (k : Nat) (pos : Nat) (ms : List Member) (locs : LocsZ) (s : Bytes) :
    Res (List Val × Bytes) :=
  match ms with
  | [] => .ok ([], s)
  | m :: ms => do
    let b := moveNextChecked s
    ensure (!emptyZ k b && (frontZ b == chQuote || frontZ b == chRBrace)) .missingMemberNameOrEndOfClass
    let (f, locs, b) ← findMemberZ t exact names pos m.ty.isOpt k locs b
    let (v, b) ← (match f with
      | .here => pU m.ty k b
      | .known r => do
        let v ← pK m.ty r
        .ok (v, b)
      | .absent => if m.ty.isOpt then .ok (.none, b) else .err .missingMember : Res (Val × Bytes))
    let (vs, b) ← classMembersZ t exact names pU pK k (pos + 1) ms locs b
    .ok (v :: vs, b)

/-- The loop of `move_to_next_of<'"','}'>` for a zero terminated string, `daw_json_parse_policy_no_comments.h`
L119-121: it does not stop at the terminator. -/
def toNextMemberZ : Bytes → Res Bytes
  | [] => .ub
  | c :: cs => if c = chQuote ∨ c = chRBrace then .ok (c :: cs) else toNextMemberZ cs

/-- `move_to_next_class_member`, `daw_json_parse_policy.h` L473-475, `move_to_next_of<'"','}'>`,
`daw_json_parse_policy_no_comments.h` L92-135 (branch L115-123). -/
def moveToNextClassMemberZ (k : Nat) (s : Bytes) : Res Bytes := do
  ensure (moreZ k s && frontZ s != 0) .unexpectedEndOfData
  toNextMemberZ s

/-- `class_cleanup_now`, `daw_json_parse_class.h` L153-173. -/
def classCleanupZ (exact : Bool) (k : Nat) (s : Bytes) : Res Bytes := do
  ensure (moreZ k s) .unexpectedEndOfData
  let b ← moveToNextClassMemberZ k (moveNextChecked s)
  if exact then do
    ensure (frontZ b == chRBrace) .unknownMember
    .ok (trimChecked b.tail)
  else do
    let (_, b) ← skipBracketedZ objBr k b
    .ok (trimChecked b)

/-- `parse_json_class`, `daw_json_parse_class.h` L182-277. -/
def parseObjZ (t : TCfg) (exact : Bool) (ms : List Member) (pU : Ty → Nat → Bytes → Res (Val × Bytes))
    (pK : Ty → ZRange → Res Val) (k : Nat) (s : Bytes) : Res (Val × Bytes) := do
  let b := trimChecked s
  ensure (atZ chLBrace k b) .invalidClassStart
  let (vs, b) ← classMembersZ t exact (ms.map Member.name) pU pK k 0 ms (ms.map fun _ => none) (trimChecked b.tail)
  let b ← classCleanupZ exact k b
  .ok (.cls vs, b)

/-! ## Tuples and ordered classes -/

/-- The loop of `maybe_skip_members`, `daw_json_parse_value.h` L919-929, `n` positions to go. -/
def skipMembersZ (cfg : Cfg) (k : Nat) : Nat → Bytes → Res (Nat × Bytes)
  | 0, s => .ok (0, s)
  | n + 1, s =>
    if frontZ s = chRBrack then .ok (n + 1, s)
    else do
      let (_, b) ← skipValueZ cfg k s
      ensure (moreZ k (moveNextChecked b)) .unexpectedEndOfData
      skipMembersZ cfg k n (moveNextChecked b)

/-- `maybe_skip_members`, `daw_json_parse_value.h` L912-932. -/
def maybeSkipZ (cfg : Cfg) (k : Nat) (cur want : Nat) (s : Bytes) : Res (Nat × Bytes) := do
  ensure (decide (cur ≤ want)) .outOfOrderOrderedMembers
  let (left, b) ← skipMembersZ cfg k (want - cur) s
  .ok ((max want cur) - left, b)

/-- `parse_value_help` for the elements of a tuple, `daw_json_parse_value.h` L1032-1090; see `tupMembers`. -/
def tupMembersZ (pU : Ty → Nat → Bytes → Res (Val × Bytes)) (k : Nat) (ts : List Ty) (s : Bytes) :
    Res (List Val × Bytes) :=
  match ts with
  | [] => .ok ([], s)
  | ty :: ts => do
    ensure (moreZ k s) .unexpectedEndOfData
    let (v, b) ← pU ty k s
    let (vs, b) ← tupMembersZ pU k ts (moveNextChecked b)
    .ok (v :: vs, b)

/-- The end of a tuple or ordered class: `ordered_class_cleanup`, `daw_json_parse_value.h` L1134-1143,
`daw_json_parse_class.h` L330-339. -/
def arrCleanupZ (exact : Bool) (k : Nat) (s : Bytes) : Res Bytes :=
  if exact then do
    ensure (frontZ (trimChecked s) == chRBrack) .unknownMember
    .ok (trimChecked (trimChecked s).tail)
  else do
    let (_, b) ← skipBracketedZ arrBr k s
    .ok b

/-- `parse_tuple_value`, `daw_json_parse_value.h` L1005-1148. -/
def parseTupZ (exact : Bool) (ts : List Ty) (pU : Ty → Nat → Bytes → Res (Val × Bytes)) (k : Nat) (s : Bytes) :
    Res (Val × Bytes) := do
  let b := trimChecked s
  ensure (atZ chLBrack k b) .invalidArrayStart
  let (vs, b) ← tupMembersZ pU k ts (trimChecked (moveNextChecked b.tail))
  let b ← arrCleanupZ exact k b
  .ok (.cls vs, b)

/-- `parse_ordered_class_member`, `daw_json_parse_class.h` L45-81, for the members left; see `ordMembers`. -/
def ordMembersZ (cfg : Cfg) (pU : Ty → Nat → Bytes → Res (Val × Bytes)) (k : Nat) (idx : Nat)
    (ms : List (Option Nat × Ty)) (s : Bytes) : Res (List Val × Bytes) :=
  match ms with
  | [] => .ok ([], s)
  | (want, ty) :: ms => do
    let b := moveNextChecked s
    let (idx, b) ← (match want with
      | some w => maybeSkipZ cfg k idx w b
      | none => do
        ensure (moreZ k b) .unexpectedEndOfData
        .ok (idx, b) : Res (Nat × Bytes))
    let (v, b) ← (if frontZ b = chRBrack then
        if ty.isOpt then .ok (.none, b) else .err .missingMember
      else pU ty k b : Res (Val × Bytes))
    let (vs, b) ← ordMembersZ cfg pU k (idx + 1) ms b
    .ok (v :: vs, b)

/-- `parse_json_tuple_class`, `daw_json_parse_class.h` L284-345. -/
def parseOrdZ (cfg : Cfg) (exact : Bool) (ms : List (Option Nat × Ty)) (pU : Ty → Nat → Bytes → Res (Val × Bytes))
    (k : Nat) (s : Bytes) : Res (Val × Bytes) := do
  let b := trimChecked s
  ensure (atZ chLBrack k b) .invalidArrayStart
  let (vs, b) ← ordMembersZ cfg pU k 0 ms (trimChecked b.tail)
  let b ← arrCleanupZ exact k b
  .ok (.cls vs, b)

/-! ## Arrays and maps -/

/-- The elements of an array: `operator*` and `operator++` of `json_parse_array_iterator`,
`daw_json_parse_array_iterator.h` L118-160; see `arrLoop`. -/
def arrLoopZ (p : Nat → Bytes → Res (Val × Bytes)) (k : Nat) (s : Bytes) : Res (List Val × Bytes) := do
  ensure (moreZ k s) .unexpectedEndOfData
  let (v, b) ← p k s
  let b := trimChecked b
  ensure (moreZ k b && (frontZ b == chComma || frontZ b == chRBrack)) .unexpectedEndOfData
  let b := moveNextChecked b
  ensure (moreZ k b) .unexpectedEndOfData
  if frontZ b = chRBrack then .ok ([v], trimChecked b.tail)
  else if _h : b.length < s.length then do
    let (vs, r) ← arrLoopZ p k b
    .ok (v :: vs, r)
  else .ub
termination_by s.length

/-- `parse_value_array`, `daw_json_parse_value.h` L672-689, and the constructor of the iterator,
`daw_json_parse_array_iterator.h` L99-110. -/
def parseArrZ (p : Nat → Bytes → Res (Val × Bytes)) (k : Nat) (s : Bytes) : Res (Val × Bytes) := do
  let b := trimChecked s
  ensure (atZ chLBrack k b) .invalidArrayStart
  let b := trimChecked b.tail
  if frontZ b = chRBrack then .ok (.arr [], trimChecked b.tail)
  else do
    let (vs, r) ← arrLoopZ p k b
    .ok (.arr vs, r)

/-- The pairs of a map: `operator*` and `operator++` of `json_parse_kv_class_iterator`,
`daw_json_parse_kv_class_iterator.h` L113-164. -/
def mapLoopZ (cfg : Cfg) (p : Nat → Bytes → Res (Val × Bytes)) (k : Nat) (s : Bytes) :
    Res (List (Bytes × Val) × Bytes) := do
  ensure (moreZ k s) .unexpectedEndOfData
  let (ky, b) ← parseStrZ cfg true k s
  let b ← trimEndOfNameZ k b
  let (v, b) ← p k b
  let b := moveNextChecked b
  ensure (moreZ k b) .unexpectedEndOfData
  if frontZ b = chRBrace then .ok ([(ky, v)], trimChecked b.tail)
  else if _h : b.length < s.length then do
    let (vs, r) ← mapLoopZ cfg p k b
    .ok ((ky, v) :: vs, r)
  else .ub
termination_by s.length

/-- `parse_value_keyvalue`, `daw_json_parse_value.h` L621-641, and the constructor of the iterator,
`daw_json_parse_kv_class_iterator.h` L93-106. -/
def parseMapZ (cfg : Cfg) (p : Nat → Bytes → Res (Val × Bytes)) (k : Nat) (s : Bytes) : Res (Val × Bytes) := do
  ensure (atZ chLBrace k s) .expectedKeyValueToStartWithBrace
  let b := trimChecked s.tail
  ensure (!emptyZ k b) .unexpectedEndOfData
  if frontZ b = chRBrace then .ok (.map [], trimChecked b.tail)
  else do
    let (vs, r) ← mapLoopZ cfg p k b
    .ok (.map vs, r)

/-! ## Dispatch -/

/-- `parse_value_variant<JsonMember, true>`, `daw_json_parse_value.h` L750-797. -/
def altOfRangeZ (cfg : Cfg) (Δ : Env) (alts : List Ty) (r : ZRange) : Res (Nat × Ty) :=
  if r.quoted then altOfBase Δ alts .string else altOfChar cfg Δ alts (frontZ r.s)

mutual
/-- `parse_value<JsonMember, false>`, `daw_json_parse_value.h` L1176-1222; see `parseU`. -/
def parseUZ (t : TCfg) (Δ : Env) (fuel : Nat) (ty : Ty) (k : Nat) (s : Bytes) : Res (Val × Bytes) :=
  match fuel with
  | 0 => .ub
  | f + 1 =>
    match ty with
    | .bool => do
      let (b, r) ← parseBoolZ k s
      .ok (.bool b, r)
    | .int ity rc => do
      let (i, r) ← parseIntZ ity rc k s
      .ok (.int i, r)
    | .str ah => do
      let (v, r) ← parseStrZ t.cfg ah k s
      .ok (.str v, r)
    | .txt ki => parseTxtZ t.cfg ki k s
    | .opt ty => do
      match ← eatNullZ k s with
      | some r => .ok (.none, r)
      | none => do
        let (v, r) ← parseUZ t Δ f ty k s
        .ok (.some v, r)
    | .arr ty => parseArrZ (parseUZ t Δ f ty) k s
    | .map ty => parseMapZ t.cfg (parseUZ t Δ f ty) k s
    | .ref i =>
      match Δ i with
      | .obj ms exact => do
        ensure (moreZ k s) .unexpectedEndOfData
        let (v, r) ← parseObjZ t (exact || t.exactAll) ms (parseUZ t Δ f) (parseKZ t Δ f) k s
        .ok (v, trimChecked r)
      | .tup ts exact => parseTupZ (exact || t.exactAll) ts (parseUZ t Δ f) k s
      | .ord ms exact => do
        ensure (moreZ k s) .unexpectedEndOfData
        let (v, r) ← parseOrdZ t.cfg (exact || t.exactAll) ms (parseUZ t Δ f) k s
        .ok (v, trimChecked r)
      | .var alts => do
        let a ← altOfChar t.cfg Δ alts (frontZ s)
        let (v, r) ← parseUZ t Δ f a.2 k s
        .ok (.alt a.1 v, r)
      | .ivar tag sw alts => do
        ensure (moreZ k s) .unexpectedEndOfData
        let (x, _) ← parseObjZ t t.exactAll [tag] (parseUZ t Δ f) (parseKZ t Δ f) k s
        let a ← altOfTag t.cfg sw alts x
        let (v, r) ← parseUZ t Δ f a.2 k s
        .ok (.alt a.1 v, r)
/-- `parse_value<JsonMember, true>`, same lines, on a range that `skip_value` returned. -/
def parseKZ (t : TCfg) (Δ : Env) (fuel : Nat) (ty : Ty) (r : ZRange) : Res Val :=
  match fuel with
  | 0 => .ub
  | f + 1 =>
    match ty with
    | .bool => do
      let b ← parseBoolKnownZ r.s
      .ok (.bool b)
    | .int ity rc => do
      let i ← parseIntKnownZ ity rc r.k r.s
      .ok (.int i)
    | .str ah => do
      let v ← parseStrRangeZ t.cfg ah r
      .ok (.str v)
    | .txt ki => parseTxtKnownZ t.cfg ki r
    | .opt ty =>
      if r.null then .ok .none
      else do
        let v ← parseKZ t Δ f ty r
        .ok (.some v)
    | .arr ty => do
      let (v, _) ← parseArrZ (parseUZ t Δ f ty) r.k r.s
      .ok v
    | .map ty => do
      let (v, _) ← parseMapZ t.cfg (parseUZ t Δ f ty) r.k r.s
      .ok v
    | .ref i =>
      match Δ i with
      | .obj ms exact => do
        ensure (moreZ r.k r.s) .unexpectedEndOfData
        let (v, _) ← parseObjZ t (exact || t.exactAll) ms (parseUZ t Δ f) (parseKZ t Δ f) r.k r.s
        .ok v
      | .tup ts exact => do
        let (v, _) ← parseTupZ (exact || t.exactAll) ts (parseUZ t Δ f) r.k r.s
        .ok v
      | .ord ms exact => do
        ensure (moreZ r.k r.s) .unexpectedEndOfData
        let (v, _) ← parseOrdZ t.cfg (exact || t.exactAll) ms (parseUZ t Δ f) r.k r.s
        .ok v
      | .var alts => do
        let a ← altOfRangeZ t.cfg Δ alts r
        let v ← parseKZ t Δ f a.2 r
        .ok (.alt a.1 v)
      | .ivar tag sw alts => do
        ensure (moreZ r.k r.s) .unexpectedEndOfData
        let (x, _) ← parseObjZ t t.exactAll [tag] (parseUZ t Δ f) (parseKZ t Δ f) r.k r.s
        let a ← altOfTag t.cfg sw alts x
        let (v, _) ← parseUZ t Δ f a.2 r.k r.s
        .ok (.alt a.1 v)
end

/-- `from_json<T>( doc )` of a `std::string`, `daw_from_json.h` L36-84.  (Simplification: a `'\0'` that is the last
character of the string is taken for the terminator, though one more follows it.) -/
def fromJsonZ (t : TCfg) (Δ : Env) (fuel : Nat) (ty : Ty) (s : Bytes) : Res Val := do
  ensure (!s.isEmpty) .emptyJSONDocument
  let b := if s.getLast? = some 0 then s.dropLast else s
  let (v, r) ← parseUZ t Δ fuel ty 0 b
  if t.verifyEnd then do
    ensure (emptyZ 0 (trimChecked r)) .invalidEndOfValue
    .ok v
  else .ok v

/-- `from_json_array<Element>( doc )` of a `std::string`, `daw_from_json.h` L497-554. -/
def fromJsonArrayZ (t : TCfg) (Δ : Env) (fuel : Nat) (ty : Ty) (s : Bytes) : Res Val := do
  ensure (!s.isEmpty) .emptyJSONDocument
  ensure (atZ chLBrack 0 (trimChecked s)) .invalidArrayStart
  let (v, r) ← parseArrZ (parseUZ t Δ fuel ty) 0 (trimChecked s)
  if t.verifyEnd then do
    ensure (emptyZ 0 (trimChecked r)) .invalidEndOfValue
    .ok v
  else .ok v

end Verif
