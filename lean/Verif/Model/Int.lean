import Verif.Model.Skip

/-!
# Integers: output and parsing

Models `to_json_string_signed` / `to_json_string_unsigned` (`to_daw_json_string.h`), the unsigned parsers
(`daw_json_parse_unsigned_int.h`) and `parse_value_signed` / `parse_value_unsigned`
(`daw_json_parse_value.h`) for the built-in integer types and `LiteralAsStringOpt::Never`.
-/

namespace Verif

/-- A built-in integer type. -/
structure IntTy where
  bits : Nat
  signed : Bool
  deriving DecidableEq, Repr

/-- The widths the language provides. -/
def IntTy.Valid (t : IntTy) : Prop := t.bits = 8 ∨ t.bits = 16 ∨ t.bits = 32 ∨ t.bits = 64

instance (t : IntTy) : Decidable t.Valid := inferInstanceAs (Decidable (_ ∨ _))

/-- `v` is a value of the type. -/
def IntTy.InRange (t : IntTy) (v : Int) : Prop :=
  if t.signed then -(2 ^ (t.bits - 1) : Int) ≤ v ∧ v < 2 ^ (t.bits - 1) else 0 ≤ v ∧ v < 2 ^ t.bits

instance (t : IntTy) (v : Int) : Decidable (t.InRange v) := by
  unfold IntTy.InRange; infer_instance

/-! ## Output -/

/-- The character `'0' + n` for `n < 10`. -/
def digitChar (n : Nat) : UInt8 := UInt8.ofNat (0x30 + n)

/-- `digits100[n]`, `to_daw_json_string.h` L624-635: low digit first. -/
def digits100 (n : Nat) : UInt8 × UInt8 := (digitChar (n % 10), digitChar (n / 10))

/-- The digit loop and its final single digit, `to_daw_json_string.h` L700-709 and L764-773: least significant
digit first.  The characters are written at increasing `ptr`. -/
def emitPairs (v : Nat) : Bytes :=
  if 10 ≤ v then (digits100 (v % 100)).1 :: (digits100 (v % 100)).2 :: emitPairs (v / 100)
  else if 0 < v then [digitChar v] else []
termination_by v
decreasing_by omega

/-- The swap loop of `reverse`, `to_daw_json_string.h` L645-651. -/
def revLoop (a : Bytes) (lpos rpos : Nat) : Bytes :=
  if lpos < rpos then
    let x := a.getD lpos 0
    let y := a.getD (rpos - 1) 0
    revLoop ((a.set lpos y).set (rpos - 1) x) (lpos + 1) (rpos - 1)
  else a
termination_by rpos - lpos
decreasing_by omega

/-- `reverse( first, last )`, `to_daw_json_string.h` L637-652. -/
def revBuf (a : Bytes) : Bytes := revLoop a 0 a.length

/-- `to_json_string_unsigned`, `to_daw_json_string.h` L756-776. -/
def writeUnsigned (v : Nat) : Bytes :=
  if v = 0 then [ch0] else revBuf (emitPairs v)

/-- `to_json_string_signed`, `to_daw_json_string.h` L666-717.  `v % 10` and `v / -10` are C++ (truncating)
operations; `-static_cast<std::size_t>( v % 10 )` is taken modulo 2^64. -/
def writeSigned (v : Int) : Bytes :=
  if v < 0 then
    let tmp := ((2 ^ 64 : Int) - (v.tmod 10) % (2 ^ 64 : Int)) % (2 ^ 64 : Int)
    let v' := v.tdiv (-10)
    let d := (digits100 tmp.toNat).1
    if v' = 0 then [chMinus, d]
    else chMinus :: revBuf (d :: emitPairs v'.toNat)
  else if v = 0 then revBuf [ch0]
  else revBuf (emitPairs v.toNat)

/-- Output of a value of type `t`: signed types use `to_json_string_signed`, unsigned ones
`to_json_string_unsigned`. -/
def writeInt (t : IntTy) (v : Int) : Bytes := if t.signed then writeSigned v else writeUnsigned v.toNat

/-! ## Word-at-a-time digit decoding -/

/-- `daw::to_uint64_buffer( ptr )`: eight bytes, least significant first (contract of the external header;
`is_made_of_eight_digits_cx` builds the same word explicitly, `daw_json_parse_unsigned_int.h` L73-76). -/
def word : Bytes → Nat
  | [] => 0
  | c :: cs => c.toNat + 256 * word cs

/-- `is_made_of_eight_digits_cx`, `daw_json_parse_unsigned_int.h` L62-81, on the eight bytes at `ptr`. -/
def isEightDigits (bs : Bytes) : Bool :=
  let val := word (bs.take 8)
  ((val &&& 0xF0F0F0F0F0F0F0F0) |||
    ((((0x0606060606060606 + val) % 2 ^ 64) &&& 0xF0F0F0F0F0F0F0F0) >>> 4)) == 0x3333333333333333

/-- `parse_8_digits`, `daw_json_parse_unsigned_int.h` L93-117. -/
def parse8 (bs : Bytes) : Nat :=
  let chunk := word (bs.take 8)
  let lower := (chunk &&& 0x0F000F000F000F00) >>> 8
  let upper := ((chunk &&& 0x000F000F000F000F) * 10) % 2 ^ 64
  let chunk2 := (lower + upper) % 2 ^ 64
  let lower2 := (chunk2 &&& 0x00FF000000FF0000) >>> 16
  let upper2 := ((chunk2 &&& 0x000000FF000000FF) * 100) % 2 ^ 64
  let chunk3 := (lower2 + upper2) % 2 ^ 64
  let lower3 := (chunk3 &&& 0x0000FFFF00000000) >>> 32
  let upper3 := ((chunk3 &&& 0x000000000000FFFF) * 10000) % 2 ^ 64
  let chunk4 := (lower3 + upper3) % 2 ^ 64
  chunk4 &&& 0xFFFFFFFF

/-- `parse_16_digits`, `daw_json_parse_unsigned_int.h` L122-126. -/
def parse16 (bs : Bytes) : Nat := ((parse8 bs * 100000000) % 2 ^ 64 + parse8 (bs.drop 8)) % 2 ^ 64

/-! ## Parsing -/

/-- `result *= m; result += x` on a `UInt64`. -/
def mulAdd64 (r m x : Nat) : Nat := ((r * m) % 2 ^ 64 + x) % 2 ^ 64

/-- The 16-digit loop of `unsigned_parser_known`, `daw_json_parse_unsigned_int.h` L211-215. -/
def known16 (r : Nat) (bs : Bytes) : Nat × Bytes :=
  if 16 ≤ bs.length then known16 (mulAdd64 r 10000000000000000 (parse16 bs)) (bs.drop 16)
  else (r, bs)
termination_by bs.length
decreasing_by simp; omega

/-- The single-digit loop of `unsigned_parser_known`, `daw_json_parse_unsigned_int.h` L230-234 (no test that the
byte is a digit). -/
def known1 (r : Nat) : Bytes → Nat
  | [] => r
  | c :: cs => known1 (mulAdd64 r 10 (parseDigit c)) cs

/-- The value computed by `unsigned_parser_known`, `daw_json_parse_unsigned_int.h` L207-235. -/
def knownVal (bs : Bytes) : Nat :=
  let (r, b) := known16 0 bs
  if 8 ≤ b.length then known1 (mulAdd64 r 100000000 (parse8 b)) (b.drop 8) else known1 r b

/-- Largest value of the type. -/
def IntTy.max (t : IntTy) : Nat := if t.signed then 2 ^ (t.bits - 1) - 1 else 2 ^ t.bits - 1

/-- `narrow_cast<Unsigned>( result )` from a `UInt64` to an unsigned type of `bits` bits,
`daw_json_parse_unsigned_int.h` L176-184. -/
def narrowUnsigned (bits value : Nat) : Res Nat :=
  if 64 ≤ bits then .ok value
  else if value ≤ 2 ^ bits - 1 then .ok value
  else .err .numberOutOfRange

/-- `unsigned_parser_known<Unsigned, RangeChecked>`, `daw_json_parse_unsigned_int.h` L191-252, for an unsigned
type of `bits` bits.  The test on `count` (L237-242) compares an unsigned number with zero and is always true,
as is `result <= max` for a 64 bit result. -/
def unsignedKnown (bits : Nat) (rangeChecked : Bool) (bs : Bytes) : Res Nat :=
  if rangeChecked then narrowUnsigned bits (knownVal bs) else .ok (knownVal bs % 2 ^ bits)

/-- The 16-digit loop of `unsigned_parser_not_known`, `daw_json_parse_unsigned_int.h` L279-292.
Returns the value, the rest and `has_eight`. -/
def notKnown16 (r : Nat) (bs : Bytes) : Nat × Bytes × Bool :=
  let hasEight := decide (8 ≤ bs.length) && isEightDigits bs
  if hasEight = true ∧ 16 ≤ bs.length ∧ isEightDigits (bs.drop 8) = true then
    notKnown16 (mulAdd64 r 10000000000000000 (parse16 bs)) (bs.drop 16)
  else (r, bs, hasEight)
termination_by bs.length
decreasing_by simp; omega

/-- The single-digit loop of `unsigned_parser_not_known`, `daw_json_parse_unsigned_int.h` L307-315. -/
def notKnown1 (r : Nat) : Bytes → Nat × Bytes
  | [] => (r, [])
  | c :: cs => if isDigit c then notKnown1 (mulAdd64 r 10 (parseDigit c)) cs else (r, c :: cs)

/-- The value and rest computed by `unsigned_parser_not_known`, `daw_json_parse_unsigned_int.h` L272-316. -/
def notKnownVal (bs : Bytes) : Nat × Bytes :=
  let (r, b, hasEight) := notKnown16 0 bs
  if hasEight then notKnown1 (mulAdd64 r 100000000 (parse8 b)) (b.drop 8) else notKnown1 r b

/-- `unsigned_parser_not_known<Unsigned, RangeChecked>`, `daw_json_parse_unsigned_int.h` L255-334
(`digits10 + 1 = 20` for the 64 bit `result_t`). -/
def unsignedNotKnown (cfg : Cfg) (bits : Nat) (rangeChecked : Bool) (bs : Bytes) : Res (Nat × Bytes) := do
  assertWeak cfg.checked (!bs.isEmpty) .unexpectedEndOfData
  let (r, rest) := notKnownVal bs
  if rangeChecked then do
    ensure (decide (bs.length - rest.length ≤ 20)) .numberOutOfRange
    let v ← narrowUnsigned bits r
    .ok (v, rest)
  else .ok (r % 2 ^ bits, rest)

/-- `static_cast<Signed>( u )` for a `bits` wide type: two's complement wrap. -/
def wrapSigned (bits : Nat) (u : Int) : Int :=
  let m := u % (2 ^ bits : Int)
  if m < 2 ^ (bits - 1) then m else m - 2 ^ bits

/-- `to_signed( u, sign )` followed by the conversion to the element type
(`daw_json_parse_unsigned_int.h` L42-60, `daw_json_parse_value.h` L209-216).  For 64 bit types the product is
computed in `int64_t`, for narrower ones in `int`; the case distinction of L49-55 avoids the overflow of
`-1 * INT64_MIN`. -/
def toSigned (bits : Nat) (u : Nat) (sign : Int) : Int :=
  if bits = 64 ∧ u = 2 ^ 63 then wrapSigned 64 u
  else wrapSigned bits (sign * wrapSigned bits u)

/-- `at_end_of_item`, `daw_json_parse_policy_policy_details.h` L29-36.  `c <= 0x20` compares a plain `char`,
which is signed on the usual platforms: bytes from 0x80 up pass the test. -/
def atEndOfItem (c : UInt8) : Bool :=
  c == chComma || c == chRBrace || c == chRBrack || c == chColon || decide (c.toNat ≤ 0x20) ||
    decide (0x80 ≤ c.toNat)

/-- `not has_more( ) or at_end_of_item( front( ) )`. -/
def endOfItem : Bytes → Bool
  | [] => true
  | c :: _ => atEndOfItem c

/-- `validate_signed_first`, `daw_json_parse_policy_policy_details.h` L76-107. -/
def validateSignedFirst (cfg : Cfg) (bs : Bytes) : Res (Int × Bytes) := do
  assertWeak cfg.checked (!bs.isEmpty) .unexpectedEndOfData
  let c ← deref bs
  if c = chMinus then .ok (-1, bs.tail)
  else if cfg.checked then
    if c ≠ ch0 ∧ isDigit c = true then .ok (1, bs)
    else if c = ch0 then do
      ensure (match bs.tail with | [] => true | d :: _ => !isDigit d) .invalidNumberStart
      .ok (1, bs)
    else .err .invalidNumberStart
  else if isDigit c then .ok (1, bs)
  else .err .invalidNumberStart

/-- `parse_value_signed<JsonMember, false>`, `daw_json_parse_value.h` L177-233. -/
def parseSigned (cfg : Cfg) (bits : Nat) (rc : Bool) (bs : Bytes) : Res (Int × Bytes) := do
  assertWeak cfg.checked (!bs.isEmpty) .unexpectedEndOfData
  let (sign, b) ← validateSignedFirst cfg bs
  let (u, b) ← unsignedNotKnown cfg bits rc b
  let b ← trim cfg b
  assertWeak cfg.checked (endOfItem b) .invalidEndOfValue
  .ok (toSigned bits u sign, b)

/-- `parse_value_signed<JsonMember, true>`, `daw_json_parse_value.h` L177-216, on the range of the number. -/
def parseSignedKnown (cfg : Cfg) (bits : Nat) (rc : Bool) (bs : Bytes) : Res Int := do
  whenChecked cfg do
    let c ← derefEnd cfg bs
    ensure (c == chMinus || isDigit c) .invalidNumberStart
  let (sign, b) ← validateSignedFirst cfg bs
  let u ← unsignedKnown bits rc b
  .ok (toSigned bits u sign)

/-- `parse_value_unsigned<JsonMember, false>`, `daw_json_parse_value.h` L252-290. -/
def parseUnsigned (cfg : Cfg) (bits : Nat) (rc : Bool) (bs : Bytes) : Res (Int × Bytes) := do
  assertWeak cfg.checked (!bs.isEmpty) .unexpectedEndOfData
  whenChecked cfg do
    let c ← deref bs
    ensure (isDigit c) .invalidNumber
  let (u, b) ← unsignedNotKnown cfg bits rc bs
  assertWeak cfg.checked (endOfItem b) .invalidEndOfValue
  .ok ((u : Int), b)

/-- `validate_unsigned_first`, `daw_json_parse_policy_policy_details.h` L44-69: after a leading `0` the next
byte, if any, must be a digit. -/
def validateUnsignedFirst (cfg : Cfg) (bs : Bytes) : Res Unit :=
  if cfg.checked then do
    let c ← derefEnd cfg bs
    if c = ch0 then ensure (match bs.tail with | [] => true | d :: _ => isDigit d) .invalidNumberStart
    else ensure (isDigit c) .invalidNumberStart
  else .ok ()

/-- `parse_value_unsigned<JsonMember, true>`, `daw_json_parse_value.h` L245-251. -/
def parseUnsignedKnown (cfg : Cfg) (bits : Nat) (rc : Bool) (bs : Bytes) : Res Int := do
  validateUnsignedFirst cfg bs
  let u ← unsignedKnown bits rc bs
  .ok (u : Int)

/-- Parsing an integer type when the end of the number is not known. -/
def parseInt (cfg : Cfg) (t : IntTy) (rc : Bool) (bs : Bytes) : Res (Int × Bytes) :=
  if t.signed then parseSigned cfg t.bits rc bs else parseUnsigned cfg t.bits rc bs

/-- Parsing an integer type from the range found by `skip_number`. -/
def parseIntKnown (cfg : Cfg) (t : IntTy) (rc : Bool) (bs : Bytes) : Res Int :=
  if t.signed then parseSignedKnown cfg t.bits rc bs else parseUnsignedKnown cfg t.bits rc bs

end Verif
