import Verif.Model.Int

/-!
# Timestamps

Models `impl/daw_json_parse_iso8601_utils.h`, `to_json_string_date` (`to_daw_json_string.h`) and `parse_value_date`
(`daw_json_parse_value.h`) for the default type of `json_date`, a `system_clock` time point counting milliseconds in an
`int64_t`.  Not modelled: other clocks and resolutions, and overflow of `std::int32_t` for years within 400 of its
limits.
-/

namespace Verif

/-- `'T'` -/ notation "chUT" => (0x54 : UInt8)
/-- `'Z'` -/ notation "chUZ" => (0x5A : UInt8)

/-- Conversion to `std::int32_t`. -/
def wrapI32 (x : Int) : Int := Int.bmod x 4294967296

/-- Conversion to `std::uint32_t`. -/
def wrapU32 (x : Int) : Nat := (x % 4294967296).toNat

/-- `civil_to_time_point`, `daw_json_parse_iso8601_utils.h` L93-127: milliseconds since the epoch.  Months and days are at least 1 where the library calls
it, so `doy` is not negative.  `std::chrono::hours` and so on hold 64 bits; the number of days is put into 32. -/
def civilToMs (yr : Int) (mo dy hr mn se ns : Nat) : Int :=
  let y := yr - (if mo ≤ 2 then 1 else 0)
  let era := (if 0 ≤ y then y else y - 399).tdiv 400
  let yoe := (y - era * 400).toNat
  let doy := ((153 * ((mo : Int) + (if 2 < mo then -3 else 9)) + 2).tdiv 5 + dy - 1).toNat
  let doe := yoe * 365 + yoe / 4 - yoe / 100 + doy
  let days := wrapI32 (era * 146097 + doe - 719468)
  days * 86400000 + hr * 3600000 + mn * 60000 + se * 1000 + (ns / 1000000 : Nat)

/-- `ymdhms`, `daw_json_parse_iso8601_utils.h` L302-310. -/
structure Civil where
  year : Int
  month : Nat
  day : Nat
  hour : Nat
  minute : Nat
  second : Nat
  nano : Nat
  deriving DecidableEq, Repr

/-- The date part of `time_point_to_civil`, `daw_json_parse_iso8601_utils.h` L319-335, from `z`, the days since 0000-03-01, on: year, month and day. -/
def civilFromDays (z : Int) : Int × Nat × Nat :=
  let era := (if 0 ≤ z then z else z - 146096).tdiv 146097
  let doe := (z - era * 146097).toNat
  let yoe := (doe - doe / 1460 + doe / 36524 - doe / 146096) / 365
  let y := (yoe : Int) + era * 400
  let doy := doe - (365 * yoe + yoe / 4 - yoe / 100)
  let mp := (5 * doy + 2) / 153
  let d := doy - (153 * mp + 2) / 5 + 1
  let m := if mp < 10 then mp + 3 else mp - 9
  (y + (if m ≤ 2 then 1 else 0), m, d)

/-- `time_point_to_civil`, `daw_json_parse_iso8601_utils.h` L312-356.  `duration_cast` truncates.  `z += 719468` overflows, which is undefined, for
days from 2^31 - 719468 on. -/
def timePointToCivil (t : Int) : Res Civil :=
  let days := wrapI32 (t.tdiv 86400000)
  let z := 719468 + days
  if 2147483648 ≤ z then .ub
  else
    let (y, m, d) := civilFromDays z
    let r₁ := t - days * 86400000
    let hrs := r₁.tdiv 3600000
    let r₂ := r₁ - hrs * 3600000
    let mins := r₂.tdiv 60000
    let r₃ := r₂ - mins * 60000
    let secs := r₃.tdiv 1000
    let r₄ := r₃ - secs * 1000
    .ok { year := y, month := m, day := d, hour := wrapU32 hrs, minute := wrapU32 mins, second := wrapU32 secs,
          nano := ((r₄ * 1000000) % 18446744073709551616).toNat }

/-! ## Writing -/

/-- A number with a zero in front if it has one digit, `to_daw_json_string.h` L877-900. -/
def twoDigits (n : Nat) : Bytes := if n < 10 then ch0 :: writeUnsigned n else writeUnsigned n

/-- The loop `to_daw_json_string.h` L902-904: trailing zeros removed. -/
def stripZeros (n : Nat) : Nat :=
  if n ≠ 0 ∧ n % 10 = 0 then stripZeros (n / 10) else n
termination_by n
decreasing_by omega

/-- `to_json_string_date` between the quotes, `to_daw_json_string.h` L873-908. -/
def civilText (c : Civil) : Bytes :=
  writeSigned c.year ++ chMinus :: (twoDigits c.month ++ chMinus :: (twoDigits c.day ++ chUT :: (twoDigits c.hour ++
    chColon :: (twoDigits c.minute ++ chColon :: (twoDigits c.second ++
      ((if 0 < c.nano then chDot :: writeUnsigned (stripZeros c.nano) else []) ++ [chUZ]))))))

/-- `to_json_string_date`, `to_daw_json_string.h` L859-910. -/
def writeDate (t : Int) : Res Bytes := do
  let c ← timePointToCivil t
  .ok (chQuote :: (civilText c ++ [chQuote]))

/-! ## Parsing -/

/-- `is_number`, `daw_json_parse_iso8601_utils.h` L59-61, with `parse_digit`. -/
def isDigitCh (c : UInt8) : Bool := (c - ch0).toNat < 10

/-- `parse_unsigned<uint_least32_t, 2>`, `daw_json_parse_iso8601_utils.h` L31-44, at a pointer behind which the given text follows: up to two digits, stopping
at the first character that is none. -/
def parseTwo : Bytes → Res Nat
  | [] => .ub
  | a :: rest =>
    if isDigitCh a then
      match rest with
      | [] => .ub
      | b :: _ => if isDigitCh b then .ok (10 * (a - ch0).toNat + (b - ch0).toNat) else .ok (a - ch0).toNat
    else .ok 0

/-- The digit loop of `parse_number`, `daw_json_parse_iso8601_utils.h` L82-87, for a type whose values end below `lim`.  Overflow is undefined for the signed type; with the
unsigned one there are at most nine digits. -/
def parseDigits (lim acc : Nat) : Bytes → Res Nat
  | [] => .ok acc
  | c :: cs =>
    if isDigitCh c then
      if lim ≤ 10 * acc + (c - ch0).toNat then .ub else parseDigits lim (10 * acc + (c - ch0).toNat) cs
    else .err .invalidNumber

/-- `parse_number<std::int_least32_t>`, `daw_json_parse_iso8601_utils.h` L67-89. -/
def parseYear (sv : Bytes) : Res Int :=
  match sv with
  | [] => .err .invalidNumber
  | c :: cs => do
    let v ← parseDigits 2147483648 0 (if c = chMinus ∨ c = chPlus then cs else c :: cs)
    .ok (if c = chMinus then -(v : Int) else v)

/-- `pop_back( 2U )` of `daw::string_view` and `parse_unsigned` of what was removed, `daw_json_parse_iso8601_utils.h` L176-177 and L183-184.  Removing more than there is is
taken for undefined. -/
def popBackTwo (sv : Bytes) : Res (Nat × Bytes) :=
  if sv.length < 2 then .ub
  else do
    let v ← parseTwo (sv.drop (sv.length - 2))
    .ok (v, sv.take (sv.length - 2))

/-- `if( not is_number( sv.back( ) ) ) { sv.remove_suffix( ); }`, `daw_json_parse_iso8601_utils.h` L180-182 and L187-189. -/
def dropSepBack (sv : Bytes) : Res Bytes :=
  match sv.getLast? with
  | none => .ub
  | some c => .ok (if isDigitCh c then sv else sv.dropLast)

/-- `parse_iso_8601_date`, `daw_json_parse_iso8601_utils.h` L172-193. -/
def parseIsoDate (sv : Bytes) : Res (Int × Nat × Nat) := do
  let (d, sv) ← popBackTwo sv
  ensure (1 ≤ d && d ≤ 31) .invalidTimestamp
  let sv ← dropSepBack sv
  let (m, sv) ← popBackTwo sv
  ensure (1 ≤ m && m ≤ 12) .invalidTimestamp
  let sv ← dropSepBack sv
  let y ← parseYear sv
  .ok (y, m, d)

/-- `pop_front( 2 )` of `daw::string_view` and `parse_unsigned` of what was removed, `daw_json_parse_iso8601_utils.h` L206-207 and so on. -/
def popFrontTwo (sv : Bytes) : Res (Nat × Bytes) :=
  if sv.length < 2 then .ub
  else do
    let v ← parseTwo sv
    .ok (v, sv.drop 2)

/-- `if( not is_number( sv.front( ) ) ) { sv.remove_prefix( ); }`, `daw_json_parse_iso8601_utils.h` L210-212 and so on. -/
def dropSepFront (sv : Bytes) : Res Bytes :=
  match sv with
  | [] => .ub
  | c :: cs => .ok (if isDigitCh c then sv else cs)

/-- The fraction, `daw_json_parse_iso8601_utils.h` L233-237.  The exponent of `daw::cxmath::pow10` is negative, as a `std::size_t` huge, for more than nine
characters; what that function does then is not known here and taken for undefined. -/
def parseFrac (sv : Bytes) : Res Nat :=
  match sv.take 9 with
  | [] => .err .invalidNumber
  | c :: cs => do
    let v ← parseDigits 18446744073709551616 0 (if c = chMinus ∨ c = chPlus then cs else c :: cs)
    if 9 < sv.length then .ub else .ok (v * 10 ^ (9 - sv.length))

/-- The seconds and the fraction, `daw_json_parse_iso8601_utils.h` L221-238. -/
def parseIsoSecond (sv : Bytes) : Res (Nat × Nat) :=
  if sv.isEmpty then .ok (0, 0)
  else do
    let sv ← dropSepFront sv
    let (s, sv) ← popFrontTwo sv
    ensure (s ≤ 60) .invalidTimestamp
    if sv.isEmpty then .ok (s, 0)
    else do
      let sv ← dropSepFront sv
      let ns ← parseFrac sv
      .ok (s, ns)

/-- `parse_iso_8601_time`, `daw_json_parse_iso8601_utils.h` L202-239: hour, minute, second, nanosecond. -/
def parseIsoTime (sv : Bytes) : Res (Nat × Nat × Nat × Nat) := do
  let (h, sv) ← popFrontTwo sv
  ensure (h ≤ 24) .invalidTimestamp
  let sv ← dropSepFront sv
  let (mi, sv) ← popFrontTwo sv
  ensure (mi ≤ 59) .invalidTimestamp
  let (s, ns) ← parseIsoSecond sv
  .ok (h, mi, s, ns)

/-- The time zone, `daw_json_parse_iso8601_utils.h` L260-296: hour and minute (32 bits, unsigned) after the offset is applied.  `data( ts )` does not move when the hours
are read. -/
def applyZone (ts : Bytes) (h mi : Nat) : Res (Nat × Nat) :=
  match ts with
  | [] => .ok (h, mi)
  | c :: cs =>
    if c = chUZ then .ok (h, mi)
    else do
      ensure (ts.length == 5 || ts.length == 6) .invalidTimestamp
      ensure (c == chPlus || c == chMinus) .invalidTimestamp
      let ho ← parseTwo cs
      ensure (ho ≤ 24) .invalidTimestamp
      let cs' := if headIs (· == chColon) cs then cs.tail else cs
      let mo ← parseTwo cs'
      ensure (mo ≤ 61) .invalidTimestamp
      if c = chPlus then .ok (wrapU32 ((h : Int) - ho), wrapU32 ((mi : Int) - mo))
      else .ok (wrapU32 ((h : Int) + ho), wrapU32 ((mi : Int) + mo))

/-- `parse_iso8601_timestamp`, `daw_json_parse_iso8601_utils.h` L241-301.  `pop_front_until` of `daw::string_view`, not part of the library, with a string removes
also that string, with a predicate only what is in front. -/
def parseTimestamp (ts : Bytes) : Res Int := do
  let date := ts.takeWhile (· != chUT)
  let rest := (ts.dropWhile (· != chUT)).tail
  if rest.isEmpty then .err .invalidTimestamp
  else do
    let (y, mo, d) ← parseIsoDate date
    let inTime := fun c => isDigitCh c || c == chColon || c == chDot
    let (h, mi, s, ns) ← parseIsoTime (rest.takeWhile inTime)
    let (h, mi) ← applyZone (rest.dropWhile inTime) h mi
    .ok (civilToMs y mo d h mi s ns)

/-- `parse_value_date<JsonMember, true>`, `daw_json_parse_value.h` L526-536, on the text of the range that `skip_value` returned. -/
def parseDateKnown (cfg : Cfg) (text : Bytes) : Res Int := do
  assertWeak cfg.checked (!text.isEmpty) .unexpectedEndOfData
  parseTimestamp text

/-- `parse_value_date`, `daw_json_parse_value.h` L526-536, where the value has not been skipped. -/
def parseDate (cfg : Cfg) (bs : Bytes) : Res (Int × Bytes) := do
  assertWeak cfg.checked (!bs.isEmpty) .unexpectedEndOfData
  let (r, rest) ← skipString cfg false bs
  let t ← parseTimestamp r.text
  .ok (t, rest)

end Verif
