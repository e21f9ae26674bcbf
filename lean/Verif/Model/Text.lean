import Verif.Model.Date
import Verif.Model.RealIn
import Verif.Model.RealOut

/-!
# Reals, and members that take the text of a value

Models `json_string_raw`, `json_date`, `json_custom` and `json_raw`: parsing, `parse_value_string_raw`, `parse_value_custom`
and `parse_value_unknown` (`daw_json_parse_value.h`); writing, `to_json_string_string_raw`, `to_json_string_custom` and
`to_json_string_unknown` (`to_daw_json_string.h`).  Not modelled: `AllowEscapeCharacter::NotBeforeDblQuote` of
`json_string_raw`.  Also `json_number` of `double` or `float`, `parse_value_real`, on top of `Verif.Model.RealIn`.
-/

namespace Verif

/-- `JsonCustomTypes`, `daw_json_type_options.h` L233-250. -/
inductive CustomKind where
  | str | lit | any
  deriving DecidableEq, Repr

/-- What stands between the quotes of a quoted literal: `json_bool`, or `json_number` of an integer type, with or without range
checking. -/
inductive LitTy where
  | bool
  | int (t : IntTy) (rangeChecked : Bool)
  deriving DecidableEq, Repr

/-- The value of a quoted literal. -/
inductive Lit where
  | bool (b : Bool)
  | int (i : Int)
  deriving DecidableEq, Repr

/-- Types that take the text of a value: `json_string_raw` with its `EightBitModes`, `json_date`, `json_custom`, `json_raw`;
`json_number` of `double` or `float` with its `FPOutputFormat`; and `json_bool` or `json_number` of an integer type with
`LiteralAsStringOpt::Always` (`always`) or `Maybe`, `daw_json_type_options.h` L22-35. -/
inductive TxtKind where
  | rawStr (allowHigh : Bool)
  | date
  | custom (c : CustomKind)
  | raw
  | real (dbl : Bool) (fmt : FPFmt)
  | quoted (always : Bool) (l : LitTy)
  deriving DecidableEq, Repr

/-- `JsonBaseParseTypes`, `daw_json_enums.h` L52-60, without `Null` and `None`. -/
inductive BaseTy where
  | number | bool | string | cls | array
  deriving DecidableEq, Repr

/-- `underlying_json_type` of `json_string_raw`, `json_date`, `json_custom`, `json_raw`, `json_number` and `json_bool`, `none` for `None`,
`daw_json_link_types.h` L622-623, L754-755, L1171-1172, L1829-1830, L462-463, L561-562: a custom type is a string even if it is stored as a
literal; a number or boolean is none even if it is stored as a string. -/
def TxtKind.underlying : TxtKind → Option BaseTy
  | .rawStr _ | .date | .custom _ => some .string
  | .raw => none
  | .real .. => some .number
  | .quoted _ .bool => some .bool
  | .quoted _ (.int ..) => some .number

/-- A finite real.  (Simplification: floating point numbers are replaced by the decimal fractions `± sig * 10 ^ exp`, without rounding,
overflow and a negative zero.) -/
structure Dec where
  neg : Bool
  sig : Nat
  exp : Int
  deriving DecidableEq, Repr

/-- Significand and exponent of `n * 10 ^ e` with as few digits as possible. -/
def stripTens (n : Nat) (e : Int) : Nat × Int :=
  if n = 0 then (0, 0) else if n % 10 = 0 then stripTens (n / 10) (e + 1) else (n, e)
termination_by n
decreasing_by omega

/-- The real `± n * 10 ^ e`. -/
def Dec.of (neg : Bool) (n : Nat) (e : Int) : Dec :=
  { neg := neg && n != 0, sig := (stripTens n e).1, exp := (stripTens n e).2 }

/-- The real that `sign * power10<Result>( significand, exponent )` is meant to be, `daw_json_parse_real.h` L275, L478.  `strtod` is used
for types with `precise_ieee754` only, which are not modelled as members. -/
def RealOut.dec : RealOut → Dec
  | .calc sign sig exp => .of (decide (sign < 0)) sig exp
  | .strtod _ => ⟨false, 0, 0⟩

/-- Policy and type of a real member: `ExecModeTypes::compile_time`, `IEEE754Precise::no`.  (Simplification: a range inside of the body
of a string ends with that body, also for `Cfg.endQuote`.) -/
def Cfg.real (cfg : Cfg) (zt dbl : Bool) : RCfg :=
  { checked := cfg.checked, zt := zt, precise := false, runtime := false, maxDig := if dbl then 18 else 10 }

/-- `parse_value_real<JsonMember, false>`, `daw_json_parse_value.h` L144-173 (without `LiteralAsStringOpt`); the first test is that of
`realUnknown`. -/
def parseReal (cfg : Cfg) (dbl : Bool) (bs : Bytes) : Res (Dec × Bytes) := do
  let (x, rest) ← realUnknown (cfg.real false dbl) bs
  assertWeak cfg.checked (endOfItem rest) .invalidEndOfValue
  .ok (x.dec, rest)

/-- `parse_value_real<JsonMember, true>`, `daw_json_parse_value.h` L141-143. -/
def parseRealKnown (cfg : Cfg) (dbl : Bool) (r : Range) (after : Bytes) : Res Dec := do
  let x ← realKnown (cfg.real false dbl) r after
  .ok x.dec

/-! ## Literals as strings -/

/-- `skip_quote_when_literal_as_string<literal_as_string>`, `daw_json_parse_value.h` L54-72. -/
def skipQuote (cfg : Cfg) (always : Bool) (bs : Bytes) : Res Bytes :=
  if always then do
    assertWeak cfg.checked (headIs (· == chQuote) bs) .invalidNumberUnexpectedQuoting
    if bs.isEmpty then .ub else .ok bs.tail
  else do
    assertWeak cfg.checked (!bs.isEmpty) .unexpectedEndOfData
    let c ← deref bs
    .ok (if c = chQuote then bs.tail else bs)

/-- `parse_value_signed<JsonMember, false>`, `daw_json_parse_value.h` L192-230, with `LiteralAsStringOpt::Always` or `Maybe`. -/
def parseSignedQ (cfg : Cfg) (always : Bool) (bits : Nat) (rc : Bool) (bs : Bytes) : Res (Int × Bytes) := do
  let b ← skipQuote cfg always bs
  let (sign, b) ← validateSignedFirst cfg b
  let (u, b) ← unsignedNotKnown cfg bits rc b
  let b ← skipQuote cfg always b
  let b ← trim cfg b
  assertWeak cfg.checked (endOfItem b) .invalidEndOfValue
  .ok (toSigned bits u sign, b)

/-- `parse_value_unsigned<JsonMember, false>`, `daw_json_parse_value.h` L252-290, with `LiteralAsStringOpt::Always` or `Maybe`: there
must be something behind the closing quote, L278-282. -/
def parseUnsignedQ (cfg : Cfg) (always : Bool) (bits : Nat) (rc : Bool) (bs : Bytes) : Res (Int × Bytes) := do
  let b ← skipQuote cfg always bs
  assertWeak cfg.checked (!b.isEmpty) .unexpectedEndOfData
  whenChecked cfg do
    let c ← deref b
    ensure (isDigit c) .invalidNumber
  let (u, b) ← unsignedNotKnown cfg bits rc b
  let b ← skipQuote cfg always b
  assertWeak cfg.checked (!b.isEmpty) .unexpectedEndOfData
  assertWeak cfg.checked (endOfItem b) .invalidEndOfValue
  .ok ((u : Int), b)

/-- The text that `parse_value_custom<JsonMember, false>` takes, `daw_json_parse_value.h` L538-574.  For `Any` a string keeps its
opening quote, not the closing one. -/
def customText (cfg : Cfg) (c : CustomKind) (bs : Bytes) : Res (Bytes × Bytes) :=
  match c with
  | .str => do
    let (r, rest) ← skipString cfg false bs
    .ok (r.text, rest)
  | .lit => do
    let (r, rest) ← skipLiteral cfg bs
    .ok (r.text, rest)
  | .any => do
    let ch ← derefEnd cfg bs
    if ch = chQuote then do
      let (r, rest) ← skipString cfg false bs
      .ok (chQuote :: r.text, rest)
    else do
      let (r, rest) ← skipValue cfg false bs
      .ok (r.text, rest)

/-- The test of the first character, `daw_json_parse_value.h` L575-577. -/
def customStart (cfg : Cfg) (text : Bytes) : Res Unit :=
  assertWeak cfg.checked (headIs (fun c => !(c == chLBrack || c == chLBrace)) text) .invalidStartOfValue

/-- `parse_value_custom<JsonMember, false>`, `daw_json_parse_value.h` L538-581. -/
def parseCustom (cfg : Cfg) (c : CustomKind) (bs : Bytes) : Res (Bytes × Bytes) := do
  let (x, rest) ← customText cfg c bs
  customStart cfg x
  .ok (x, rest)

/-- `parse_value_custom<JsonMember, true>`, `daw_json_parse_value.h` L538-581, on the range that `skip_value` returned. -/
def parseCustomKnown (cfg : Cfg) (c : CustomKind) (r : Range) : Res Bytes := do
  let x := if c = .any ∧ r.quoted = true then chQuote :: r.text else r.text
  customStart cfg x
  .ok x

/-- Quotes around a literal with `LiteralAsStringOpt::Always`. -/
def quoteIf (always : Bool) (s : Bytes) : Bytes := if always then chQuote :: (s ++ [chQuote]) else s

/-- `copy_to_iterator<false, EightBitMode>`, `to_daw_json_string.h` L348-357: the characters as they are; with `restrict` others
than 0x20 to 0x7F are an error.  (Simplification: the characters in front of the first such one have been written when the error is
raised.) -/
def writeUnescaped (restrict : Bool) (s : Bytes) : Res Bytes := do
  ensure (!restrict || s.all fun c => decide (0x20 ≤ c.toNat) && decide (c.toNat ≤ 0x7F)) .invalidStringHighASCII
  .ok s

/-- `to_json_string_string_raw`, `to_daw_json_string.h` L816-833, `to_json_string_custom`, L954-980, `to_json_string_unknown`,
L911-917; `seven` is `RestrictedStringOutput::OnlyAllow7bitsStrings`.  A time point is not text, nor is
a real or a quoted literal. -/
def writeTxt (seven : Bool) (k : TxtKind) (s : Bytes) : Res Bytes :=
  match k with
  | .rawStr ah => do
    let x ← writeUnescaped (!ah || seven) s
    .ok (chQuote :: (x ++ [chQuote]))
  | .date | .real .. | .quoted .. => .ub
  | .custom .lit => writeUnescaped seven s
  | .custom _ => do
    let x ← writeUnescaped seven s
    .ok (chQuote :: (x ++ [chQuote]))
  | .raw => writeUnescaped seven s

end Verif
