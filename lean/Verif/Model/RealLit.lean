import Verif.Model.Float
import Verif.Model.Text

/-!
# Reals stored as strings, infinities and NaN

`json_number` of `double` or `float` with `LiteralAsStringOpt::Always` or `Maybe`, and with `JsonNumberErrors`: `parse_value_real`,
`daw_json_parse_value.h` L74-175, and `to_json_string_real`, `to_daw_json_string.h` L557-615, in compile-time execution mode.
-/

namespace Verif

/-- `JsonNumberErrors`, `daw_json_type_options.h` L72-82: whether NaN and whether infinities may be written and read. -/
structure NumErrs where
  nan : Bool
  inf : Bool
  deriving DecidableEq, Repr

/-- `Inf` as bytes, `daw_json_parse_value.h` L97. -/
def txtInf : Bytes := [0x49, 0x6E, 0x66]

/-- `inity"` as bytes, `daw_json_parse_value.h` L102. -/
def txtInity : Bytes := [0x69, 0x6E, 0x69, 0x74, 0x79, 0x22]

/-- `NaN` as bytes, `daw_json_parse_value.h` L128. -/
def txtNaN : Bytes := [0x4E, 0x61, 0x4E]

/-- `starts_with`, `daw_json_parse_policy.h` L308-319. -/
def startsWith (p bs : Bytes) : Bool := p.isPrefixOf bs

/-- What follows `Inf`: the closing quote, or `inity` and the closing quote, `daw_json_parse_value.h` L99-107. -/
def afterInf (b : Bytes) : Res Bytes := do
  let c ← deref b
  if c = chQuote then .ok b.tail
  else if startsWith txtInity b then .ok (b.drop 6)
  else .err .invalidString

/-- `parse_state.size( ) >= 4 and parse_state.starts_with( "Inf" )` and what follows, `daw_json_parse_value.h` L96-118; nothing if it is not
there.  `known` is `KnownBounds`. -/
def infBody (cfg : RCfg) (known neg : Bool) (b : Bytes) : Res (Option (FVal × Bytes)) :=
  if 4 ≤ b.length ∧ startsWith txtInf b = true then do
    let r ← afterInf (b.drop 3)
    assertWeak cfg.checked (if known then r.isEmpty else endOfItem r) (if known then .invalidNumber else .invalidEndOfValue)
    .ok (some (.inf neg, r))
  else .ok none

/-- The sign and the infinity, `daw_json_parse_value.h` L86-122; `front` is the character at the start of `b`, which is read even if
`b` is empty. -/
def infAt (cfg : RCfg) (known : Bool) (front : Res UInt8) (b : Bytes) : Res (Option (FVal × Bytes)) := do
  let c ← front
  if c = chMinus then infBody cfg known true b.tail else infBody cfg known false b

/-- `move_to_next_of<'"'>`, `daw_json_parse_policy_no_comments.h` L94-133, behind `NaN`: a zero terminated or unchecked range is not
looked at for its end. -/
def nextQuote (cfg : RCfg) : Bytes → Res Bytes
  | [] => if cfg.skipEnd then .ub else .err .unexpectedEndOfData
  | c :: cs => if c = chQuote then .ok (c :: cs) else nextQuote cfg cs

/-- `NaN`, `daw_json_parse_value.h` L128-140, where the range is not known. -/
def nanAt (cfg : RCfg) (b : Bytes) : Res (Option (FVal × Bytes)) :=
  if startsWith txtNaN b = true then do
    let r ← nextQuote cfg b
    assertWeak cfg.checked (endOfItem r.tail) .invalidEndOfValue
    .ok (some (.nan, r.tail))
  else .ok none

/-- The same in a known range; `after` is the memory behind it. -/
def nanKnown (cfg : RCfg) (text after : Bytes) : Res (Option FVal) :=
  if startsWith txtNaN text = true then do
    let r ← nextQuote cfg (if cfg.skipEnd then text ++ after else text)
    assertWeak cfg.checked (if cfg.skipEnd then decide (r.tail.length ≤ after.length) else r.tail.isEmpty) .invalidNumber
    .ok (some .nan)
  else .ok none

/-- The number with its closing quote, `daw_json_parse_value.h` L145-173. -/
def quotedNumber (F : FFmt) (fc : Bytes → CharsRes) (cfg : RCfg) (always : Bool) (b : Bytes) : Res (FVal × Bytes) := do
  let (v, b) ← readFloat F fc false cfg b
  let b ← skipQuote cfg.base always b
  assertWeak cfg.checked (endOfItem b) .invalidEndOfValue
  .ok (v, b)

/-- A special value if there is one, the number otherwise. -/
def orElse (x : Res (Option (FVal × Bytes))) (y : Res (FVal × Bytes)) : Res (FVal × Bytes) := do
  match ← x with
  | some v => .ok v
  | none => y

/-- `parse_value_real<JsonMember, false>`, `daw_json_parse_value.h` L74-175, with `LiteralAsStringOpt::Always` or `Maybe`. -/
def parseRealQ (F : FFmt) (fc : Bytes → CharsRes) (cfg : RCfg) (always : Bool) (ne : NumErrs) (bs : Bytes) : Res (FVal × Bytes) := do
  let b ← skipQuote cfg.base always bs
  orElse (if ne.inf then infAt cfg false (derefZ cfg.zt b) b else .ok none)
    (orElse (if ne.nan then nanAt cfg b else .ok none) (quotedNumber F fc cfg always b))

/-- The number in a known range, `daw_json_parse_value.h` L145-161.  `after` is the memory behind the range: a closing quote if the value is a
string.  (Simplification: the number is read from the memory rather than from the range.  The reader stops at the quote as it would
at the end of the range, except that a number that fills the range is left to `strtod` in precise mode.) -/
def knownNumber (F : FFmt) (fc : Bytes → CharsRes) (cfg : RCfg) (text after : Bytes) : Res FVal := do
  let (v, r) ← readFloat F fc false cfg (text ++ after)
  assertWeak cfg.checked (decide (r.length ≤ after.length) || endOfItem r) .invalidEndOfValue
  .ok v

/-- `parse_value_real<JsonMember, true>`, `daw_json_parse_value.h` L74-175, with `LiteralAsStringOpt::Always` or `Maybe`, on the range of a
member found before its turn: the text between the quotes of a string, or the text of a number. -/
def parseRealQKnown (F : FFmt) (fc : Bytes → CharsRes) (cfg : RCfg) (ne : NumErrs) (text after : Bytes) : Res FVal := do
  match ← (if ne.inf then infAt cfg true (derefZ cfg.zt (text ++ after)) text else .ok none) with
  | some v => .ok v.1
  | none => do
    match ← (if ne.nan then nanKnown cfg text after else .ok none) with
    | some v => .ok v
    | none => knownNumber F fc cfg text after

/-- `to_json_string_real`, `to_daw_json_string.h` L557-615: the value, and for a finite value the decimal that is written for it.
`lit` is `LiteralAsStringOpt`: `none` for `Never`, else whether `Always`. -/
def writeRealQ (dbl : Bool) (fmt : FPFmt) (lit : Option Bool) (ne : NumErrs) (v : FVal) (sig : Nat) (exp : Int) : Res Bytes :=
  match v with
  | .nan => if lit = none ∨ ne.nan = false then .err .numberIsNaN else .ok (chQuote :: (txtNaN ++ [chQuote]))
  | .inf neg =>
    if lit = none ∨ ne.inf = false then .err .numberIsInf
    else .ok (chQuote :: ((if neg then [chMinus] else []) ++ (txtInf ++ txtInity)))
  | .fin neg _ => do
    let t ← toChars dbl fmt neg sig exp
    .ok (quoteIf (lit = some true) t)

end Verif
