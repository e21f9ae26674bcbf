import Verif.Model.RealIn
import Verif.Spec.Float

/-!
# The floating point part of reading reals

`power10`, `daw_json_parse_real_power10.h`, and `parse_with_strtod`, `daw_fp_fallback.h`, on `double` and `float`.

The multiplications, divisions and conversions of the compiler are taken to be those of IEEE 754 with rounding to nearest, ties to even, without
excess precision.  `std::from_chars` is a parameter.
-/

namespace Verif

/-- `a / b` rounded to the nearest integer, ties to even: part of the arithmetic used in `daw_json_parse_real_power10.h` L76-127, see `roundTo`. -/
def roundHalfEven (a b : Nat) : Nat :=
  if 2 * (a % b) < b then a / b
  else if b < 2 * (a % b) then a / b + 1
  else if (a / b) % 2 = 0 then a / b
  else a / b + 1

/-- The number `± ( a / b ) × 2^-emin` rounded to the format, IEEE 754 `roundTiesToEven`: what the arithmetic on
`Result` in `daw_json_parse_real_power10.h` L76-127 and `daw_json_parse_real.h` L267-275, L466-477 does. -/
def roundTo (F : FFmt) (neg : Bool) (a b : Nat) : FVal :=
  let s := (a / b).log2 + 1 - F.prec
  let m := roundHalfEven a (b * 2 ^ s) * 2 ^ s
  if m < 2 ^ (F.top + F.emin) then .fin neg m else .inf neg

/-- `static_cast<Result>( n )` of an unsigned integer, `daw_json_parse_real.h` L275 and L477. -/
def ofNatF (F : FFmt) (n : Nat) : FVal := roundTo F false (n * 2 ^ F.emin) 1

/-- `static_cast<float>( x )` of a `double`, `daw_json_parse_real_power10.h` L83-84 and L98-124. -/
def castF (F : FFmt) : FVal → FVal
  | .fin n m => roundTo F n (m * 2 ^ F.emin) (2 ^ f64.emin)
  | .inf n => .inf n
  | .nan => .nan

/-- `x * y`, IEEE 754 multiplication, `daw_json_parse_real_power10.h` L93-101, L126. -/
def mulF (F : FFmt) : FVal → FVal → FVal
  | .nan, _ => .nan
  | _, .nan => .nan
  | .inf a, .inf b => .inf (a != b)
  | .inf a, .fin b m => if m = 0 then .nan else .inf (a != b)
  | .fin a m, .inf b => if m = 0 then .nan else .inf (a != b)
  | .fin a m, .fin b n => roundTo F (a != b) (m * n) (2 ^ F.emin)

/-- `x / y`, IEEE 754 division, `daw_json_parse_real_power10.h` L109-124. -/
def divF (F : FFmt) : FVal → FVal → FVal
  | .nan, _ => .nan
  | _, .nan => .nan
  | .inf _, .inf _ => .nan
  | .inf a, .fin b _ => .inf (a != b)
  | .fin a _, .inf b => .fin (a != b) 0
  | .fin a m, .fin b n => if n = 0 then (if m = 0 then .nan else .inf (a != b)) else roundTo F (a != b) (m * 2 ^ F.emin) n

/-- `static_cast<Result>( dpow10_tbl[i] )`, `daw_json_parse_real_power10.h` L27-58: the literals `1e0` … `1e308` of type `double`. -/
def pow10Tbl (F : FFmt) (i : Nat) : FVal := if F = f64 then ofNatF f64 (10 ^ i) else castF F (ofNatF f64 (10 ^ i))

/-- `max_v`, `daw_json_parse_real_power10.h` L83-84. -/
def maxV (F : FFmt) : FVal := pow10Tbl F F.max10

/-- The loop for large exponents and `exp2 * dpow10_tbl[p]`, `daw_json_parse_real_power10.h` L93-101; `exp2` and `p` so far. -/
def powUp (F : FFmt) (exp2 : FVal) (p : Nat) : FVal :=
  if _h : 0 < F.max10 ∧ F.max10 < p then powUp F (mulF F exp2 (maxV F)) (p - F.max10)
  else mulF F exp2 (pow10Tbl F p)
termination_by p

/-- The loop for small exponents and the last two divisions, `daw_json_parse_real_power10.h` L109-118; `result` and `-p` so far. -/
def powDown (F : FFmt) (result : FVal) (p : Nat) : FVal :=
  if _h : 0 < F.max10 ∧ F.max10 < p then powDown F (divF F result (maxV F)) (p - F.max10)
  else divF F (divF F result (pow10Tbl F p)) (maxV F)
termination_by p

/-- `power10( constexpr_exec_tag, result, p )`, `daw_json_parse_real_power10.h` L76-127.  (The cast of the exponent to 32 bits in the other
overload, L131-137, is part of `finish`.) -/
def power10 (F : FFmt) (result : FVal) (p : Int) : FVal :=
  if (F.max10 : Int) < p then
    if (F.top : Int) < p then .inf false
    else mulF F result (powUp F (maxV F) (p.toNat - F.max10))
  else if p < -(F.max10 : Int) then
    if p < -(F.bot : Int) then .fin false 0
    else powDown F result ((-p).toNat - F.max10)
  else if p < 0 then divF F result (pow10Tbl F (-p).toNat)
  else mulF F result (pow10Tbl F p.toNat)

/-- What `std::from_chars` says, as distinguished in `daw_fp_fallback.h` L48-59: a result, `errc::result_out_of_range`, or another error. -/
inductive CharsRes where
  | val (v : FVal)
  | outOfRange
  | invalid
  deriving DecidableEq, Repr

/-- `parse_with_strtod`, `daw_fp_fallback.h` L33-61, without `DAW_JSON_USE_STRTOD`. -/
def parseWithStrtod (fromChars : Bytes → CharsRes) (txt : Bytes) : Res FVal :=
  match fromChars txt with
  | .outOfRange => do
    let c ← deref txt
    .ok (.inf (c == chMinus))
  | .val v => .ok v
  | .invalid => .err .invalidNumber

/-- `static_cast<Result>( -1.0 )` or `1.0`, `daw_json_parse_real.h` L267-275 and L466-477. -/
def signF (F : FFmt) (sign : Int) : FVal := .fin (decide (sign < 0)) (2 ^ F.emin)

/-- The result of `parse_real`, `daw_json_parse_real.h` L267-275 and L466-477. -/
def realValue (F : FFmt) (fromChars : Bytes → CharsRes) : RealOut → Res FVal
  | .calc sign sig exp => .ok (mulF F (signF F sign) (power10 F (ofNatF F sig) exp))
  | .strtod txt => parseWithStrtod fromChars txt

/-- `parse_real<Result, KnownRange>`, `daw_json_parse_real.h` L480-490, see `readReal`. -/
def readFloat (F : FFmt) (fromChars : Bytes → CharsRes) (located : Bool) (cfg : RCfg) (bs : Bytes) : Res (FVal × Bytes) := do
  let (o, rest) ← readReal located cfg bs
  let v ← realValue F fromChars o
  .ok (v, rest)

end Verif
