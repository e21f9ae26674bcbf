import Verif.Model.Int

/-!
# Writing reals

`to_json_string_real`, `to_chars` (`to_daw_json_string.h`) and the scientific writer of the bundled dragonbox
(`third_party/dragonbox/dragonbox.h`).

The shortest decimal significand and exponent are computed by `dragonbox::to_decimal`
(`third_party/dragonbox/dragonbox_to_decimal.h`), which is not modelled: here a finite real *is* the triple of its
sign, that significand and that exponent.  `daw::cxmath::pow10` and `daw::cxmath::count_digits` belong to
header_libraries, which is not in the repository; they are taken to be what their names say.
-/

namespace Verif

/-- `options::FPOutputFormat`, `daw_json_serialize_options.h`. -/
inductive FPFmt where
  | auto | scientific | decimal
  deriving DecidableEq, Repr

/-- `decimal_length`, `third_party/dragonbox/dragonbox.h` L70-146.  `dbl` selects the branch for `std::uint64_t`
(the significand of a `double`), otherwise the one for `std::uint32_t` (`float`). -/
def decimalLength (dbl : Bool) (v : Nat) : Nat :=
  if dbl then
    if 10000000000000000 ≤ v then 17
    else if 1000000000000000 ≤ v then 16
    else if 100000000000000 ≤ v then 15
    else if 10000000000000 ≤ v then 14
    else if 1000000000000 ≤ v then 13
    else if 100000000000 ≤ v then 12
    else if 10000000000 ≤ v then 11
    else if 1000000000 ≤ v then 10
    else if 100000000 ≤ v then 9
    else if 10000000 ≤ v then 8
    else if 1000000 ≤ v then 7
    else if 100000 ≤ v then 6
    else if 10000 ≤ v then 5
    else if 1000 ≤ v then 4
    else if 100 ≤ v then 3
    else if 10 ≤ v then 2
    else 1
  else
    if 100000000 ≤ v then 9
    else if 10000000 ≤ v then 8
    else if 1000000 ≤ v then 7
    else if 100000 ≤ v then 6
    else if 10000 ≤ v then 5
    else if 1000 ≤ v then 4
    else if 100 ≤ v then 3
    else if 10 ≤ v then 2
    else 1

/-- The local `char buff[50]` of `to_chars`, `to_daw_json_string.h` L1500, L1508, as a map from index to content. -/
abbrev CBuf := Nat → UInt8

/-- `buffer[pos] = c`. -/
def CBuf.put (b : CBuf) (pos : Nat) (c : UInt8) : CBuf := fun j => if j = pos then c else b j

/-- `copy_n( radix_100_table + 2 * t, buffer + olength - back, 2 )`: the two digits of `t < 100`, first the tens.
Reading the table at or after its 200th entry, or writing outside the buffer, is undefined.
`third_party/dragonbox/dragonbox.h` L51-68 (the table), L183-190, L204-207, L213-214. -/
def putPair (olen back t : Nat) (b : CBuf) : Res CBuf :=
  if olen < back ∨ 49 ≤ olen - back ∨ 100 ≤ t then .ub
  else .ok ((b.put (olen - back) (digitChar (t / 10))).put (olen - back + 1) (digitChar (t % 10)))

/-- The cut of eight digits for a significand that does not fit 32 bits, `third_party/dragonbox/dragonbox.h`
L168-192.  Returns the remaining significand, the number of digits written and the buffer. -/
def sciCut (dbl : Bool) (olen v : Nat) (b : CBuf) : Res (Nat × Nat × CBuf) :=
  if dbl ∧ v / 4294967296 ≠ 0 then do
    let q := v / 100000000
    let o := (v % 4294967296 + (4294967296 - 100000000 * (q % 4294967296) % 4294967296)) % 4294967296
    let c := o % 10000
    let o := o / 10000
    let d := o % 10000
    let b ← putPair olen 1 (c % 100) b
    let b ← putPair olen 3 (c / 100) b
    let b ← putPair olen 5 (d % 100) b
    let b ← putPair olen 7 (d / 100) b
    .ok (q, 8, b)
  else .ok (v, 0, b)

/-- The loop of `to_chars_impl` that writes four digits at a time, `third_party/dragonbox/dragonbox.h` L195-209;
returns the remaining significand, the number of digits written and the buffer. -/
def sciLoop (olen o i : Nat) (b : CBuf) : Res (Nat × Nat × CBuf) :=
  if 10000 ≤ o then do
    let c := o % 10000
    let b ← putPair olen (i + 1) (c % 100) b
    let b ← putPair olen (i + 3) (c / 100) b
    sciLoop olen (o / 10000) (i + 4) b
  else .ok (o, i, b)
termination_by o
decreasing_by omega

/-- The last one to four digits, `third_party/dragonbox/dragonbox.h` L210-225. -/
def sciLast (olen o i : Nat) (b : CBuf) : Res CBuf := do
  let (o, i, b) ← if 100 ≤ o then do
      let b ← putPair olen (i + 1) (o % 100) b
      (.ok (o / 100, i + 2, b) : Res (Nat × Nat × CBuf))
    else .ok (o, i, b)
  if 10 ≤ o then
    if olen < i ∨ 50 ≤ olen - i ∨ 100 ≤ o then .ub
    else .ok ((b.put (olen - i) (digitChar (o % 10))).put 0 (digitChar (o / 10)))
  else .ok (b.put 0 (digitChar o))

/-- The exponent after `e`, `third_party/dragonbox/dragonbox.h` L237-273 (`exp` is the scientific exponent).  The
table is read at `2 * ( exp / 10 )` or `2 * exp`, which has to stay inside it. -/
def sciExp (dbl : Bool) (exp : Int) : Res Bytes :=
  let pre : Bytes := if exp < 0 then [chMinus] else []
  let e := exp.natAbs
  if dbl then
    if 100 ≤ e then
      if 100 ≤ e / 10 then .ub
      else .ok (pre ++ [digitChar (e / 10 / 10), digitChar (e / 10 % 10), digitChar (e % 10)])
    else if 10 ≤ e then .ok (pre ++ [digitChar (e / 10), digitChar (e % 10)])
    else .ok (pre ++ [digitChar e])
  else
    if 10 ≤ e then
      if 100 ≤ e then .ub
      else .ok (pre ++ [digitChar (e / 10), digitChar (e % 10)])
    else .ok (pre ++ [digitChar e])

/-- `to_chars_detail::to_chars_impl`, `third_party/dragonbox/dragonbox.h` L149-276, called with
`olength = decimal_length( significand )`, never 0. -/
def sciChars (dbl : Bool) (sig : Nat) (exp : Int) (olen : Nat) : Res Bytes := do
  let (o, i, b) ← sciCut dbl olen sig (fun _ => 0)
  let (o, i, b) ← sciLoop olen (o % 4294967296) i b
  let b ← sciLast olen o i b
  let b := if 1 < olen then b.put 1 chDot else b
  let len := if 1 < olen then olen + 1 else 1
  let x ← sciExp dbl (exp + olen - 1)
  .ok ((List.range len).map b ++ chLe :: x)

/-- `daw::cxmath::count_digits` (header_libraries): the number of decimal digits, 1 for 0. -/
def cxDigits (n : Nat) : Nat := if n < 10 then 1 else 1 + cxDigits (n / 10)

/-- The loop `do { put( '0' ); ++whole_dig; } while( whole_dig < 0 );`, `to_daw_json_string.h` L1519-1522, with
`n = -whole_dig`. -/
def doZeros : Nat → Bytes
  | 0 => [ch0]
  | n + 1 => if n = 0 then [ch0] else ch0 :: doZeros n

/-- The decimal rendering, `to_daw_json_string.h` L1516-1557. -/
def decChars (sig : Nat) (exp whole : Int) : Bytes :=
  if exp < 0 then
    if whole < 0 then [ch0, chDot] ++ (doZeros (-whole).toNat ++ writeUnsigned sig)
    else
      let p1pow := 10 ^ (-exp).toNat
      let p1val := sig / p1pow
      if p1pow = 1 then writeUnsigned p1val
      else
        let p2val := sig - p1val * p1pow
        let extra : Int := (cxDigits sig : Int) - ((cxDigits p2val : Int) + (cxDigits p1val : Int))
        writeUnsigned p1val ++ (chDot :: (List.replicate extra.toNat ch0 ++ writeUnsigned p2val))
  else writeUnsigned sig ++ List.replicate exp.toNat ch0

/-- `json_details::to_chars`, `to_daw_json_string.h` L1472-1559, for the real with this sign and this shortest
decimal significand and exponent. -/
def toChars (dbl : Bool) (fmt : FPFmt) (neg : Bool) (sig : Nat) (exp : Int) : Res Bytes :=
  let digits := decimalLength dbl sig
  let whole : Int := digits + exp
  if sig = 0 then .ok [ch0]
  else
    let pre : Bytes := if neg then [chMinus] else []
    if fmt = .scientific then do
      let t ← sciChars dbl sig exp digits
      .ok (pre ++ t)
    else if fmt = .auto ∧ (whole < -4 ∨ 6 < whole) then do
      let t ← sciChars dbl sig exp digits
      .ok (pre ++ t)
    else .ok (pre ++ decChars sig exp whole)

end Verif
