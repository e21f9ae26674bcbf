import Verif.Model.DragonboxCache
import Verif.Model.RealOut

/-!
# Dragonbox: the decimal that is written for a double

`to_decimal` of `third_party/dragonbox/dragonbox_to_decimal.h` as `to_chars` of `to_daw_json_string.h` L1476-1478 calls it: sign ignored,
trailing zeros removed, nearest to even in both directions, full table.  All line numbers are of `dragonbox_to_decimal.h`.
Unsigned integers are natural numbers with the reductions modulo `2^64` and `2^32` written out.
-/

namespace Verif

/-- `log::floor_shift` and `log::compute`, L557-591, with the constant `c` already shifted: `floor( e * c - s )`. -/
def dbLog (c s : Int) (sh : Nat) (e : Int) : Int := (e * c - s) / 2 ^ sh

/-- `floor_shift( integer_part, fractional_digits, shift_amount )`, L557-573. -/
def dbShift (i f sh : Nat) : Nat := i * 2 ^ sh + f / 2 ^ (64 - sh)

/-- `floor_log10_pow2`, L617-622. -/
def floorLog10Pow2 (e : Int) : Int := dbLog (dbShift 0 0x4d104d427de7fbcc 22) 0 22 e

/-- `floor_log2_pow10`, L624-628. -/
def floorLog2Pow10 (e : Int) : Int := dbLog (dbShift 3 0x5269e12f346e2bf9 19) 0 19 e

/-- `floor_log10_pow2_minus_log10_4_over_3`, L644-650. -/
def floorLog10Pow2Minus (e : Int) : Int := dbLog (dbShift 0 0x4d104d427de7fbcc 22) (dbShift 0 0x1ffbfc2bbc780375 22) 22 e

/-- `wuint::umul128_upper64`, L440-492. -/
def umul128Upper (x y : Nat) : Nat := x * y / 2 ^ 64

/-- `wuint::umul192_upper64`, L496-501. -/
def umul192Upper (x : Nat) (y : Nat × Nat) : Nat := (x * y.1 + umul128Upper x y.2) / 2 ^ 64 % 2 ^ 64

/-- `wuint::umul192_middle64`, L512-518. -/
def umul192Middle (x : Nat) (y : Nat × Nat) : Nat := (x * y.1 % 2 ^ 64 + umul128Upper x y.2) % 2 ^ 64

/-- `policy_impl::cache::normal::get_cache`, L2119-2131: the entry of the table for `10^k`. -/
def dbGet (k : Int) : Nat × Nat := dbCache.getD (k + 292).toNat (0, 0)

/-- `modular_inverse<UInt, 5>`, L658-676, `w` bits: `i` runs from 1 to `w - 1`. -/
def modInv5 (w : Nat) : Nat → Nat
  | 0 => 1
  | i + 1 => modInv5 w i * modInv5 w i % 2 ^ w * 5 % 2 ^ w

/-- `table_holder<UInt, 5, N>::table.mod_inv`, L688-706. -/
def modInvPow5 (w : Nat) : Nat → Nat
  | 0 => 1
  | i + 1 => modInvPow5 w i * modInv5 w (w - 1) % 2 ^ w

/-- `table_holder<UInt, 5, N>::table.max_quotients`, L688-706. -/
def maxQuot5 (w i : Nat) : Nat := (2 ^ w - 1) / 5 ^ i

/-- `divisible_by_power_of_5`, L708-715. -/
def divisibleBy5 (x i : Nat) : Bool := decide (x * modInvPow5 64 i % 2 ^ 64 ≤ maxQuot5 64 i)

/-- `daw::cxmath::count_trailing_zeros`, used in L721 and L2880: the number of zero bits below the lowest bit that is set, `n` at most. -/
def ctz : Nat → Nat → Nat
  | 0, _ => 0
  | n + 1, x => if x % 2 = 0 then ctz n (x / 2) + 1 else 0

/-- `is_product_integer<fc_pm_half>`, L3093-3110. -/
def isIntHalf (f : Nat) (e mk : Int) : Bool :=
  if e < -2 then false
  else if e ≤ 9 then true
  else if 86 < e then false
  else divisibleBy5 f mk.toNat

/-- `is_product_integer<fc>`, L3111-3133. -/
def isIntFc (f : Nat) (e mk : Int) : Bool :=
  if 86 < e then false
  else if 9 < e then divisibleBy5 f mk.toNat
  else if -4 ≤ e then true
  else decide ((mk - e + 1).toNat ≤ ctz 64 f)

/-- `compute_delta`, L3006-3014. -/
def dbDelta (c : Nat × Nat) (b : Nat) : Nat := c.1 / 2 ^ (63 - b) % 2 ^ 32

/-- `compute_mul_parity`, L3016-3031. -/
def mulParity (f : Nat) (c : Nat × Nat) (b : Nat) : Bool := umul192Middle f c / 2 ^ (64 - b) % 2 == 1

/-- `divide_by_pow10<3, ...>`, L803-822. -/
def div1000 (n : Nat) : Nat := umul128Upper n 0x83126e978d4fdf3c / 2 ^ 9

/-- `small_division_by_pow10<2>`, L785-797. -/
def smallDiv100 (n : Nat) : Nat := n * 0xa3d8 % 2 ^ 32 / 2 ^ 22

/-- `check_divisibility_and_divide_by_pow5<2>`, L747-773. -/
def checkDiv25 (n : Nat) : Bool × Nat :=
  let m := n * 0xa429 % 2 ^ 32
  (decide (m % 2 ^ 8 ≤ 0x0a), m / 2 ^ 20)

/-- The loop of `remove_trailing_zeros` for multiples of `10^8`, L2916-2921: `left` is `t - s`, `inv` the
inverse of 5 modulo `2^32`; the quotient and `s`. -/
def rtzLoop (inv : Nat) : Nat → Nat → Nat → Nat × Nat
  | 0, s, q => (q, s)
  | left + 1, s, q =>
    let q' := q * inv % 2 ^ 32
    if (2 ^ 32 - 1) / 5 < q' then (q, s) else rtzLoop inv left (s + 1) q'

/-- The second half of `remove_trailing_zeros`, L2929-2983: `j` zeros are removed from the remainder so far.  (For `j = 0` the code leaves
`n` as it is.) -/
def rtzRem (inv t q : Nat) : Nat → Nat → Nat → Nat × Nat
  | 0, j, r => (r / 2 ^ j + q * 10 ^ (8 - j) % 2 ^ 64, j)
  | left + 1, j, r =>
    let r' := r * inv % 2 ^ 32
    if t = j ∨ (2 ^ 32 - 1) / 5 < r' then (r / 2 ^ j + q * 10 ^ (8 - j) % 2 ^ 64, j) else rtzRem inv t q left (j + 1) r'

/-- `remove_trailing_zeros`, L2862-2985: the number without the zeros, and how many there were. -/
def removeZeros (n : Nat) : Nat × Nat :=
  let t := min (ctz 64 n) 16
  let c := n * modInvPow5 64 8 % 2 ^ 64
  if 8 ≤ t ∧ c ≤ maxQuot5 64 8 then
    let (q, s) := rtzLoop (modInvPow5 64 1 % 2 ^ 32) (t - 8) 8 (c / 2 ^ 8 % 2 ^ 32)
    (q / 2 ^ (s - 8), s)
  else
    let q := n / 10 ^ 8 % 2 ^ 32
    let r := (n % 2 ^ 32 + 2 ^ 32 - 10 ^ 8 * q % 2 ^ 32) % 2 ^ 32
    rtzRem (modInvPow5 64 1 % 2 ^ 32) t q 7 0 r

/-- `break_rounding_tie` of `correct_rounding::to_even`, L2078-2082. -/
def breakTie (n : Nat) : Nat := if n % 2 = 0 then n else n - 1

/-- What is added to the significand in step 3 of `compute_nearest` and whether it is one too many, L2502-2563. -/
def smallPart (fc : Nat) (e mk : Int) (c : Nat × Nat) (b delta base r : Nat) : Nat :=
  let dist := (r + 2 ^ 32 - delta / 2 + 50) % 2 ^ 32
  if dist % 4 = 0 then
    let par := (dist ^^^ 50) % 2 == 1
    let (div, d) := checkDiv25 (dist / 4)
    if div then
      if mulParity (2 * fc) c b != par then base + d - 1
      else if isIntFc (2 * fc) e mk then breakTie (base + d)
      else base + d
    else base + d
  else base + smallDiv100 dist

/-- Step 3 of `compute_nearest`, L2475-2566: significand and exponent. -/
def smallCase (fc : Nat) (e mk : Int) (c : Nat × Nat) (b delta s r : Nat) : Nat × Int :=
  (smallPart fc e mk c b delta (s * 10 % 2 ^ 64) r, mk + 2)

/-- The end of step 2 of `compute_nearest`, L2602-2606. -/
def bigCase (mk : Int) (s : Nat) : Nat × Int :=
  let (n, z) := removeZeros s
  (n, mk + 3 + z)

/-- `compute_nearest` behind the distinction of cases, L2440-2607; `fc` is the significand, `closed` the interval type. -/
def dbNormal (fc : Nat) (e : Int) (closed : Bool) : Nat × Int :=
  let mk := floorLog10Pow2 e - 2
  let c := dbGet (-mk)
  let b := (e + floorLog2Pow10 (-mk)).toNat
  let delta := dbDelta c b
  let zi := umul192Upper ((2 * fc + 1) * 2 ^ b % 2 ^ 64) c
  let s := div1000 zi
  let r := (zi + 2 ^ 64 - 1000 * s % 2 ^ 64) % 2 ^ 32
  if delta < r then smallCase fc e mk c b delta s r
  else if r < delta then
    if r = 0 ∧ closed = false ∧ isIntHalf (2 * fc + 1) e mk = true then smallCase fc e mk c b delta (s - 1) 1000
    else bigCase mk s
  else if (closed = false ∨ isIntHalf (2 * fc - 1) e mk = false) ∧ mulParity (2 * fc - 1) c b = false then smallCase fc e mk c b delta s r
  else bigCase mk s

/-- `compute_left_endpoint_for_shorter_interval_case`, L3033-3044, and whether it is an integer, L3081-3087: the interval is closed. -/
def shortLeft (c : Nat × Nat) (b : Nat) (e : Int) : Nat :=
  let x := (c.1 - c.1 / 2 ^ 54) / 2 ^ (64 - 52 - 1 - b)
  if 2 ≤ e ∧ e ≤ 3 then x else x + 1

/-- `compute_right_endpoint_for_shorter_interval_case`, L3046-3058: the interval is closed. -/
def shortRight (c : Nat × Nat) (b : Nat) : Nat := (c.1 + c.1 / 2 ^ 53) % 2 ^ 64 / 2 ^ (64 - 52 - 1 - b)

/-- `compute_round_up_for_shorter_interval_case`, L3060-3073. -/
def shortRound (c : Nat × Nat) (b : Nat) : Nat := (c.1 / 2 ^ (64 - 52 - 2 - b) + 1) / 2

/-- `shorter_interval_case`, L2609-2672. -/
def dbShorter (e : Int) : Nat × Int :=
  let mk := floorLog10Pow2Minus e
  let b := (e + floorLog2Pow10 (-mk)).toNat
  let c := dbGet (-mk)
  let xi := shortLeft c b e
  let zi := shortRight c b
  let s := zi / 10
  if xi ≤ s * 10 then
    let (n, z) := removeZeros s
    (n, mk + 1 + z)
  else
    let y := shortRound c b
    (if -77 ≤ e ∧ e ≤ -77 then breakTie y else if y < xi then y + 1 else y, mk)

/-- `to_decimal`, L3357-3385, and `compute_nearest`, L2408-2440, on the bits of a double: decimal significand and exponent. -/
def toDecimal (u : Nat) : Nat × Int :=
  let s : Nat := u % 2 ^ 52
  let x : Nat := u / 2 ^ 52 % 2 ^ 11
  if x ≠ 0 then
    if s = 0 then dbShorter ((x : Int) - 1023 - 52) else dbNormal (s + 2 ^ 52) ((x : Int) - 1023 - 52) (decide (u % 2 = 0))
  else dbNormal s (-1022 - 52) (decide (u % 2 = 0))

/-- `to_chars`, `to_daw_json_string.h` L1472-1560, on the bits of a finite double. -/
def writeDouble (fmt : FPFmt) (u : Nat) : Res Bytes := toChars true fmt (decide (u / 2 ^ 63 % 2 = 1)) (toDecimal u).1 (toDecimal u).2

end Verif
