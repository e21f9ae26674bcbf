import Verif.Model.Dragonbox

/-!
# Dragonbox: the decimal that is written for a float

The instance of `to_decimal` of `third_party/dragonbox/dragonbox_to_decimal.h` for `float`: `kappa` is 1 (L2327), numbers have 32 bits and the entries
of the table 64.  All line numbers are of `dragonbox_to_decimal.h`.  Unsigned integers are natural numbers with the reductions modulo `2^64` and `2^32`
written out.
-/

namespace Verif

/-- `cache_holder<ieee754_format::binary32>::cache`, L893-925. -/
def dfCache : List Nat := [
  0x81ceb32c4b43fcf5, 0xa2425ff75e14fc32, 0xcad2f7f5359a3b3f, 0xfd87b5f28300ca0e,
  0x9e74d1b791e07e49, 0xc612062576589ddb, 0xf79687aed3eec552, 0x9abe14cd44753b53,
  0xc16d9a0095928a28, 0xf1c90080baf72cb2, 0x971da05074da7bef, 0xbce5086492111aeb,
  0xec1e4a7db69561a6, 0x9392ee8e921d5d08, 0xb877aa3236a4b44a, 0xe69594bec44de15c,
  0x901d7cf73ab0acda, 0xb424dc35095cd810, 0xe12e13424bb40e14, 0x8cbccc096f5088cc,
  0xafebff0bcb24aaff, 0xdbe6fecebdedd5bf, 0x89705f4136b4a598, 0xabcc77118461cefd,
  0xd6bf94d5e57a42bd, 0x8637bd05af6c69b6, 0xa7c5ac471b478424, 0xd1b71758e219652c,
  0x83126e978d4fdf3c, 0xa3d70a3d70a3d70b, 0xcccccccccccccccd, 0x8000000000000000,
  0xa000000000000000, 0xc800000000000000, 0xfa00000000000000, 0x9c40000000000000,
  0xc350000000000000, 0xf424000000000000, 0x9896800000000000, 0xbebc200000000000,
  0xee6b280000000000, 0x9502f90000000000, 0xba43b74000000000, 0xe8d4a51000000000,
  0x9184e72a00000000, 0xb5e620f480000000, 0xe35fa931a0000000, 0x8e1bc9bf04000000,
  0xb1a2bc2ec5000000, 0xde0b6b3a76400000, 0x8ac7230489e80000, 0xad78ebc5ac620000,
  0xd8d726b7177a8000, 0x878678326eac9000, 0xa968163f0a57b400, 0xd3c21bcecceda100,
  0x84595161401484a0, 0xa56fa5b99019a5c8, 0xcecb8f27f4200f3a, 0x813f3978f8940984,
  0xa18f07d736b90be5, 0xc9f2c9cd04674ede, 0xfc6f7c4045812296, 0x9dc5ada82b70b59d,
  0xc5371912364ce305, 0xf684df56c3e01bc6, 0x9a130b963a6c115c, 0xc097ce7bc90715b3,
  0xf0bdc21abb48db20, 0x96769950b50d88f4, 0xbc143fa4e250eb31, 0xeb194f8e1ae525fd,
  0x92efd1b8d0cf37be, 0xb7abc627050305ad, 0xe596b7b0c643c719, 0x8f7e32ce7bea5c6f,
  0xb35dbf821ae4f38b, 0xe0352f62a19e306e]

/-- `policy_impl::cache::normal::get_cache`, L2119-2131: the entry of the table for `10^k`. -/
def dfGet (k : Int) : Nat := dfCache.getD (k + 31).toNat 0

/-- `wuint::umul96_upper32`, L509-512. -/
def umul96Upper (x y : Nat) : Nat := umul128Upper x y % 2 ^ 32

/-- `wuint::umul96_lower64`, L525-528. -/
def umul96Lower (x y : Nat) : Nat := x * y % 2 ^ 64

/-- `divisible_by_power_of_5`, L708-715, with 32 bits. -/
def dfDivisibleBy5 (x i : Nat) : Bool := decide (x * modInvPow5 32 i % 2 ^ 32 ≤ maxQuot5 32 i)

/-- `is_product_integer<fc_pm_half>`, L3093-3110; the thresholds are those of L2356-2364. -/
def dfIsHalf (f : Nat) (e mk : Int) : Bool :=
  if e < -1 then false
  else if e ≤ 6 then true
  else if 39 < e then false
  else dfDivisibleBy5 f mk.toNat

/-- `is_product_integer<fc>`, L3111-3133; the thresholds are those of L2356-2369. -/
def dfIsFc (f : Nat) (e mk : Int) : Bool :=
  if 39 < e then false
  else if 6 < e then dfDivisibleBy5 f mk.toNat
  else if -2 ≤ e then true
  else decide ((mk - e + 1).toNat ≤ ctz 32 f)

/-- `compute_delta`, L3006-3014. -/
def dfDelta (c b : Nat) : Nat := c / 2 ^ (63 - b) % 2 ^ 32

/-- `compute_mul_parity`, L3016-3031. -/
def dfParity (f c b : Nat) : Bool := umul96Lower f c / 2 ^ (64 - b) % 2 == 1

/-- `small_division_by_pow10<1>`, L785-797. -/
def smallDiv10 (n : Nat) : Nat := n * 0xcccd % 2 ^ 32 / 2 ^ 19

/-- `check_divisibility_and_divide_by_pow5<1>`, L747-773. -/
def checkDiv5 (n : Nat) : Bool × Nat :=
  let m := n * 0xcccd % 2 ^ 32
  (decide (m % 2 ^ 16 ≤ 0x3333), m / 2 ^ 18)

/-- The loop of `remove_trailing_zeros`, L2889-2895: `inv2` is the inverse of 25 modulo `2^32`, `fuel` bounds the number of steps, which is at most 4. -/
def rtzPairs (inv2 t : Nat) : Nat → Nat → Nat → Nat × Nat
  | 0, s, n => (n, s)
  | fuel + 1, s, n =>
    if s + 1 < t then
      if maxQuot5 32 2 < n * inv2 % 2 ^ 32 then (n, s) else rtzPairs inv2 t fuel (s + 2) (n * inv2 % 2 ^ 32)
    else (n, s)

/-- `remove_trailing_zeros`, L2896-2902, behind the loop: `inv1` is the inverse of 5 modulo `2^32`. -/
def rtzOdd (inv1 t : Nat) (x : Nat × Nat) : Nat × Nat :=
  if x.2 < t ∧ x.1 * inv1 % 2 ^ 32 ≤ maxQuot5 32 1 then (x.1 * inv1 % 2 ^ 32 / 2 ^ (x.2 + 1), x.2 + 1) else (x.1 / 2 ^ x.2, x.2)

/-- `remove_trailing_zeros`, L2862-2902: the number without the zeros, and how many there were. -/
def dfRemoveZeros (n : Nat) : Nat × Nat :=
  rtzOdd (modInvPow5 32 1) (min (ctz 32 n) 7) (rtzPairs (modInvPow5 32 2) (min (ctz 32 n) 7) 4 0 n)

/-- What is added to the significand in step 3 of `compute_nearest` and whether it is one too many, L2502-2563. -/
def dfSmallPart (fc : Nat) (e mk : Int) (c b delta base r : Nat) : Nat :=
  let dist := (r + 2 ^ 32 - delta / 2 + 5) % 2 ^ 32
  if dist % 2 = 0 then
    let par := (dist ^^^ 5) % 2 == 1
    let (div, d) := checkDiv5 (dist / 2)
    if div then
      if dfParity (2 * fc) c b != par then base + d - 1
      else if dfIsFc (2 * fc) e mk then breakTie (base + d)
      else base + d
    else base + d
  else base + smallDiv10 dist

/-- Step 3 of `compute_nearest`, L2475-2566: significand and exponent. -/
def dfSmallCase (fc : Nat) (e mk : Int) (c b delta s r : Nat) : Nat × Int :=
  (dfSmallPart fc e mk c b delta (s * 10 % 2 ^ 32) r, mk + 1)

/-- The end of step 2 of `compute_nearest`, L2602-2606. -/
def dfBigCase (mk : Int) (s : Nat) : Nat × Int :=
  let (n, z) := dfRemoveZeros s
  (n, mk + 2 + z)

/-- `compute_nearest` behind the distinction of cases, L2440-2607; `fc` is the significand, `closed` the interval type. -/
def dfNormal (fc : Nat) (e : Int) (closed : Bool) : Nat × Int :=
  let mk := floorLog10Pow2 e - 1
  let c := dfGet (-mk)
  let b := (e + floorLog2Pow10 (-mk)).toNat
  let delta := dfDelta c b
  let zi := umul96Upper ((2 * fc + 1) * 2 ^ b % 2 ^ 32) c
  let s := zi / 100
  let r := (zi + 2 ^ 32 - 100 * s % 2 ^ 32) % 2 ^ 32
  if delta < r then dfSmallCase fc e mk c b delta s r
  else if r < delta then
    if r = 0 ∧ closed = false ∧ dfIsHalf (2 * fc + 1) e mk = true then dfSmallCase fc e mk c b delta (s - 1) 100
    else dfBigCase mk s
  else if (closed = false ∨ dfIsHalf (2 * fc - 1) e mk = false) ∧ dfParity (2 * fc - 1) c b = false then dfSmallCase fc e mk c b delta s r
  else dfBigCase mk s

/-- `compute_left_endpoint_for_shorter_interval_case`, L3033-3044, and whether it is an integer, L3081-3087: the interval is closed. -/
def dfShortLeft (c b : Nat) (e : Int) : Nat :=
  let x := (c - c / 2 ^ 25) / 2 ^ (64 - 23 - 1 - b) % 2 ^ 32
  if 2 ≤ e ∧ e ≤ 3 then x else x + 1

/-- `compute_right_endpoint_for_shorter_interval_case`, L3046-3058: the interval is closed. -/
def dfShortRight (c b : Nat) : Nat := (c + c / 2 ^ 24) % 2 ^ 64 / 2 ^ (64 - 23 - 1 - b) % 2 ^ 32

/-- `compute_round_up_for_shorter_interval_case`, L3060-3073. -/
def dfShortRound (c b : Nat) : Nat := (c / 2 ^ (64 - 23 - 2 - b) % 2 ^ 32 + 1) % 2 ^ 32 / 2

/-- `shorter_interval_case`, L2609-2672. -/
def dfShorter (e : Int) : Nat × Int :=
  let mk := floorLog10Pow2Minus e
  let b := (e + floorLog2Pow10 (-mk)).toNat
  let c := dfGet (-mk)
  let xi := dfShortLeft c b e
  let zi := dfShortRight c b
  let s := zi / 10
  if xi ≤ s * 10 then
    let (n, z) := dfRemoveZeros s
    (n, mk + 1 + z)
  else
    let y := dfShortRound c b
    (if -35 ≤ e ∧ e ≤ -35 then breakTie y else if y < xi then y + 1 else y, mk)

/-- `to_decimal`, L3357-3385, and `compute_nearest`, L2408-2440, on the bits of a float: decimal significand and exponent. -/
def toDecimalF (u : Nat) : Nat × Int :=
  let s : Nat := u % 2 ^ 23
  let x : Nat := u / 2 ^ 23 % 2 ^ 8
  if x ≠ 0 then
    if s = 0 then dfShorter ((x : Int) - 127 - 23) else dfNormal (s + 2 ^ 23) ((x : Int) - 127 - 23) (decide (u % 2 = 0))
  else dfNormal s (-126 - 23) (decide (u % 2 = 0))

/-- `to_chars`, `to_daw_json_string.h` L1472-1560, on the bits of a finite float. -/
def writeFloat (fmt : FPFmt) (u : Nat) : Res Bytes := toChars false fmt (decide (u / 2 ^ 31 % 2 = 1)) (toDecimalF u).1 (toDecimalF u).2

end Verif
