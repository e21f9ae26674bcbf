import Verif.Model.Dragonbox

/-!
# Dragonbox: what is computed for each of the exponents

For each of the 2046 binary exponents of a double the precision of the table is checked by the kernel: between two neighbours in a Farey
sequence of order `2^54` there lie both the exact factor and the one from the table, so that their products with all numbers up to `2^54` have
the same integral part.
-/

namespace Verif

/-- `2^(e-1) * 10^k` is `facNum e k / facDen e k`. -/
def facNum (e k : Int) : Nat := 2 ^ (e - 1).toNat * 10 ^ k.toNat

def facDen (e k : Int) : Nat := 2 ^ (1 - e).toNat * 10 ^ (-k).toNat

/-- Neighbours of `A/B` in the Farey sequence of order `2^54`: `p0/q0 ≤ A/B < p1/q1`. -/
def fareyLoop (A B : Nat) : Nat → Nat → Nat → Nat → Nat → Nat × Nat × Nat × Nat
  | 0, p0, q0, p1, q1 => (p0, q0, p1, q1)
  | n + 1, p0, q0, p1, q1 =>
    if 2 ^ 54 < q0 + q1 then (p0, q0, p1, q1)
    else
      let rl := A * q0 - p0 * B
      let ru := p1 * B - A * q1
      let t := min (rl / ru) ((2 ^ 54 - q0) / q1)
      let p0 := p0 + t * p1
      let q0 := q0 + t * q1
      let rl := rl - t * ru
      let t := if rl = 0 then (2 ^ 54 - q1) / q0 else min ((ru - 1) / rl) ((2 ^ 54 - q1) / q0)
      fareyLoop A B n p0 q0 (p1 + t * p0) (q1 + t * q0)

/-- Both fractions lie between neighbours of the Farey sequence. -/
def fareyOk (A B A' B' : Nat) : Bool :=
  match fareyLoop A B 64 (A / B) 1 1 0 with
  | (p0, q0, p1, q1) => decide (2 ^ 54 < q0 + q1 ∧ p1 * q0 = p0 * q1 + 1 ∧ p0 * B ≤ q0 * A ∧ p0 * B' ≤ q0 * A' ∧ A * q1 < p1 * B ∧ A' * q1 < p1 * B')

/-- What is needed of the exponent `e`. -/
def expOk (e : Int) : Bool :=
  let mk := floorLog10Pow2 e - 2
  let k := -mk
  let c := dbGet k
  let bi := e + floorLog2Pow10 k
  let b := bi.toNat
  let A := facNum e k
  let B := facDen e k
  decide (1 ≤ bi ∧ bi ≤ 9 ∧ c.1 < 2 ^ 64 ∧ c.2 < 2 ^ 64 ∧ dbDelta c b = 2 * A / B ∧ 100 * B ≤ 2 * A ∧ 2 * A < 1000 * B) &&
    fareyOk A B (2 ^ b * (c.1 * 2 ^ 64 + c.2)) (2 ^ 128)

theorem expOk_0 : ∀ i : Nat, i < 256 → expOk ((i : Int) - 1074) = true := by decide +kernel

theorem expOk_1 : ∀ i : Nat, i < 256 → expOk ((i : Int) - 818) = true := by decide +kernel

theorem expOk_2 : ∀ i : Nat, i < 256 → expOk ((i : Int) - 562) = true := by decide +kernel

theorem expOk_3 : ∀ i : Nat, i < 256 → expOk ((i : Int) - 306) = true := by decide +kernel

theorem expOk_4 : ∀ i : Nat, i < 256 → expOk ((i : Int) - 50) = true := by decide +kernel

theorem expOk_5 : ∀ i : Nat, i < 256 → expOk ((i : Int) + 206) = true := by decide +kernel

theorem expOk_6 : ∀ i : Nat, i < 256 → expOk ((i : Int) + 462) = true := by decide +kernel

theorem expOk_7 : ∀ i : Nat, i < 254 → expOk ((i : Int) + 718) = true := by decide +kernel

theorem expOk_all {e : Int} (h1 : -1074 ≤ e) (h2 : e ≤ 971) : expOk e = true := by
  by_cases h0 : e < -818
  · have := expOk_0 (e + 1074).toNat (by omega)
    rwa [show (((e + 1074).toNat : Int)) - 1074 = e by omega] at this
  by_cases h256 : e < -562
  · have := expOk_1 (e + 818).toNat (by omega)
    rwa [show (((e + 818).toNat : Int)) - 818 = e by omega] at this
  by_cases h512 : e < -306
  · have := expOk_2 (e + 562).toNat (by omega)
    rwa [show (((e + 562).toNat : Int)) - 562 = e by omega] at this
  by_cases h768 : e < -50
  · have := expOk_3 (e + 306).toNat (by omega)
    rwa [show (((e + 306).toNat : Int)) - 306 = e by omega] at this
  by_cases h1024 : e < 206
  · have := expOk_4 (e + 50).toNat (by omega)
    rwa [show (((e + 50).toNat : Int)) - 50 = e by omega] at this
  by_cases h1280 : e < 462
  · have := expOk_5 (e - 206).toNat (by omega)
    rwa [show (((e - 206).toNat : Int)) + 206 = e by omega] at this
  by_cases h1536 : e < 718
  · have := expOk_6 (e - 462).toNat (by omega)
    rwa [show (((e - 462).toNat : Int)) + 462 = e by omega] at this
  by_cases h1792 : e < 972
  · have := expOk_7 (e - 718).toNat (by omega)
    rwa [show (((e - 718).toNat : Int)) + 718 = e by omega] at this
  omega

end Verif
