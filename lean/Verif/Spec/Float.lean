import Mathlib.Algebra.Field.Rat
import Mathlib.Algebra.Order.Field.Rat
import Mathlib.Data.Rat.Cast.Order

/-!
# Binary floating point numbers

IEEE 754-2019 section 3.3: the finite numbers of a binary format are `m × 2^e`, where `m` is an integer of at most `prec` bits and `e` is at
least `-emin`; they stay below `2^top`.  Section 4.3.1: `roundTiesToEven` gives the nearest number of the format with the exponent unbounded
above, of two equally near ones that with the even significand, and infinity if that number is too large for the format.
-/

namespace Verif

/-- A binary format, as `std::numeric_limits` describes it: `prec` is `digits`, `2^-emin` is `denorm_min`, `top` is `max_exponent`, `max10` is
`max_exponent10`, and `-bot` is `min_exponent`. -/
structure FFmt where
  prec : Nat
  emin : Nat
  top : Nat
  max10 : Nat
  bot : Nat
  deriving DecidableEq, Repr

/-- `double` -/
def f64 : FFmt := ⟨53, 1074, 1024, 308, 1021⟩

/-- `float` -/
def f32 : FFmt := ⟨24, 149, 128, 38, 125⟩

/-- A floating point datum: `fin neg m` is the number `± m × 2^-emin` (every finite number of the format is a multiple of the smallest). -/
inductive FVal where
  | fin (neg : Bool) (m : Nat)
  | inf (neg : Bool)
  | nan
  deriving DecidableEq, Repr

namespace Spec

/-- `q` is a number of the format, the exponent being unbounded above. -/
def IsFloat (F : FFmt) (q : ℚ) : Prop := ∃ m e : ℤ, |m| < 2 ^ F.prec ∧ -(F.emin : ℤ) ≤ e ∧ q = m * (2 : ℚ) ^ e

/-- `q` is a number of the format with an even significand. -/
def IsEvenFloat (F : FFmt) (q : ℚ) : Prop := ∃ m e : ℤ, |m| < 2 ^ F.prec ∧ -(F.emin : ℤ) ≤ e ∧ q = m * (2 : ℚ) ^ e ∧ 2 ∣ m

/-- `q` is the number of the format nearest to `x`, ties going to the even one. -/
def NearestEven (F : FFmt) (x q : ℚ) : Prop :=
  IsFloat F q ∧ (∀ y, IsFloat F y → |x - q| ≤ |x - y|) ∧ ((∃ y, IsFloat F y ∧ y ≠ q ∧ |x - y| = |x - q|) → IsEvenFloat F q)

/-- `v` is what the number of magnitude `x` with this sign is rounded to. -/
def Rounds (F : FFmt) (neg : Bool) (x : ℚ) (v : FVal) : Prop :=
  ∃ q, NearestEven F x q ∧
    ((q < 2 ^ F.top ∧ ∃ m, v = .fin neg m ∧ (m : ℚ) = q * 2 ^ F.emin) ∨ (2 ^ F.top ≤ q ∧ v = .inf neg))

/-- `v` is the finite number with this sign and magnitude. -/
def IsNum (F : FFmt) (v : FVal) (neg : Bool) (x : ℚ) : Prop := ∃ m, v = .fin neg m ∧ (m : ℚ) = x * 2 ^ F.emin

end Spec

end Verif
