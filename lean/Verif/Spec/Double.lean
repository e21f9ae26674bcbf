import Verif.Spec.Float

/-!
# The bits of a double

IEEE 754-2019 section 3.4, binary64: from the top one bit for the sign, eleven for the exponent with bias 1023, 52 for the fraction.
-/

namespace Verif

namespace Spec

/-- The sign bit. -/
def signOf (u : Nat) : Bool := decide (u / 2 ^ 63 % 2 = 1)

/-- The magnitude in units of `2^-1074`, of a finite number. -/
def magOf (u : Nat) : Nat := if u / 2 ^ 52 % 2 ^ 11 = 0 then u % 2 ^ 52 else (2 ^ 52 + u % 2 ^ 52) * 2 ^ (u / 2 ^ 52 % 2 ^ 11 - 1)

/-- The bits of a finite number. -/
def FiniteBits (u : Nat) : Prop := u / 2 ^ 52 % 2 ^ 11 ≠ 2047

instance (u : Nat) : Decidable (FiniteBits u) := inferInstanceAs (Decidable (_ ≠ _))

/-- The datum that 64 bits stand for. -/
def doubleOf (u : Nat) : FVal :=
  if FiniteBits u then .fin (signOf u) (magOf u) else if u % 2 ^ 52 = 0 then .inf (signOf u) else .nan

/-- The magnitude of a finite number. -/
def absOf (u : Nat) : ℚ := (magOf u : ℚ) / 2 ^ 1074

end Spec

end Verif
