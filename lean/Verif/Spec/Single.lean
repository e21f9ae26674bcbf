import Verif.Spec.Float

/-!
# The bits of a float

IEEE 754-2019 section 3.4, binary32: from the top one bit for the sign, eight for the exponent with bias 127, 23 for the fraction.
-/

namespace Verif

namespace Spec

/-- The sign bit. -/
def signOf32 (u : Nat) : Bool := decide (u / 2 ^ 31 % 2 = 1)

/-- The magnitude in units of `2^-149`, of a finite number. -/
def magOf32 (u : Nat) : Nat := if u / 2 ^ 23 % 2 ^ 8 = 0 then u % 2 ^ 23 else (2 ^ 23 + u % 2 ^ 23) * 2 ^ (u / 2 ^ 23 % 2 ^ 8 - 1)

/-- The bits of a finite number. -/
def FiniteBits32 (u : Nat) : Prop := u / 2 ^ 23 % 2 ^ 8 ≠ 255

instance (u : Nat) : Decidable (FiniteBits32 u) := inferInstanceAs (Decidable (_ ≠ _))

/-- The datum that 32 bits stand for. -/
def floatOf (u : Nat) : FVal :=
  if FiniteBits32 u then .fin (signOf32 u) (magOf32 u) else if u % 2 ^ 23 = 0 then .inf (signOf32 u) else .nan

/-- The magnitude of a finite number. -/
def absOf32 (u : Nat) : ℚ := (magOf32 u : ℚ) / 2 ^ 149

end Spec

end Verif
