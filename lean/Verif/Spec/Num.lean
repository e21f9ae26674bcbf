import Verif.Spec.Json

/-!
# Decimal numerals
-/

namespace Verif.Spec

/-- The value of a decimal digit character. -/
def digVal (c : UInt8) : Nat := c.toNat - 0x30

/-- The number a string of decimal digits denotes, most significant digit first. -/
def decVal (ds : Verif.Bytes) : Nat := ds.foldl (fun a c => 10 * a + digVal c) 0

/-- The canonical decimal numeral of an integer: the digits of an `IsInt` (no superfluous leading zero), with a
minus sign exactly for negative numbers, denoting that integer. -/
def IsNumeral (txt : Verif.Bytes) (v : Int) : Prop :=
  if v < 0 then ∃ ds, txt = 0x2D :: ds ∧ IsInt ds ∧ (decVal ds : Int) = -v
  else IsInt txt ∧ (decVal txt : Int) = v

end Verif.Spec
