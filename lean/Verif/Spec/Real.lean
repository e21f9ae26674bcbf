import Mathlib.Algebra.Field.Rat
import Verif.Spec.Num

/-!
# The number a JSON number text denotes

RFC 8259 section 6: `number = [ minus ] int [ frac ] [ exp ]`.  The value is a rational number.
-/

namespace Verif.Spec

/-- The exponent part `x` of a number denotes the power of ten `e` (0 if it is absent). -/
def ExpDenotes (x : Bytes) (e : Int) : Prop :=
  (x = [] ∧ e = 0) ∨
    ∃ c ds, (c = 0x65 ∨ c = 0x45) ∧ IsDigits ds ∧
      ((x = c :: ds ∧ e = decVal ds) ∨ (x = c :: 0x2B :: ds ∧ e = decVal ds) ∨
        (x = c :: 0x2D :: ds ∧ e = -(decVal ds : Int)))

/-- The fraction part `f` of a number consists of the digits `fd` (none if it is absent). -/
def FracDigits (f fd : Bytes) : Prop := (f = [] ∧ fd = []) ∨ (f = 0x2E :: fd ∧ IsDigits fd)

/-- `txt` is a JSON number and denotes the rational `q`: the digits before and after the point, read as one decimal
numeral, times ten to the exponent, one power less for every digit after the point. -/
def NumDenotes (txt : Bytes) (q : ℚ) : Prop :=
  ∃ (neg : Bool) (i f fd x : Bytes) (e : Int),
    IsInt i ∧ FracDigits f fd ∧ ExpDenotes x e ∧
      txt = (if neg then [0x2D] else []) ++ (i ++ (f ++ x)) ∧
      q = (if neg then -1 else 1) * (decVal (i ++ fd) : ℚ) * (10 : ℚ) ^ (e - (fd.length : Int))

/-- `txt` is the JSON number with this sign, these digits before and after the point and this exponent. -/
def NumText (txt : Bytes) (neg : Bool) (i fd : Bytes) (e : Int) : Prop :=
  ∃ f x, IsInt i ∧ FracDigits f fd ∧ ExpDenotes x e ∧ txt = (if neg then [0x2D] else []) ++ (i ++ (f ++ x))

/-- The magnitude of the number with these digits before and after the point and this exponent. -/
def numAbs (i fd : Bytes) (e : Int) : ℚ := (decVal (i ++ fd) : ℚ) * (10 : ℚ) ^ (e - (fd.length : Int))

/-- Its value. -/
def numVal (neg : Bool) (i fd : Bytes) (e : Int) : ℚ := (if neg then -1 else 1) * numAbs i fd e

end Verif.Spec
