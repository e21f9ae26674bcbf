import Verif.Spec.Json

/-!
# Where a string ends
-/

namespace Verif

/-- The number of consecutive backslashes directly in front of position `n`. -/
def slashesBefore (bs : Bytes) (n : Nat) : Nat := ((bs.take n).reverse.takeWhile (· == 0x5C)).length

/-- A quote preceded by an even number of consecutive backslashes. -/
def ClosesAt (bs : Bytes) (n : Nat) : Prop := bs[n]? = some 0x22 ∧ slashesBefore bs n % 2 = 0

/-- The first such quote. -/
def FirstClose (bs : Bytes) (n : Nat) : Prop := ClosesAt bs n ∧ ∀ m, m < n → ¬ ClosesAt bs m

/-- The first backslash of a text. -/
def FirstSlash (bs : Bytes) (n : Nat) : Prop := bs[n]? = some 0x5C ∧ ∀ m, m < n → bs[m]? ≠ some 0x5C

instance (bs : Bytes) (n : Nat) : Decidable (ClosesAt bs n) := by unfold ClosesAt; infer_instance
instance (bs : Bytes) (n : Nat) : Decidable (FirstClose bs n) := by unfold FirstClose; infer_instance
instance (bs : Bytes) (n : Nat) : Decidable (FirstSlash bs n) := by unfold FirstSlash; infer_instance

end Verif
