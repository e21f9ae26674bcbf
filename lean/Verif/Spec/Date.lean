import Verif.Spec.Num

/-!
# The calendar and timestamps

The proleptic Gregorian calendar by counting: a day is numbered by adding up the lengths of the years and months before it.
-/

namespace Verif.Spec

/-- Leap years of the Gregorian calendar. -/
def isLeap (y : Nat) : Bool := y % 4 == 0 && (y % 100 != 0 || y % 400 == 0)

/-- The number of days of a month. -/
def monthLen (y : Nat) : Nat → Nat
  | 1 => 31
  | 2 => if isLeap y then 29 else 28
  | 3 => 31
  | 4 => 30
  | 5 => 31
  | 6 => 30
  | 7 => 31
  | 8 => 31
  | 9 => 30
  | 10 => 31
  | 11 => 30
  | 12 => 31
  | _ => 0

/-- The days of the year `y` before the month `m`. -/
def daysBeforeMonth (y : Nat) : Nat → Nat
  | 0 => 0
  | m + 1 => daysBeforeMonth y m + monthLen y m

/-- The days from the start of the year 0 to the start of the year `y`. -/
def daysBeforeYear : Nat → Nat
  | 0 => 0
  | y + 1 => daysBeforeYear y + daysBeforeMonth y 13

/-- A date of the calendar. -/
def ValidDate (y m d : Nat) : Prop := 1 ≤ m ∧ m ≤ 12 ∧ 1 ≤ d ∧ d ≤ monthLen y m

instance (y m d : Nat) : Decidable (ValidDate y m d) := inferInstanceAs (Decidable (_ ∧ _))

/-- The number of days from 1970-01-01 to a date. -/
def epochDay (y m d : Nat) : Int := (daysBeforeYear y + daysBeforeMonth y m + (d - 1) : Nat) - (daysBeforeYear 1970 : Nat)

/-- The milliseconds from the start of 1970 to a date and time of day (with whole milliseconds of the nanoseconds `ns`). -/
def instant (y m d h mi s ns : Nat) : Int :=
  epochDay y m d * 86400000 + ((h * 60 + mi) * 60 + s : Nat) * 1000 + (ns / 1000000 : Nat)

/-! ## Timestamps as text -/

/-- Two digits denoting `n`. -/
def IsTwo (txt : Verif.Bytes) (n : Nat) : Prop := txt.length = 2 ∧ (∀ c ∈ txt, IsDig c) ∧ decVal txt = n

/-- `yyyy-mm-dd` or `yyyymmdd`, with a year of any number of digits. -/
def IsDateText (txt : Verif.Bytes) (y m d : Nat) : Prop :=
  ∃ yt mt dt sep, txt = yt ++ (sep ++ (mt ++ (sep ++ dt))) ∧ (sep = [] ∨ sep = [0x2D]) ∧
    yt ≠ [] ∧ (∀ c ∈ yt, IsDig c) ∧ decVal yt = y ∧ IsTwo mt m ∧ IsTwo dt d

/-- Nothing, or a point and one to nine digits, denoting `ns` nanoseconds. -/
def IsFracText (txt : Verif.Bytes) (ns : Nat) : Prop :=
  (txt = [] ∧ ns = 0) ∨
  ∃ ds, txt = 0x2E :: ds ∧ 1 ≤ ds.length ∧ ds.length ≤ 9 ∧ (∀ c ∈ ds, IsDig c) ∧ ns = decVal ds * 10 ^ (9 - ds.length)

/-- `hh:mm`, `hh:mm:ss` or `hh:mm:ss.fff`, or the same without colons. -/
def IsTimeText (txt : Verif.Bytes) (h mi s ns : Nat) : Prop :=
  ∃ ht mt sep rest, txt = ht ++ (sep ++ (mt ++ rest)) ∧ (sep = [] ∨ sep = [0x3A]) ∧ IsTwo ht h ∧ IsTwo mt mi ∧
    ((rest = [] ∧ s = 0 ∧ ns = 0) ∨ ∃ st ft, rest = sep ++ (st ++ ft) ∧ IsTwo st s ∧ IsFracText ft ns)

/-- Date, `T` and time of day. -/
def IsLocalText (txt : Verif.Bytes) (y m d h mi s ns : Nat) : Prop :=
  ∃ a b, txt = a ++ 0x54 :: b ∧ IsDateText a y m d ∧ IsTimeText b h mi s ns

/-- `+hh:mm`, `-hh:mm`, `+hhmm` or `-hhmm`. -/
def IsOffsetText (txt : Verif.Bytes) (plus : Bool) (hh mm : Nat) : Prop :=
  ∃ ht mt sep, txt = (if plus then 0x2B else 0x2D) :: (ht ++ (sep ++ mt)) ∧ (sep = [] ∨ sep = [0x3A]) ∧ IsTwo ht hh ∧ IsTwo mt mm

/-- How far ahead of UTC an offset is, in milliseconds. -/
def offsetMs (plus : Bool) (hh mm : Nat) : Int :=
  (if plus then 1 else -1) * ((hh * 60 + mm : Nat) * 60000)

end Verif.Spec
