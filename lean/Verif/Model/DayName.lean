import Verif.Model.Date
import Verif.Spec.Ascii

/-!
# Names of days and months

Models the helpers for custom date formats of `impl/daw_json_parse_iso8601_utils.h`: `month_short_name`, `short_day_of_week` and
`parse_short_month`, for the `system_clock` time points that count milliseconds.
-/

namespace Verif

/-- `month_short_name`, `daw_json_parse_iso8601_utils.h` L359-388. -/
def monthShortName (m : Nat) : Res Bytes :=
  match m with
  | 1 => .ok (asc! "Jan")
  | 2 => .ok (asc! "Feb")
  | 3 => .ok (asc! "Mar")
  | 4 => .ok (asc! "Apr")
  | 5 => .ok (asc! "May")
  | 6 => .ok (asc! "Jun")
  | 7 => .ok (asc! "Jul")
  | 8 => .ok (asc! "Aug")
  | 9 => .ok (asc! "Sep")
  | 10 => .ok (asc! "Oct")
  | 11 => .ok (asc! "Nov")
  | 12 => .ok (asc! "Dec")
  | _ => .err .invalidTimestamp

/-- The switch of `short_day_of_week`, `daw_json_parse_iso8601_utils.h` L398-415. -/
def dayShortName (dow : Int) : Res Bytes :=
  if dow = 0 then .ok (asc! "Sun")
  else if dow = 1 then .ok (asc! "Mon")
  else if dow = 2 then .ok (asc! "Tue")
  else if dow = 3 then .ok (asc! "Wed")
  else if dow = 4 then .ok (asc! "Thu")
  else if dow = 5 then .ok (asc! "Fri")
  else if dow = 6 then .ok (asc! "Sat")
  else .err .invalidTimestamp

/-- The number of the day, `daw_json_parse_iso8601_utils.h` L397: `%` truncates. -/
def dowOf (z : Int) : Int := if -4 ≤ z then (z + 4).tmod 7 else (z + 5).tmod 7 + 6

/-- `short_day_of_week`, `daw_json_parse_iso8601_utils.h` L390-416: `duration_cast` to days truncates.  The days are counted in a
`long`, which has 64 bits here. -/
def shortDayOfWeek (t : Int) : Res Bytes := dayShortName (dowOf (t.tdiv 86400000))

/-- `month2num`, `daw_json_parse_iso8601_utils.h` L419-429, of a text of at least three characters. -/
def month2num (a b c : UInt8) : Nat := a.toNat <<< 16 ||| b.toNat <<< 8 ||| c.toNat

/-- `month2num` of a text, the same lines. -/
def monthNum (ts : Bytes) : Res Nat :=
  match ts with
  | a :: b :: c :: _ => .ok (month2num a b c)
  | _ => .err .invalidTimestamp

/-- The switch of `parse_short_month`, `daw_json_parse_iso8601_utils.h` L434-461. -/
def monthOfNum (n : Nat) : Res Nat :=
  if n = month2num 0x4A 0x61 0x6E then .ok 1
  else if n = month2num 0x46 0x65 0x62 then .ok 2
  else if n = month2num 0x4D 0x61 0x72 then .ok 3
  else if n = month2num 0x41 0x70 0x72 then .ok 4
  else if n = month2num 0x4D 0x61 0x79 then .ok 5
  else if n = month2num 0x4A 0x75 0x6E then .ok 6
  else if n = month2num 0x4A 0x75 0x6C then .ok 7
  else if n = month2num 0x41 0x75 0x67 then .ok 8
  else if n = month2num 0x53 0x65 0x70 then .ok 9
  else if n = month2num 0x4F 0x63 0x74 then .ok 10
  else if n = month2num 0x4E 0x6F 0x76 then .ok 11
  else if n = month2num 0x44 0x65 0x63 then .ok 12
  else .err .invalidTimestamp

/-- `parse_short_month`, `daw_json_parse_iso8601_utils.h` L432-462. -/
def parseShortMonth (ts : Bytes) : Res Nat := do
  let n ← monthNum ts
  monthOfNum n

end Verif
