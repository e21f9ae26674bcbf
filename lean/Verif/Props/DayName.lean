import Verif.Model.DayName
import Verif.Props.Date

/-!
# Names of days and months

C112: `short_day_of_week` names the day of the week of the calendar, and `month_short_name` and `parse_short_month` are inverse.
-/

namespace Verif

open Spec

/-- The English names of the days, the week starting with Sunday. -/
def Spec.dayNames : List Bytes :=
  [asc! "Sun", asc! "Mon", asc! "Tue", asc! "Wed", asc! "Thu", asc! "Fri", asc! "Sat"]

/-- The English names of the months. -/
def Spec.monthNames : List Bytes :=
  [asc! "Jan", asc! "Feb", asc! "Mar", asc! "Apr", asc! "May", asc! "Jun", asc! "Jul", asc! "Aug", asc! "Sep", asc! "Oct", asc! "Nov", asc! "Dec"]

/-- The day of the week of a date of the calendar, 0 for Sunday: the first day of the year 0 is a Saturday, and the days of the week take turns. -/
def Spec.weekday (y m d : Nat) : Nat := (6 + daysBeforeYear y + daysBeforeMonth y m + (d - 1)) % 7

/-- The name of a day of the week. -/
def Spec.dayName (n : Nat) : Bytes := dayNames.getD (n % 7) []

/-- The specification knows a few days. -/
example : weekday 1970 1 1 = 4 ∧ weekday 2000 1 1 = 6 ∧ weekday 2024 2 29 = 4 ∧ weekday 1582 10 15 = 5 := by decide +kernel

theorem dayShortName_eq (n : Nat) : dayShortName ((n % 7 : Nat) : Int) = .ok (dayName n) := by
  have h : n % 7 < 7 := Nat.mod_lt _ (by omega)
  rw [dayName]
  generalize n % 7 = k at h
  rcases k with _ | _ | _ | _ | _ | _ | _ | k
  · rfl
  · rfl
  · rfl
  · rfl
  · rfl
  · rfl
  · rfl
  · omega

theorem dowOf_eq (z : Int) : dowOf z = (z + 4) % 7 := by
  unfold dowOf
  split
  · rw [Int.tmod_eq_emod_of_nonneg (by omega)]
  · have h : (z + 5).tmod 7 = -((-(z + 5)).tmod 7) := by rw [Int.neg_tmod]; omega
    rw [h, Int.tmod_eq_emod_of_nonneg (by omega)]
    omega

theorem epochDay_week (y m d : Nat) : (epochDay y m d + 4) % 7 = ((weekday y m d : Nat) : Int) := by
  have h : daysBeforeYear 1970 = 719528 := by decide +kernel
  rw [epochDay, weekday, h]
  omega

/-- C112: `short_day_of_week` is the name of the day of the week of the calendar, for every time of every date from 1970 on, and for midnight of the earlier dates from
the year 0 on. -/
theorem C112_day_partial {y m d h mi s ns : Nat} (hh : h < 24) (hmi : mi < 60) (hs : s < 60) (hns : ns < 1000000000)
    (hy : 1970 ≤ y ∨ (h = 0 ∧ mi = 0 ∧ s = 0 ∧ ns = 0)) :
    shortDayOfWeek (instant y m d h mi s ns) = .ok (dayName (weekday y m d)) := by
  have e : (instant y m d h mi s ns).tdiv 86400000 = epochDay y m d := by
    rcases hy with hy | ⟨rfl, rfl, rfl, rfl⟩
    · have h0 := epochDay_nonneg (m := m) (d := d) hy
      rw [instant]
      rw [Int.tdiv_eq_ediv_of_nonneg (by omega)]
      omega
    · rw [instant]
      have : epochDay y m d * 86400000 + ((((0 * 60 + 0) * 60 + 0 : Nat) : Int)) * 1000 + ((0 / 1000000 : Nat) : Int) =
          epochDay y m d * 86400000 := by simp
      rw [this]
      exact Int.mul_tdiv_cancel _ (by decide)
  rw [shortDayOfWeek, e, dowOf_eq, epochDay_week]
  have hw : weekday y m d = weekday y m d % 7 := by unfold weekday; rw [Nat.mod_mod]
  rw [hw, dayShortName_eq, ← hw]

example : shortDayOfWeek (instant 2024 2 29 12 34 56 789000000) = .ok (asc! "Thu") ∧
    shortDayOfWeek (instant 1969 12 31 0 0 0 0) = .ok (asc! "Wed") := by
  refine ⟨?_, ?_⟩
  · rw [C112_day_partial (by decide) (by decide) (by decide) (by decide) (.inl (by decide))]
    decide +kernel
  · rw [C112_day_partial (by decide) (by decide) (by decide) (by decide) (.inr ⟨rfl, rfl, rfl, rfl⟩)]
    decide +kernel

/-- Before 1970 the property is false at every other time of day: the duration is cut off towards the epoch, and the name is the one of the day after. -/
theorem C112_day_false {y m d h mi s ns : Nat} (hh : h < 24) (hmi : mi < 60) (hs : s < 60) (hns : ns < 1000000000)
    (hy : epochDay y m d < 0) (ht : 0 < ((h * 60 + mi) * 60 + s) * 1000 + ns / 1000000) :
    shortDayOfWeek (instant y m d h mi s ns) = .ok (dayName (weekday y m d + 1)) ∧
      dayName (weekday y m d + 1) ≠ dayName (weekday y m d) := by
  have e : (instant y m d h mi s ns).tdiv 86400000 = epochDay y m d + 1 := by
    have h1 : (instant y m d h mi s ns).tdiv 86400000 = -((-(instant y m d h mi s ns)).tdiv 86400000) := by
      rw [Int.neg_tdiv]; omega
    rw [h1, Int.tdiv_eq_ediv_of_nonneg (by rw [instant]; omega)]
    rw [instant]
    omega
  constructor
  · rw [shortDayOfWeek, e, dowOf_eq]
    have hw := epochDay_week y m d
    have h2 : (epochDay y m d + 1 + 4) % 7 = (((weekday y m d + 1) % 7 : Nat) : Int) := by omega
    rw [h2, dayShortName_eq]
  · have hw : weekday y m d < 7 := by unfold weekday; exact Nat.mod_lt _ (by omega)
    generalize weekday y m d = k at hw
    have : ∀ k : Fin 7, dayName (k + 1) ≠ dayName k := by decide
    exact this ⟨k, hw⟩

/-- One millisecond before 1970 was a Wednesday. -/
example : epochDay 1969 12 31 < 0 ∧ instant 1969 12 31 23 59 59 999000000 = -1 ∧ dayName (weekday 1969 12 31) = asc! "Wed" ∧
    shortDayOfWeek (-1) = .ok (asc! "Thu") := by decide +kernel

/-! ## Months -/

theorem month2num_eq (a b c : UInt8) : month2num a b c = a.toNat * 65536 + b.toNat * 256 + c.toNat := by
  have ha := a.toNat_lt
  have hb := b.toNat_lt
  have hc := c.toNat_lt
  have h1 : a.toNat <<< 16 ||| b.toNat <<< 8 = a.toNat <<< 16 + b.toNat <<< 8 := by
    rw [Nat.shiftLeft_add_eq_or_of_lt]
    rw [Nat.shiftLeft_eq]; omega
  have h2 : a.toNat <<< 16 + b.toNat <<< 8 = (a.toNat * 256 + b.toNat) <<< 8 := by
    simp only [Nat.shiftLeft_eq]; omega
  rw [month2num, h1, h2, ← Nat.shiftLeft_add_eq_or_of_lt (by omega)]
  simp only [Nat.shiftLeft_eq]; omega

theorem month2num_inj {a b c a' b' c' : UInt8} : month2num a b c = month2num a' b' c' ↔ a = a' ∧ b = b' ∧ c = c' := by
  constructor
  · intro h
    rw [month2num_eq, month2num_eq] at h
    have ha := a.toNat_lt
    have hb := b.toNat_lt
    have hc := c.toNat_lt
    have ha' := a'.toNat_lt
    have hb' := b'.toNat_lt
    have hc' := c'.toNat_lt
    refine ⟨UInt8.toNat_inj.1 ?_, UInt8.toNat_inj.1 ?_, UInt8.toNat_inj.1 ?_⟩ <;> omega
  · rintro ⟨rfl, rfl, rfl⟩; rfl

theorem monthOfNum_cases (n : Nat) : monthOfNum n = .err .invalidTimestamp ∨
    ∃ a b c k, n = month2num a b c ∧ k < 12 ∧ monthNames.getD k [] = [a, b, c] ∧ monthOfNum n = .ok (k + 1) := by
  unfold monthOfNum
  by_cases h0 : n = month2num 0x4A 0x61 0x6E
  · rw [if_pos h0]; exact .inr ⟨_, _, _, 0, h0, by decide, rfl, rfl⟩
  rw [if_neg h0]
  by_cases h1 : n = month2num 0x46 0x65 0x62
  · rw [if_pos h1]; exact .inr ⟨_, _, _, 1, h1, by decide, rfl, rfl⟩
  rw [if_neg h1]
  by_cases h2 : n = month2num 0x4D 0x61 0x72
  · rw [if_pos h2]; exact .inr ⟨_, _, _, 2, h2, by decide, rfl, rfl⟩
  rw [if_neg h2]
  by_cases h3 : n = month2num 0x41 0x70 0x72
  · rw [if_pos h3]; exact .inr ⟨_, _, _, 3, h3, by decide, rfl, rfl⟩
  rw [if_neg h3]
  by_cases h4 : n = month2num 0x4D 0x61 0x79
  · rw [if_pos h4]; exact .inr ⟨_, _, _, 4, h4, by decide, rfl, rfl⟩
  rw [if_neg h4]
  by_cases h5 : n = month2num 0x4A 0x75 0x6E
  · rw [if_pos h5]; exact .inr ⟨_, _, _, 5, h5, by decide, rfl, rfl⟩
  rw [if_neg h5]
  by_cases h6 : n = month2num 0x4A 0x75 0x6C
  · rw [if_pos h6]; exact .inr ⟨_, _, _, 6, h6, by decide, rfl, rfl⟩
  rw [if_neg h6]
  by_cases h7 : n = month2num 0x41 0x75 0x67
  · rw [if_pos h7]; exact .inr ⟨_, _, _, 7, h7, by decide, rfl, rfl⟩
  rw [if_neg h7]
  by_cases h8 : n = month2num 0x53 0x65 0x70
  · rw [if_pos h8]; exact .inr ⟨_, _, _, 8, h8, by decide, rfl, rfl⟩
  rw [if_neg h8]
  by_cases h9 : n = month2num 0x4F 0x63 0x74
  · rw [if_pos h9]; exact .inr ⟨_, _, _, 9, h9, by decide, rfl, rfl⟩
  rw [if_neg h9]
  by_cases h10 : n = month2num 0x4E 0x6F 0x76
  · rw [if_pos h10]; exact .inr ⟨_, _, _, 10, h10, by decide, rfl, rfl⟩
  rw [if_neg h10]
  by_cases h11 : n = month2num 0x44 0x65 0x63
  · rw [if_pos h11]; exact .inr ⟨_, _, _, 11, h11, by decide, rfl, rfl⟩
  rw [if_neg h11]
  exact .inl rfl

/-- C112: the names of the months. -/
theorem C112_month_name (m : Nat) :
    monthShortName m = if 1 ≤ m ∧ m ≤ 12 then .ok (monthNames.getD (m - 1) []) else .err .invalidTimestamp := by
  by_cases h : 1 ≤ m ∧ m ≤ 12
  · rw [if_pos h]
    obtain ⟨k, rfl⟩ : ∃ k : Fin 12, m = k.val + 1 := ⟨⟨m - 1, by omega⟩, by simp; omega⟩
    revert k; decide
  · rw [if_neg h]
    unfold monthShortName
    split <;> first | rfl | omega

/-- C112: `parse_short_month` reads the number of a month exactly from the texts that start with its name, and rejects all others. -/
theorem C112_month_parse (ts : Bytes) :
    (∀ m, parseShortMonth ts = .ok m ↔ 1 ≤ m ∧ m ≤ 12 ∧ monthNames.getD (m - 1) [] <+: ts) ∧
    ((∀ m, parseShortMonth ts ≠ .ok m) → parseShortMonth ts = .err .invalidTimestamp) := by
  have hsz : ∀ m, 1 ≤ m → m ≤ 12 → (monthNames.getD (m - 1) []).length = 3 := by
    intro m h1 h2
    obtain ⟨k, rfl⟩ : ∃ k : Fin 12, m = k.val + 1 := ⟨⟨m - 1, by omega⟩, by simp; omega⟩
    revert k; decide
  rcases ts with _ | ⟨a, _ | ⟨b, _ | ⟨c, rest⟩⟩⟩
  · refine ⟨fun m => ⟨fun h => by simp [parseShortMonth, monthNum] at h, fun h => ?_⟩, fun _ => rfl⟩
    have := hsz m h.1 h.2.1; have h3 := h.2.2.length_le; rw [this] at h3; simp at h3
  · refine ⟨fun m => ⟨fun h => by simp [parseShortMonth, monthNum] at h, fun h => ?_⟩, fun _ => rfl⟩
    have := hsz m h.1 h.2.1; have h3 := h.2.2.length_le; rw [this] at h3; simp at h3
  · refine ⟨fun m => ⟨fun h => by simp [parseShortMonth, monthNum] at h, fun h => ?_⟩, fun _ => rfl⟩
    have := hsz m h.1 h.2.1; have h3 := h.2.2.length_le; rw [this] at h3; simp at h3
  · have e : parseShortMonth (a :: b :: c :: rest) = monthOfNum (month2num a b c) := rfl
    rw [e]
    constructor
    · intro m
      constructor
      · intro h
        rcases monthOfNum_cases (month2num a b c) with h' | ⟨a', b', c', k, h1, h2, h3, h4⟩
        · rw [h'] at h; cases h
        · rw [h4] at h
          cases h
          obtain ⟨rfl, rfl, rfl⟩ := month2num_inj.1 h1
          refine ⟨by omega, by omega, ⟨rest, ?_⟩⟩
          rw [Nat.add_sub_cancel, h3]
          rfl
      · rintro ⟨h1, h2, h3⟩
        obtain ⟨k, rfl⟩ : ∃ k : Fin 12, m = k.val + 1 := ⟨⟨m - 1, by omega⟩, by simp; omega⟩
        have h4 : monthNames.getD k.val [] = [a, b, c] := by
          have hl := hsz _ h1 h2
          simp only [Nat.add_sub_cancel] at h3 hl
          have h5 := List.prefix_iff_eq_take.1 h3
          rw [hl] at h5
          exact h5
        have h6 : ∀ k : Fin 12, ∃ a b c, monthNames.getD k.val [] = [a, b, c] ∧ monthOfNum (month2num a b c) = .ok (k.val + 1) := by
          intro k
          refine ⟨(monthNames.getD k.val []).getD 0 0, (monthNames.getD k.val []).getD 1 0, (monthNames.getD k.val []).getD 2 0, ?_, ?_⟩ <;>
            (revert k; decide +kernel)
        obtain ⟨a', b', c', h7, h8⟩ := h6 k
        rw [h4] at h7
        cases h7
        exact h8
    · intro h
      rcases monthOfNum_cases (month2num a b c) with h' | ⟨_, _, _, k, _, _, _, h4⟩
      · exact h'
      · exact absurd h4 (h _)

example : parseShortMonth (asc! "Sep 05") = .ok 9 ∧ parseShortMonth (asc! "sep") = .err .invalidTimestamp := by
  constructor
  · exact ((C112_month_parse _).1 9).2 ⟨by decide, by decide, ⟨asc! " 05", rfl⟩⟩
  · decide +kernel

/-- C112: the name of a month, with anything behind it, is read as the month. -/
theorem C112_month_round_trip {m : Nat} (h1 : 1 ≤ m) (h2 : m ≤ 12) (rest : Bytes) :
    ∃ nm, monthShortName m = .ok nm ∧ parseShortMonth (nm ++ rest) = .ok m := by
  refine ⟨monthNames.getD (m - 1) [], ?_, ((C112_month_parse _).1 m).2 ⟨h1, h2, ⟨rest, rfl⟩⟩⟩
  rw [C112_month_name, if_pos ⟨h1, h2⟩]

end Verif
