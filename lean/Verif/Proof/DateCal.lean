import Verif.Model.Date
import Verif.Spec.Date

/-! # Calendar arithmetic -/

namespace Verif

open Spec

/-- Days before a year in the form the code computes them. -/
theorem daysBeforeYear_eq (y : Nat) :
    daysBeforeYear y + (y + 99) / 100 = 365 * y + (y + 3) / 4 + (y + 399) / 400 := by
  induction y with
  | zero => decide
  | succ y ih =>
    have hl : daysBeforeMonth y 13 = 365 + (if isLeap y then 1 else 0) := by
      simp only [daysBeforeMonth, monthLen]; split <;> rfl
    rw [daysBeforeYear, hl]
    simp only [isLeap, Bool.and_eq_true, beq_iff_eq, Bool.or_eq_true, bne_iff_ne]
    split <;> omega

/-- The years counted from March on. -/
def marStart (y : Nat) : Nat := 365 * y + y / 4 - y / 100 + y / 400

theorem mar_of_date {y m d : Nat} (hv : ValidDate y m d) (hm : 2 < m) :
    daysBeforeYear y + daysBeforeMonth y m + (d - 1) = marStart y + 60 + ((153 * (m - 3) + 2) / 5 + d - 1) := by
  obtain ⟨h1, h2, h3, h4⟩ := hv
  have hy := daysBeforeYear_eq y
  have hb : daysBeforeMonth y m + 1 = 60 + (if isLeap y then 1 else 0) + (153 * (m - 3) + 2) / 5 := by
    have : m = 3 ∨ m = 4 ∨ m = 5 ∨ m = 6 ∨ m = 7 ∨ m = 8 ∨ m = 9 ∨ m = 10 ∨ m = 11 ∨ m = 12 := by omega
    rcases this with h | h | h | h | h | h | h | h | h | h <;> subst h <;> simp only [daysBeforeMonth, monthLen] <;>
      split <;> rfl
  clear h4
  generalize (153 * (m - 3) + 2) / 5 = q at *
  clear h2 hm h1
  unfold marStart
  simp only [isLeap, Bool.and_eq_true, beq_iff_eq, Bool.or_eq_true, bne_iff_ne] at hb
  have e1 : (y + 99) / 100 = y / 100 + (if y % 100 = 0 then 0 else 1) := by split <;> omega
  have e2 : (y + 3) / 4 = y / 4 + (if y % 4 = 0 then 0 else 1) := by split <;> omega
  have e3 : (y + 399) / 400 = y / 400 + (if y % 400 = 0 then 0 else 1) := by split <;> omega
  have e4 : y / 100 ≤ y / 4 := by omega
  have e5 : y % 100 = 0 → y % 4 = 0 := by omega
  have e6 : y % 400 = 0 → y % 100 = 0 := by omega
  rw [e1, e2, e3] at hy
  generalize y / 100 = a at *
  generalize y / 400 = b at *
  generalize y / 4 = c at *
  generalize daysBeforeYear y = D at *
  by_cases c1 : y % 4 = 0 <;> by_cases c2 : y % 100 = 0 <;> by_cases c3 : y % 400 = 0 <;>
    simp [c1, c2, c3] at hb hy e5 e6 <;> omega

theorem mar_of_date' {y m d : Nat} (hv : ValidDate (y + 1) m d) (hm : m ≤ 2) :
    daysBeforeYear (y + 1) + daysBeforeMonth (y + 1) m + (d - 1) = marStart y + 60 + ((153 * (m + 9) + 2) / 5 + d - 1) := by
  obtain ⟨h1, h2, h3, h4⟩ := hv
  have hy := daysBeforeYear_eq (y + 1)
  have hb : daysBeforeMonth (y + 1) m + 306 = (153 * (m + 9) + 2) / 5 := by
    have : m = 1 ∨ m = 2 := by omega
    rcases this with h | h <;> subst h <;> simp only [daysBeforeMonth, monthLen]
  generalize (153 * (m + 9) + 2) / 5 = q at *
  clear h4 h2 hm h1
  unfold marStart
  omega

theorem marStart_era (era yoe : Nat) (h : yoe < 400) :
    marStart (400 * era + yoe) = era * 146097 + (yoe * 365 + yoe / 4 - yoe / 100) := by
  unfold marStart; omega

/-! ## Year of the era -/

/-- The year of the era the code computes for a day of the era. -/
def yoeOf (n : Nat) : Nat := (n - n / 1460 + n / 36524 - n / 146096) / 365

theorem yoeOf_mono {a b : Nat} (h : a ≤ b) : yoeOf a ≤ yoeOf b := by
  unfold yoeOf
  apply Nat.div_le_div_right
  have e1 : a / 146096 = a / 36524 / 4 := by rw [Nat.div_div_eq_div_mul]
  have e2 : b / 146096 = b / 36524 / 4 := by rw [Nat.div_div_eq_div_mul]
  rw [e1, e2]
  have h1 : a / 36524 ≤ b / 36524 := Nat.div_le_div_right h
  have h2 : a - a / 1460 ≤ b - b / 1460 := by omega
  generalize a / 36524 = x at *
  generalize b / 36524 = y at *
  omega

/-- The last day of a year of the era. -/
def yoeLast (yoe : Nat) : Nat := if (yoe % 4 = 3 ∧ yoe % 100 ≠ 99) ∨ yoe = 399 then 365 else 364

theorem yoeOf_ends : ∀ yoe, yoe < 400 → yoeOf (yoe * 365 + yoe / 4 - yoe / 100) = yoe ∧
    yoeOf (yoe * 365 + yoe / 4 - yoe / 100 + yoeLast yoe) = yoe := by decide +kernel

theorem yoeOf_eq {yoe doy : Nat} (h : yoe < 400) (hd : doy ≤ yoeLast yoe) :
    yoeOf (yoe * 365 + yoe / 4 - yoe / 100 + doy) = yoe := by
  have h1 := yoeOf_ends yoe h
  have h2 : yoeOf (yoe * 365 + yoe / 4 - yoe / 100) ≤ yoeOf (yoe * 365 + yoe / 4 - yoe / 100 + doy) := yoeOf_mono (by omega)
  have h3 : yoeOf (yoe * 365 + yoe / 4 - yoe / 100 + doy) ≤ yoeOf (yoe * 365 + yoe / 4 - yoe / 100 + yoeLast yoe) :=
    yoeOf_mono (by omega)
  omega

/-! ## Both directions -/

theorem monthOf : ∀ k, k < 12 → ∀ d, d < 32 → 1 ≤ d → d ≤ (153 * (k + 1) + 2) / 5 - (153 * k + 2) / 5 →
    (5 * ((153 * k + 2) / 5 + d - 1) + 2) / 153 = k := by decide +kernel

theorem civilDays_eq {y m d : Nat} (hv : ValidDate y m d) (hr : epochDay y m d < 2147483648) (h mi s ns : Nat) :
    civilToMs y m d h mi s ns = instant y m d h mi s ns := by
  have hv' := hv
  obtain ⟨h1, h2, h3, h4⟩ := hv'
  have h1970 : daysBeforeYear 1970 = 719528 := by
    have := daysBeforeYear_eq 1970
    omega
  unfold civilToMs instant
  simp only
  have hkey : ∀ Y : Int, (Y = (y : Int) - (if m ≤ 2 then 1 else 0)) →
      ((if 0 ≤ Y then Y else Y - 399).tdiv 400) * 146097 +
        (((Y - ((if 0 ≤ Y then Y else Y - 399).tdiv 400) * 400).toNat * 365 +
          (Y - ((if 0 ≤ Y then Y else Y - 399).tdiv 400) * 400).toNat / 4 -
          (Y - ((if 0 ≤ Y then Y else Y - 399).tdiv 400) * 400).toNat / 100 +
          ((153 * ((m : Int) + (if 2 < m then -3 else 9)) + 2).tdiv 5 + d - 1).toNat : Nat) : Int) - 719468 =
      epochDay y m d := by
    intro Y hY
    rw [epochDay, h1970]
    by_cases hm : 2 < m
    · rw [if_neg (by omega)] at hY
      have e1 : ((153 * ((m : Int) + (if 2 < m then -3 else 9)) + 2).tdiv 5 + d - 1).toNat
          = (153 * (m - 3) + 2) / 5 + d - 1 := by
        rw [if_pos hm, Int.tdiv_eq_ediv_of_nonneg (by omega)]; omega
      rw [e1, mar_of_date hv hm, if_pos (by omega), Int.tdiv_eq_ediv_of_nonneg (by omega)]
      have e2 := marStart_era (y / 400) (y % 400) (by omega)
      rw [show 400 * (y / 400) + y % 400 = y by omega] at e2
      rw [e2]
      have e3 : (Y - Y / 400 * 400).toNat = y % 400 := by omega
      rw [e3]
      omega
    · rw [if_pos (by omega)] at hY
      have e1 : ((153 * ((m : Int) + (if 2 < m then -3 else 9)) + 2).tdiv 5 + d - 1).toNat
          = (153 * (m + 9) + 2) / 5 + d - 1 := by
        rw [if_neg hm, Int.tdiv_eq_ediv_of_nonneg (by omega)]; omega
      rw [e1]
      cases y with
      | zero =>
        have hb : daysBeforeMonth 0 m + 306 = (153 * (m + 9) + 2) / 5 := by
          have : m = 1 ∨ m = 2 := by omega
          rcases this with h | h <;> subst h <;> rfl
        have hY : Y = -1 := by omega
        subst hY
        have e4 : (if (0 : Int) ≤ -1 then (-1 : Int) else -1 - 399).tdiv 400 = -1 := by decide
        rw [e4]
        have e5 : ((-1 : Int) - -1 * 400).toNat = 399 := by decide
        rw [e5]
        simp only [daysBeforeYear]
        omega
      | succ y =>
        rw [mar_of_date' hv (by omega), if_pos (by omega), Int.tdiv_eq_ediv_of_nonneg (by omega)]
        have e2 := marStart_era (y / 400) (y % 400) (by omega)
        rw [show 400 * (y / 400) + y % 400 = y by omega] at e2
        rw [e2]
        have e3 : (Y - Y / 400 * 400).toNat = y % 400 := by omega
        rw [e3]
        omega
  rw [hkey _ rfl]
  have hlow : -719528 ≤ epochDay y m d := by rw [epochDay, h1970]; omega
  have hw : wrapI32 (epochDay y m d) = epochDay y m d := by
    unfold wrapI32
    rw [Int.bmod_eq_of_le] <;> omega
  rw [hw]
  omega

theorem civilFromDays_core {era yoe doy : Nat} (h : yoe < 400) (hd : doy ≤ yoeLast yoe) :
    civilFromDays ((marStart (400 * era + yoe) + doy : Nat) : Int) =
      (((400 * era + yoe + (if (if (5 * doy + 2) / 153 < 10 then (5 * doy + 2) / 153 + 3 else (5 * doy + 2) / 153 - 9) ≤ 2
          then 1 else 0) : Nat) : Int),
        (if (5 * doy + 2) / 153 < 10 then (5 * doy + 2) / 153 + 3 else (5 * doy + 2) / 153 - 9),
        doy - (153 * ((5 * doy + 2) / 153) + 2) / 5 + 1) := by
  rw [marStart_era era yoe h]
  have hl : yoeLast yoe ≤ 365 := by unfold yoeLast; split <;> omega
  have hb : yoe * 365 + yoe / 4 - yoe / 100 + doy < 146097 := by
    unfold yoeLast at hd; split at hd <;> omega
  unfold civilFromDays
  simp only
  rw [if_pos (by omega), Int.tdiv_eq_ediv_of_nonneg (by omega)]
  have e1 : ((era * 146097 + (yoe * 365 + yoe / 4 - yoe / 100) + doy : Nat) : Int) / 146097 = era := by omega
  rw [e1]
  have e2 : (((era * 146097 + (yoe * 365 + yoe / 4 - yoe / 100) + doy : Nat) : Int) - (era : Int) * 146097).toNat =
      yoe * 365 + yoe / 4 - yoe / 100 + doy := by omega
  rw [e2]
  have e3 := yoeOf_eq h hd
  unfold yoeOf at e3
  rw [e3]
  have e4 : yoe * 365 + yoe / 4 - yoe / 100 + doy - (365 * yoe + yoe / 4 - yoe / 100) = doy := by omega
  rw [e4]
  refine Prod.ext ?_ rfl
  simp only
  generalize (if (5 * doy + 2) / 153 < 10 then (5 * doy + 2) / 153 + 3 else (5 * doy + 2) / 153 - 9) = mm
  split <;> omega

/-- From the days since 0000-03-01 back to the date. -/
theorem civilFromDays_eq {y m d : Nat} (hv : ValidDate y m d) (hz : 2 < m ∨ 0 < y) :
    civilFromDays (epochDay y m d + 719468) = ((y : Int), m, d) := by
  have hv' := hv
  obtain ⟨h1, h2, h3, h4⟩ := hv'
  have h1970 : daysBeforeYear 1970 = 719528 := by
    have := daysBeforeYear_eq 1970
    omega
  rw [epochDay, h1970]
  by_cases hm : 2 < m
  · rw [mar_of_date hv hm]
    have e2 : ((marStart y + 60 + ((153 * (m - 3) + 2) / 5 + d - 1) : Nat) : Int) - (719528 : Nat) + 719468 =
        ((marStart (400 * (y / 400) + y % 400) + ((153 * (m - 3) + 2) / 5 + d - 1) : Nat) : Int) := by
      rw [show 400 * (y / 400) + y % 400 = y by omega]; omega
    rw [e2, civilFromDays_core (by omega)]
    · rw [show 400 * (y / 400) + y % 400 = y by omega]
      have : m = 3 ∨ m = 4 ∨ m = 5 ∨ m = 6 ∨ m = 7 ∨ m = 8 ∨ m = 9 ∨ m = 10 ∨ m = 11 ∨ m = 12 := by omega
      rw [monthOf (m - 3) (by omega) d ?_ h3 ?_]
      · have hmm : (if m - 3 < 10 then m - 3 + 3 else m - 3 - 9) = m := by rw [if_pos (by omega)]; omega
        rw [hmm, if_neg (by omega)]
        refine Prod.ext ?_ (Prod.ext ?_ ?_) <;> simp only <;> omega
      all_goals
        rcases this with h | h | h | h | h | h | h | h | h | h <;> subst h <;> simp only [monthLen] at h4 <;> omega
    · have hle : (153 * (m - 3) + 2) / 5 + d - 1 ≤ 305 := by
        have : m = 3 ∨ m = 4 ∨ m = 5 ∨ m = 6 ∨ m = 7 ∨ m = 8 ∨ m = 9 ∨ m = 10 ∨ m = 11 ∨ m = 12 := by omega
        rcases this with h | h | h | h | h | h | h | h | h | h <;> subst h <;> simp only [monthLen] at h4 <;> omega
      unfold yoeLast; split <;> omega
  · obtain ⟨y, rfl⟩ : ∃ k, y = k + 1 := ⟨y - 1, by omega⟩
    rw [mar_of_date' hv (by omega)]
    have e2 : ((marStart y + 60 + ((153 * (m + 9) + 2) / 5 + d - 1) : Nat) : Int) - (719528 : Nat) + 719468 =
        ((marStart (400 * (y / 400) + y % 400) + ((153 * (m + 9) + 2) / 5 + d - 1) : Nat) : Int) := by
      rw [show 400 * (y / 400) + y % 400 = y by omega]; omega
    have hm12 : m = 1 ∨ m = 2 := by omega
    have hd29 : d ≤ 31 ∧ (m = 2 → d ≤ 29) := by
      rcases hm12 with h | h <;> subst h <;> simp only [monthLen] at h4
      · omega
      · split at h4 <;> omega
    rw [e2, civilFromDays_core (by omega)]
    · rw [show 400 * (y / 400) + y % 400 = y by omega]
      rw [monthOf (m + 9) (by omega) d (by omega) h3 (by rcases hm12 with h | h <;> subst h <;> omega)]
      have hmm : (if m + 9 < 10 then m + 9 + 3 else m + 9 - 9) = m := by rw [if_neg (by omega)]; omega
      rw [hmm, if_pos (by omega)]
      refine Prod.ext ?_ (Prod.ext ?_ ?_) <;> simp only <;> omega
    · rcases hm12 with h | h <;> subst h
      · unfold yoeLast; split <;> omega
      · simp only [monthLen, isLeap, Bool.and_eq_true, beq_iff_eq, Bool.or_eq_true, bne_iff_ne] at h4
        unfold yoeLast; split at h4 <;> split <;> omega

/-- Every day from the start of the year 0 on is one of the calendar. -/
theorem exists_date (n : Nat) :
    ∃ y m d, ValidDate y m d ∧ daysBeforeYear y + daysBeforeMonth y m + (d - 1) = n := by
  have hy : ∀ k, n < daysBeforeYear k → ∃ y, daysBeforeYear y ≤ n ∧ n < daysBeforeYear (y + 1) := by
    intro k
    induction k with
    | zero => intro h; exact absurd h (by simp [daysBeforeYear])
    | succ k ih =>
      intro h
      by_cases hk : n < daysBeforeYear k
      · exact ih hk
      · exact ⟨k, by omega, h⟩
  obtain ⟨y, h1, h2⟩ := hy (n + 1) (by have := daysBeforeYear_eq (n + 1); omega)
  rw [daysBeforeYear] at h2
  have hm : ∀ k, k ≤ 13 → n - daysBeforeYear y < daysBeforeMonth y k →
      ∃ m, m + 1 ≤ k ∧ daysBeforeMonth y m ≤ n - daysBeforeYear y ∧ n - daysBeforeYear y < daysBeforeMonth y (m + 1) := by
    intro k
    induction k with
    | zero => intro _ h; exact absurd h (by simp [daysBeforeMonth])
    | succ k ih =>
      intro hk h
      by_cases hc : n - daysBeforeYear y < daysBeforeMonth y k
      · obtain ⟨m, a, b⟩ := ih (by omega) hc; exact ⟨m, by omega, b⟩
      · exact ⟨k, by omega, by omega, h⟩
  obtain ⟨m, h3, h4, h5⟩ := hm 13 (by omega) (by omega)
  rw [daysBeforeMonth] at h5
  have h0 : m ≠ 0 := by
    rintro rfl
    have : monthLen y 0 = 0 := rfl
    omega
  exact ⟨y, m, n - daysBeforeYear y - daysBeforeMonth y m + 1, ⟨by omega, by omega, by omega, by omega⟩, by omega⟩

end Verif
