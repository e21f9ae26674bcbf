import Verif.Props.Date
import Verif.Spec.Ascii

/-!
# Property C54: days behind the end of a month
-/

namespace Verif

open Spec

theorem wrapI32_add (x k : Int) : wrapI32 (x + k) = wrapI32 (wrapI32 x + k) := by
  unfold wrapI32
  rw [Int.bmod_add_bmod]

/-- The conversion to a time point goes on counting behind the end of a month. -/
theorem civilDays_past {y m d : Nat} (h1 : 1 ≤ m) (h2 : m ≤ 12) (h3 : 1 ≤ d) (hr : epochDay y m d < 2147483648) (h mi s ns : Nat) :
    civilToMs y m d h mi s ns = instant y m d h mi s ns := by
  have hv : ValidDate y m 1 := ⟨h1, h2, Nat.le_refl _, by
    have : m = 1 ∨ m = 2 ∨ m = 3 ∨ m = 4 ∨ m = 5 ∨ m = 6 ∨ m = 7 ∨ m = 8 ∨ m = 9 ∨ m = 10 ∨ m = 11 ∨ m = 12 := by omega
    rcases this with rfl | rfl | rfl | rfl | rfl | rfl | rfl | rfl | rfl | rfl | rfl | rfl <;> simp only [monthLen] <;> (try split) <;> omega⟩
  have he : epochDay y m d = epochDay y m 1 + ((d - 1 : Nat) : Int) := by unfold epochDay; omega
  have hlow : -719528 ≤ epochDay y m 1 := by
    have h1970 : daysBeforeYear 1970 = 719528 := by
      have := daysBeforeYear_eq 1970
      omega
    rw [epochDay, h1970]; omega
  have hb := civilDays_eq hv (by omega) h mi s ns
  have key : 0 ≤ (153 * ((m : Int) + (if 2 < m then -3 else 9)) + 2).tdiv 5 := by
    rw [Int.tdiv_eq_ediv_of_nonneg (by split <;> omega)]
    split <;> omega
  unfold civilToMs instant at hb ⊢
  simp only at hb ⊢
  generalize hA : (153 * ((m : Int) + (if 2 < m then -3 else 9)) + 2).tdiv 5 = A at hb ⊢ key
  have e1 : (A + d - 1).toNat = (A + (1 : Nat) - 1).toNat + (d - 1) := by omega
  rw [e1, he]
  generalize (if (0 : Int) ≤ (y : Int) - (if m ≤ 2 then 1 else 0) then (y : Int) - (if m ≤ 2 then 1 else 0)
    else (y : Int) - (if m ≤ 2 then 1 else 0) - 399).tdiv 400 = era at hb ⊢
  generalize ((y : Int) - (if m ≤ 2 then 1 else 0) - era * 400).toNat = yoe at hb ⊢
  generalize (A + (1 : Nat) - 1).toNat = q at hb ⊢
  generalize yoe * 365 + yoe / 4 - yoe / 100 = P at hb ⊢
  have e2 : era * 146097 + ((P + (q + (d - 1)) : Nat) : Int) - 719468 = era * 146097 + ((P + q : Nat) : Int) - 719468 + ((d - 1 : Nat) : Int) := by omega
  have hw : wrapI32 (era * 146097 + ((P + q : Nat) : Int) - 719468) = epochDay y m 1 := by omega
  rw [e2, wrapI32_add, hw]
  have hw2 : wrapI32 (epochDay y m 1 + ((d - 1 : Nat) : Int)) = epochDay y m 1 + ((d - 1 : Nat) : Int) := by
    unfold wrapI32
    rw [Int.bmod_eq_of_le] <;> omega
  rw [hw2]
  omega

/-- **C54 is false of the code** for every day behind the end of its month, in every year and month and all formats: it is accepted and read as a day
of the following month. -/
theorem C54_false_for_days {txt z : Bytes} {y m d h mi s ns : Nat} (ht : IsLocalText txt y m d h mi s ns) (hz : z = [] ∨ z = [0x5A])
    (hm : 1 ≤ m ∧ m ≤ 12) (hd : monthLen y m < d ∧ d ≤ 31) (hr : epochDay y m d < 2147483648) (hh : h ≤ 24) (hmi : mi ≤ 59) (hs : s ≤ 60) :
    ¬ ValidDate y m d ∧ ValidDate y (m + 1) (d - monthLen y m) ∧
    parseTimestamp (txt ++ z) = .ok (instant y (m + 1) (d - monthLen y m) h mi s ns) := by
  obtain ⟨hm1, hm2⟩ := hm
  obtain ⟨hd1, hd2⟩ := hd
  have hlen : 28 ≤ monthLen y m ∧ (m = 12 → monthLen y m = 31) ∧ (m < 12 → 28 ≤ monthLen y (m + 1)) := by
    have : m = 1 ∨ m = 2 ∨ m = 3 ∨ m = 4 ∨ m = 5 ∨ m = 6 ∨ m = 7 ∨ m = 8 ∨ m = 9 ∨ m = 10 ∨ m = 11 ∨ m = 12 := by omega
    rcases this with rfl | rfl | rfl | rfl | rfl | rfl | rfl | rfl | rfl | rfl | rfl | rfl <;> simp [monthLen] <;> (try split) <;> omega
  obtain ⟨l1, l2, l3⟩ := hlen
  have hm12 : m < 12 := by
    rcases Nat.lt_or_ge m 12 with h | h
    · exact h
    · have := l2 (by omega); omega
  have l4 := l3 hm12
  refine ⟨fun hv => by have := hv.2.2.2; omega, ⟨by omega, by omega, by omega, by omega⟩, ?_⟩
  have hy : y < 2147483648 := by
    exact year_lt (m := m) (d := d) hr
  rw [parseTimestamp_eq ht hy (by
    rcases hz with h | h
    · exact .inl h
    · exact .inr ⟨_, _, h, by decide⟩), if_pos ⟨⟨⟨by omega, hd2⟩, hm1, hm2⟩, hh, hmi, hs⟩, applyZone_utc z hz]
  simp only [Res.ok_bind]
  rw [civilDays_past hm1 hm2 (by omega) hr]
  have he : epochDay y m d = epochDay y (m + 1) (d - monthLen y m) := by
    unfold epochDay
    rw [daysBeforeMonth]
    omega
  unfold instant
  rw [he]

example : ∃ (txt : Bytes) (y m d : Nat), IsLocalText txt y m d 12 34 56 789000000 ∧ monthLen y m < d ∧ d ≤ 31 ∧ epochDay y m d < 2147483648 := by
  refine ⟨asc! "2023-02-29T12:34:56.789", 2023, 2, 29, ?_, by decide, by decide, by decide +kernel⟩
  refine ⟨asc! "2023-02-29", asc! "12:34:56.789", rfl, ⟨asc! "2023", asc! "02", asc! "29", [0x2D], rfl, Or.inr rfl, by decide, ?_, by decide, ?_, ?_⟩,
    asc! "12", asc! "34", [0x3A], asc! ":56.789", rfl, Or.inr rfl, ?_, ?_, Or.inr ⟨asc! "56", asc! ".789", rfl, ?_, Or.inr ⟨asc! "789", rfl, by decide, by decide, ?_, by decide⟩⟩⟩
  all_goals first | (unfold IsDig; decide) | (unfold IsTwo IsDig; decide)

end Verif
