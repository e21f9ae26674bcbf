import Verif.Proof.DragonboxFloatPow
import Verif.Proof.DragonboxBridge
import Verif.Spec.Single

/-!
# Dragonbox for floats: the interval is that of the numbers that are rounded to the float
-/

namespace Verif

open Spec

/-- What is above or below `fc * 2^e`. -/
theorem float_gapF {fc : Nat} {e : Int} (hn : e = -149 ∨ 2 ^ 23 ≤ fc) {y : ℚ} (hy : IsFloat f32 y) (hne : y ≠ fc * 2 ^ e) :
    (fc * 2 ^ e + 2 ^ e : ℚ) ≤ y ∨ y ≤ fc * 2 ^ e - (if fc = 2 ^ 23 ∧ e ≠ -149 then 2 ^ e / 2 else 2 ^ e) := by
  obtain ⟨m, e', hm, he', rfl⟩ := hy
  have hP : (0 : ℚ) < 2 ^ e := by positivity
  have hle : (if fc = 2 ^ 23 ∧ e ≠ -149 then 2 ^ e / 2 else 2 ^ e : ℚ) ≤ 2 ^ e := by
    split <;> linarith
  rcases le_or_gt e e' with hee | hee
  · obtain ⟨n, hn⟩ := zpow_shift hee
    rw [hn] at hne ⊢
    have e1 : (m * (2 ^ n * 2 ^ e) : ℚ) = ((m * 2 ^ n : ℤ) : ℚ) * 2 ^ e := by push_cast; ring
    rw [e1] at hne ⊢
    generalize m * 2 ^ n = i at *
    rcases lt_trichotomy i (fc : ℤ) with hlt | heq | hlt
    · right
      have : (i : ℚ) + 1 ≤ fc := by exact_mod_cast hlt
      have := mul_le_mul_of_nonneg_right this hP.le
      linarith
    · exfalso
      apply hne
      rw [heq]
      push_cast
      rfl
    · left
      have : (fc : ℚ) + 1 ≤ i := by exact_mod_cast hlt
      have := mul_le_mul_of_nonneg_right this hP.le
      linarith
  · right
    have hne' : e ≠ -149 := by
      intro h
      rw [h] at hee
      have : -((149 : Nat) : Int) ≤ e' := he'
      omega
    have hfc : 2 ^ 23 ≤ fc := hn.resolve_left hne'
    have hm' : (m : ℚ) ≤ 2 ^ 24 - 1 := by
      have : m ≤ 2 ^ 24 - 1 := by
        have := (abs_lt.1 hm).2
        change m < 2 ^ 24 at this
        omega
      exact_mod_cast this
    have h2 : (2 : ℚ) ^ e' ≤ 2 ^ e / 2 := by
      have : (2 : ℚ) ^ e' ≤ 2 ^ (e - 1) := zpow_le_zpow_right₀ (by norm_num) (by omega)
      rwa [zpow_sub_one₀ (by norm_num), ← div_eq_mul_inv] at this
    have h3 : (m * 2 ^ e' : ℚ) ≤ (2 ^ 24 - 1) * (2 ^ e / 2) := mul_le_mul hm' h2 (by positivity) (by norm_num)
    refine h3.trans ?_
    split
    · rename_i hc
      rw [hc.1]
      push_cast
      linarith
    · rename_i hc
      have : 2 ^ 23 + 1 ≤ fc := by
        rcases Nat.eq_or_lt_of_le hfc with g | g
        · exact absurd ⟨g.symm, hne'⟩ hc
        · omega
      have : (2 ^ 23 + 1 : ℚ) ≤ fc := by exact_mod_cast this
      have := mul_le_mul_of_nonneg_right this hP.le
      linarith

theorem even_float_iffF {fc : Nat} {e : Int} (h1 : -149 ≤ e) (h2 : fc < 2 ^ 24) (hn : e = -149 ∨ 2 ^ 23 ≤ fc) :
    IsEvenFloat f32 (fc * 2 ^ e) ↔ fc % 2 = 0 := by
  constructor
  · rintro ⟨m, e', hm, he', heq, ⟨q, rfl⟩⟩
    rcases le_or_gt e e' with hee | hee
    · obtain ⟨n, hn⟩ := zpow_shift hee
      rw [hn, ← mul_assoc] at heq
      have := mul_right_cancel₀ (by positivity) heq
      have : (fc : ℤ) = 2 * q * 2 ^ n := by exact_mod_cast this
      have : (fc : ℤ) = 2 * (q * 2 ^ n) := by rw [this]; ring
      omega
    · exfalso
      have hne' : e ≠ -149 := by
        intro h
        rw [h] at hee
        have : -((149 : Nat) : Int) ≤ e' := he'
        omega
      have hfc : 2 ^ 23 ≤ fc := hn.resolve_left hne'
      obtain ⟨n, hn⟩ := zpow_shift (show e' + 1 ≤ e by omega)
      rw [hn, zpow_add_one₀ (by norm_num)] at heq
      have heq : ((fc : ℚ) * (2 ^ n * 2)) * 2 ^ e' = ((2 * q : ℤ) : ℚ) * 2 ^ e' := by rw [← heq]; ring
      have := mul_right_cancel₀ (by positivity) heq
      have : (fc : ℤ) * (2 ^ n * 2) = 2 * q := by exact_mod_cast this
      have hm := (abs_lt.1 hm).2
      change 2 * q < 2 ^ 24 at hm
      rw [← this] at hm
      have h1n : (1 : ℤ) ≤ 2 ^ n := by exact_mod_cast Nat.one_le_two_pow
      have : (2 ^ 23 : ℤ) ≤ fc := by exact_mod_cast hfc
      nlinarith
  · intro h
    refine ⟨fc, e, ?_, h1, by push_cast; rfl, by omega⟩
    rw [abs_of_nonneg (by positivity)]
    change (fc : ℤ) < 2 ^ 24
    exact_mod_cast h2

theorem isFloat_ofF {n : Nat} {e : Int} (h1 : -149 ≤ e) (h2 : n < 2 ^ 24) : IsFloat f32 (n * 2 ^ e) := by
  refine ⟨n, e, ?_, h1, by push_cast; rfl⟩
  rw [abs_of_nonneg (by positivity)]
  change (n : ℤ) < 2 ^ 24
  exact_mod_cast h2

/-- The numbers that are rounded to the float with this significand and exponent. -/
theorem rounds_iff_intervalF {fc : Nat} {e : Int} (h1 : -149 ≤ e) (h1' : e ≤ 104) (hf : 1 ≤ fc) (h2 : fc < 2 ^ 24) (hn : e = -149 ∨ 2 ^ 23 ≤ fc) {m : Nat}
    (hm : (m : ℚ) = fc * 2 ^ e * 2 ^ 149) {neg : Bool} {x : ℚ} :
    Rounds f32 neg x (.fin neg m) ↔ InIv (decide (fc % 2 = 0)) (fc * 2 ^ e - (if fc = 2 ^ 23 ∧ e ≠ -149 then 2 ^ e / 2 else 2 ^ e) / 2) (fc * 2 ^ e + 2 ^ e / 2) x := by
  have hP : (0 : ℚ) < 2 ^ e := by positivity
  have key := nearest_iff (F := f32) (fc := (fc : ℤ)) (P := (2 : ℚ) ^ e) (l := if fc = 2 ^ 23 ∧ e ≠ -149 then 2 ^ e / 2 else 2 ^ e) (x := x) hP
    (by split <;> linarith) (by rw [Int.cast_natCast]; exact isFloat_ofF h1 h2)
    (by
      rw [Int.cast_natCast]
      rcases Nat.eq_or_lt_of_le (show fc + 1 ≤ 2 ^ 24 by omega) with h | h
      · have := isFloat_ofF (n := 1) (e := e + 24) (by omega) (by decide)
        have e1 : ((1 : Nat) : ℚ) * 2 ^ (e + 24) = fc * 2 ^ e + 2 ^ e := by
          have : (fc : ℚ) + 1 = 2 ^ 24 := by exact_mod_cast h
          rw [zpow_add₀ (by norm_num), show (fc * 2 ^ e + 2 ^ e : ℚ) = (fc + 1) * 2 ^ e by ring, this]
          norm_num
          ring
        rwa [e1] at this
      · have := isFloat_ofF (n := fc + 1) (e := e) h1 h
        rwa [show ((fc + 1 : Nat) : ℚ) * 2 ^ e = fc * 2 ^ e + 2 ^ e by push_cast; ring] at this)
    (by
      rw [Int.cast_natCast]
      split
      · rename_i hc
        have := isFloat_ofF (n := 2 ^ 24 - 1) (e := e - 1) (by have := hc.2; omega) (by decide)
        rw [zpow_sub_one₀ (by norm_num)] at this
        convert this using 1
        rw [hc.1, Nat.cast_sub (by decide)]
        push_cast
        ring
      · have := isFloat_ofF (n := fc - 1) (e := e) h1 (by omega)
        convert this using 1
        rw [Nat.cast_sub hf]
        push_cast
        ring)
    (by
      intro y hy hne
      rw [Int.cast_natCast] at hne ⊢
      exact float_gapF hn hy hne)
    (closed := decide (fc % 2 = 0)) (by rw [Int.cast_natCast, even_float_iffF h1 h2 hn, decide_eq_true_eq])
  rw [Int.cast_natCast] at key
  rw [← key]
  have hE : f32.emin = 149 := rfl
  constructor
  · rintro ⟨q, hq, ⟨-, m', hv, hm'⟩ | ⟨-, hv⟩⟩
    · cases hv
      rw [hE, hm] at hm'
      rw [mul_right_cancel₀ (by positivity) hm']
      exact hq
    · cases hv
  · intro hq
    refine ⟨_, hq, .inl ⟨?_, m, rfl, by rw [hE, hm]⟩⟩
    change (fc * 2 ^ e : ℚ) < 2 ^ 128
    have a1 : (fc : ℚ) < 2 ^ 24 := by exact_mod_cast h2
    have a2 : (2 : ℚ) ^ e ≤ 2 ^ (104 : ℤ) := zpow_le_zpow_right₀ (by norm_num) h1'
    calc (fc * 2 ^ e : ℚ) < 2 ^ 24 * 2 ^ e := mul_lt_mul_of_pos_right a1 hP
      _ ≤ 2 ^ 24 * 2 ^ (104 : ℤ) := mul_le_mul_of_nonneg_left a2 (by norm_num)
      _ = 2 ^ 128 := by
        rw [show (104 : ℤ) = ((104 : Nat) : ℤ) by rfl, zpow_natCast, ← pow_add]

end Verif
