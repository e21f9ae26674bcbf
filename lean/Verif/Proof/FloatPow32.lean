import Verif.Proof.FloatPow

/-!
# The error of `power10` for `float`
-/

namespace Verif

open Spec

/-- `m / U` is at most `B / K` from `B`. -/
def nearUnits (K U B m : Nat) : Bool := decide (K * (B * U) ≤ K * m + B * U ∧ K * m ≤ K * (B * U) + B * U)

/-- The same for a floating point number. -/
def finNear (K U B : Nat) : FVal → Bool
  | .fin false m => nearUnits K U B m
  | _ => false

/-- How far an entry of the table is from the power of ten, in units of `2^-149`. -/
def pow32Ok (i : Nat) : Bool := finNear (2 ^ 24) (2 ^ 149) (10 ^ i) (pow10Tbl f32 i)

theorem pow32Ok_0 : ∀ i : Nat, i < 39 → pow32Ok i = true := by decide +kernel

theorem nearUnits_rel {m B U K : Nat} (hU : 0 < U) (hK : 0 < K) (h : nearUnits K U B m = true) : |(m : ℚ) / U - B| ≤ B / K := by
  obtain ⟨h1, h2⟩ := of_decide_eq_true h
  have hUq : (0 : ℚ) < U := by exact_mod_cast hU
  have hKq : (0 : ℚ) < K := by exact_mod_cast hK
  have g1 : (K : ℚ) * (B * U) ≤ K * m + B * U := by exact_mod_cast h1
  have g2 : (K : ℚ) * m ≤ K * (B * U) + B * U := by exact_mod_cast h2
  have e : (m : ℚ) / U - B = (K * m - K * (B * U)) / (K * U) := by field_simp
  have e2 : (B : ℚ) / K = B * U / (K * U) := by field_simp
  rw [e, e2, abs_div, abs_of_pos (by positivity : (0 : ℚ) < K * U)]
  exact div_le_div_of_nonneg_right (abs_le.2 ⟨by linarith, by linarith⟩) (by positivity)

attribute [local irreducible] nearUnits

theorem finNear_fin {K U B : Nat} {v : FVal} (h : finNear K U B v = true) : ∃ m, v = .fin false m ∧ nearUnits K U B m = true := by
  match v with
  | .fin false m => exact ⟨m, rfl, h⟩
  | .fin true m => cases h
  | .inf b => cases h
  | .nan => cases h

theorem f32_pow_rel (i : Nat) (hi : i ≤ 38) : ∃ q, IsNum f32 (pow10Tbl f32 i) false q ∧ |q - 10 ^ i| ≤ 10 ^ i / 2 ^ 24 := by
  have h := pow32Ok_0 i (by omega)
  unfold pow32Ok at h
  obtain ⟨m, hm, h1⟩ := finNear_fin h
  have h := nearUnits_rel (by positivity) (by positivity) h1
  rw [Nat.cast_pow, Nat.cast_pow, Nat.cast_pow, Nat.cast_ofNat, Nat.cast_ofNat] at h
  refine ⟨_, ⟨m, hm, ?_⟩, h⟩
  rw [show f32.emin = 149 from rfl, div_mul_cancel₀ _ (by positivity)]

/-- `power10` of a significand and an exponent within the table, for a result that is a normal `float`: three roundings. -/
theorem power10_rel32 (sig : Nat) (h0 : 0 < sig) (hs : sig < 2 ^ 30) (p : Int) (h1 : -38 ≤ p) (h2 : p ≤ 38)
    (hlo : 1 / 2 ^ 125 ≤ (sig : ℚ) * 10 ^ p) (hhi : (sig : ℚ) * 10 ^ p ≤ 2 ^ 127) :
    ∃ q x, Rounds f32 false x (power10 f32 (ofNatF f32 sig) p) ∧ IsNum f32 (power10 f32 (ofNatF f32 sig) p) false q ∧
      |q - (sig : ℚ) * 10 ^ p| ≤ (sig : ℚ) * 10 ^ p / 2 ^ 22 := by
  have hp : 2 ≤ f32.prec := by decide
  have hs1 : (1 : ℚ) ≤ sig := by exact_mod_cast h0
  have hs2 : (sig : ℚ) < 2 ^ 30 := by exact_mod_cast hs
  have hnorm : (2 : ℚ) ^ (f32.prec - 1) / 2 ^ f32.emin = 1 / 2 ^ 126 := by norm_num [f32]
  have htop : (2 : ℚ) ^ f32.top = 2 ^ 128 := rfl
  have hprec : (2 : ℚ) ^ f32.prec = 2 ^ 24 := rfl
  have hlt1 : (1 : ℚ) / 2 ^ 126 ≤ 1 := by norm_num
  obtain ⟨q₁, hq₁, he₁⟩ := rounds_rel hp (ofNatF_rounds (F := f32) hp sig) (by rw [hnorm]; linarith)
    (by
      rw [hprec, htop]
      have : (2 : ℚ) ^ 64 + 2 ^ 30 / 2 ^ 24 < 2 ^ 128 := by norm_num
      have h3 : (sig : ℚ) / 2 ^ 24 ≤ 2 ^ 30 / 2 ^ 24 := div_le_div_of_nonneg_right hs2.le (by positivity)
      linarith)
  rw [hprec] at he₁
  -- the last rounding
  have hlast : ∀ {v : FVal} {x : ℚ}, Rounds f32 false x v → |x - (sig : ℚ) * 10 ^ p| ≤ (sig : ℚ) * 10 ^ p * (5 / 2 * (1 / 2 ^ 24)) →
      ∃ q x, Rounds f32 false x v ∧ IsNum f32 v false q ∧ |q - (sig : ℚ) * 10 ^ p| ≤ (sig : ℚ) * 10 ^ p / 2 ^ 22 := by
    intro v x hv hx
    have hX : 0 ≤ (sig : ℚ) * 10 ^ p := le_trans (by positivity) hlo
    generalize (sig : ℚ) * 10 ^ p = X at *
    obtain ⟨g1, g2⟩ := abs_le.1 hx
    obtain ⟨q, hq, he⟩ := rounds_rel hp hv
      (by
        rw [hnorm]
        have : (1 : ℚ) / 2 ^ 126 ≤ 1 / 2 ^ 125 * (1 - 5 / 2 * (1 / 2 ^ 24)) := by norm_num
        have h3 : 1 / 2 ^ 125 * (1 - 5 / 2 * (1 / 2 ^ 24)) ≤ X * (1 - 5 / 2 * (1 / 2 ^ 24)) :=
          mul_le_mul_of_nonneg_right hlo (by norm_num)
        linarith)
      (by
        rw [hprec, htop]
        have h4 : x ≤ 2 ^ 127 * (1 + 5 / 2 * (1 / 2 ^ 24)) := by
          have : X * (1 + 5 / 2 * (1 / 2 ^ 24)) ≤ 2 ^ 127 * (1 + 5 / 2 * (1 / 2 ^ 24)) := mul_le_mul_of_nonneg_right hhi (by norm_num)
          linarith
        have h5 : (2 : ℚ) ^ 127 * (1 + 5 / 2 * (1 / 2 ^ 24)) * (1 + 1 / 2 ^ 24) < 2 ^ 128 := by norm_num
        have h6 : x + x / 2 ^ 24 = x * (1 + 1 / 2 ^ 24) := by ring
        rw [h6]
        exact lt_of_le_of_lt (mul_le_mul_of_nonneg_right h4 (by norm_num)) h5)
    refine ⟨q, x, hv, hq, ?_⟩
    rw [hprec] at he
    have := rel_trans (u := 1 / 2 ^ 24) (by norm_num) hx (by rw [mul_one_div]; exact he)
    refine this.trans ?_
    rw [div_eq_mul_one_div X]
    refine mul_le_mul_of_nonneg_left ?_ hX
    norm_num
  unfold power10
  rw [show ((f32.max10 : ℕ) : Int) = 38 from rfl, if_neg (by omega), if_neg (by omega)]
  by_cases hneg : p < 0
  · rw [if_pos hneg]
    obtain ⟨q₂, hq₂, he₂⟩ := f32_pow_rel (-p).toNat (by omega)
    have hB : (0 : ℚ) < 10 ^ (-p).toNat := by positivity
    have hq2 : q₂ ≠ 0 := by
      rintro rfl
      rw [zero_sub, abs_neg, abs_of_pos hB] at he₂
      have : (10 : ℚ) ^ (-p).toNat / 2 ^ 24 < 10 ^ (-p).toNat := div_lt_self hB (by norm_num)
      linarith
    refine hlast (divF_rounds hp hq₁ hq₂ hq2) ?_
    have he : (sig : ℚ) / 10 ^ (-p).toNat = sig * (10 : ℚ) ^ p := by
      rw [← zpow_natCast, Int.toNat_of_nonneg (by omega), zpow_neg]
      field_simp
    rw [← he]
    exact rel_div (by linarith) hB (by norm_num) (by norm_num) (by rw [mul_one_div]; exact he₁) (by rw [mul_one_div]; exact he₂)
  · rw [if_neg hneg]
    obtain ⟨q₂, hq₂, he₂⟩ := f32_pow_rel p.toNat (by omega)
    refine hlast (mulF_rounds hp hq₁ hq₂) ?_
    have he : (sig : ℚ) * 10 ^ p.toNat = sig * (10 : ℚ) ^ p := by
      rw [← zpow_natCast, Int.toNat_of_nonneg (by omega)]
    rw [← he]
    refine (rel_mul (u := 1 / 2 ^ 24) (by linarith) (by positivity) (by norm_num) (by rw [mul_one_div]; exact he₁)
      (by rw [mul_one_div]; exact he₂)).trans ?_
    refine mul_le_mul_of_nonneg_left (by norm_num) (by positivity)

end Verif
