import Verif.Proof.Float

/-!
# `power10`: exact arguments, relative error
-/

namespace Verif

open Spec

set_option exponentiation.threshold 3000

/-! ## Every number is rounded to something -/

theorem rat_units (F : FFmt) {x : ℚ} (hx : 0 ≤ x) : ∃ a b : Nat, 0 < b ∧ x = (a : ℚ) / b / 2 ^ F.emin := by
  have hU : (0 : ℚ) < 2 ^ F.emin := by positivity
  have h0 : 0 ≤ x * 2 ^ F.emin := by positivity
  refine ⟨(x * 2 ^ F.emin).num.toNat, (x * 2 ^ F.emin).den, (x * 2 ^ F.emin).pos, ?_⟩
  have h1 : (((x * 2 ^ F.emin).num.toNat : ℕ) : ℚ) = ((x * 2 ^ F.emin).num : ℚ) := by
    have : (((x * 2 ^ F.emin).num.toNat : ℕ) : ℤ) = (x * 2 ^ F.emin).num := Int.toNat_of_nonneg (Rat.num_nonneg.2 h0)
    exact_mod_cast this
  rw [h1, Rat.num_div_den]
  field_simp

theorem rounds_exists (F : FFmt) (hp : 2 ≤ F.prec) (neg : Bool) {x : ℚ} (hx : 0 ≤ x) : ∃ v, Rounds F neg x v := by
  obtain ⟨a, b, hb, rfl⟩ := rat_units F hx
  exact ⟨_, roundTo_rounds F hp neg a b hb⟩

/-! ## Relative error -/

theorem nearest_rel {F : FFmt} (hp : 2 ≤ F.prec) {x q : ℚ} (h : NearestEven F x q) (hx : 2 ^ (F.prec - 1) / 2 ^ F.emin ≤ x) :
    |q - x| ≤ x / 2 ^ F.prec := by
  have hU : (0 : ℚ) < 2 ^ F.emin := by positivity
  have hx0 : 0 ≤ x := le_trans (by positivity) hx
  obtain ⟨a, b, hb, rfl⟩ := rat_units F hx0
  obtain rfl := nearest_unique h (nearest_num F hp a b hb)
  have hb' : (0 : ℚ) < b := by exact_mod_cast hb
  have hG : (0 : ℚ) < 2 ^ scaleOf F a b := by positivity
  have hbig : (2 : ℚ) ^ (F.prec - 1) * 2 ^ scaleOf F a b ≤ (a : ℚ) / b := by
    by_cases hs : scaleOf F a b = 0
    · rw [hs, pow_zero, mul_one]
      rwa [div_le_div_iff_of_pos_right hU] at hx
    · have := scaleOf_le F a b (by omega) (by omega)
      rw [le_div_iff₀ hb']
      exact_mod_cast this
  have hbs : 0 < b * 2 ^ scaleOf F a b := by positivity
  obtain ⟨h1, h2⟩ := roundHalfEven_bounds a _ hbs
  have hR : roundNum F a b = roundHalfEven a (b * 2 ^ scaleOf F a b) := rfl
  rw [← hR] at h1 h2
  have h1' : 2 * (a : ℚ) ≤ (2 * roundNum F a b + 1) * (b * 2 ^ scaleOf F a b) := by exact_mod_cast h1
  have h2' : 2 * (roundNum F a b : ℚ) * (b * 2 ^ scaleOf F a b) ≤ 2 * a + b * 2 ^ scaleOf F a b := by exact_mod_cast h2
  rw [← sub_div, abs_div, abs_of_pos hU, div_right_comm]
  apply div_le_div_of_nonneg_right _ hU.le
  have hpp : (2 : ℚ) ^ F.prec = 2 * 2 ^ (F.prec - 1) := by
    rw [← pow_succ']
    congr 1
    omega
  have hhalf : (2 : ℚ) ^ scaleOf F a b / 2 ≤ (a : ℚ) / b / 2 ^ F.prec := by
    rw [hpp, le_div_iff₀ (by positivity)]
    linarith
  refine le_trans ?_ hhalf
  rw [abs_le]
  generalize (2 : ℚ) ^ scaleOf F a b = G at *
  have ha : (a : ℚ) = (a : ℚ) / b * b := by field_simp
  generalize (a : ℚ) / b = X at *
  rw [ha] at h1' h2'
  constructor
  · have : 2 * X ≤ (2 * roundNum F a b + 1) * G := by
      have : 2 * X * b ≤ (2 * roundNum F a b + 1) * G * b := by linarith
      exact le_of_mul_le_mul_right this hb'
    linarith
  · have : 2 * (roundNum F a b : ℚ) * G ≤ 2 * X + G := by
      have : 2 * (roundNum F a b : ℚ) * G * b ≤ (2 * X + G) * b := by linarith
      exact le_of_mul_le_mul_right this hb'
    linarith

theorem rounds_rel {F : FFmt} (hp : 2 ≤ F.prec) {neg : Bool} {x : ℚ} {v : FVal} (h : Rounds F neg x v)
    (hx : 2 ^ (F.prec - 1) / 2 ^ F.emin ≤ x) (ht : x + x / 2 ^ F.prec < 2 ^ F.top) : ∃ q, IsNum F v neg q ∧ |q - x| ≤ x / 2 ^ F.prec := by
  obtain ⟨q, hq, h⟩ := h
  have hr := nearest_rel hp hq hx
  have := (abs_le.1 hr).2
  rcases h with ⟨h1, m, h2, h3⟩ | ⟨h1, -⟩
  · exact ⟨q, ⟨m, h2, h3⟩, hr⟩
  · linarith

/-! ## Exact arguments -/

theorem ofNatF_exact {F : FFmt} (hp : 2 ≤ F.prec) (ht : F.prec < F.top) (n : Nat) (hn : n ≤ 2 ^ F.prec) : IsNum F (ofNatF F n) false n := by
  refine rounds_exact (ofNatF_rounds hp n) ?_ ?_
  · by_cases h : n = 2 ^ F.prec
    · exact isFloat_nat n (2 ^ (F.prec - 1)) 1 (by rw [h, pow_one, ← pow_succ]; congr 1; omega)
        (Nat.pow_lt_pow_right (by decide) (by omega))
    · exact isFloat_nat n n 0 (by simp) (by omega)
  · have : 2 ^ F.prec < 2 ^ F.top := Nat.pow_lt_pow_right (by decide) ht
    exact_mod_cast lt_of_le_of_lt hn this

theorem pow10_exact64 (i : Nat) (hi : i ≤ 22) : IsNum f64 (pow10Tbl f64 i) false (10 ^ i) := by
  have h : ∀ i < 23, pow10Tbl f64 i = .fin false (10 ^ i * 2 ^ 1074) := by decide +kernel
  exact ⟨_, h i (by omega), by push_cast; rfl⟩

theorem pow10_exact32 (i : Nat) (hi : i ≤ 10) : IsNum f32 (pow10Tbl f32 i) false (10 ^ i) := by
  have h : ∀ i < 11, pow10Tbl f32 i = .fin false (10 ^ i * 2 ^ 149) := by decide +kernel
  exact ⟨_, h i (by omega), by push_cast; rfl⟩

/-- With a significand and a power of ten that are numbers of the format there is only one rounding. -/
theorem power10_exact {F : FFmt} (hp : 2 ≤ F.prec) {v : FVal} {s : ℚ} (hv : IsNum F v false s) (k : Nat) (hk : k ≤ F.max10)
    (htbl : ∀ i, i ≤ k → IsNum F (pow10Tbl F i) false (10 ^ i)) (p : Int) (h1 : -(k : Int) ≤ p) (h2 : p ≤ k) :
    Rounds F false (s * 10 ^ p) (power10 F v p) := by
  unfold power10
  rw [if_neg (by omega), if_neg (by omega)]
  by_cases h0 : p < 0
  · rw [if_pos h0]
    have := divF_rounds hp hv (htbl (-p).toNat (by omega)) (by positivity)
    have he : s / 10 ^ (-p).toNat = s * (10 : ℚ) ^ p := by
      rw [← zpow_natCast, Int.toNat_of_nonneg (by omega), zpow_neg]
      field_simp
    rw [he] at this
    exact this
  · rw [if_neg h0]
    have := mulF_rounds hp hv (htbl p.toNat (by omega))
    have he : s * 10 ^ p.toNat = s * (10 : ℚ) ^ p := by
      rw [← zpow_natCast, Int.toNat_of_nonneg (by omega)]
    rw [he] at this
    exact this

/-! ## In general -/

theorem rel_mul {a b A B u : ℚ} (hA : 0 ≤ A) (hB : 0 ≤ B) (hu : 0 ≤ u) (ha : |a - A| ≤ A * u) (hb : |b - B| ≤ B * u) :
    |a * b - A * B| ≤ A * B * (2 * u + u * u) := by
  have h : a * b - A * B = (a - A) * (b - B) + A * (b - B) + B * (a - A) := by ring
  rw [h]
  refine (abs_add_le _ _).trans ?_
  refine (add_le_add_left (abs_add_le _ _) _).trans ?_
  rw [abs_mul, abs_mul, abs_mul, abs_of_nonneg hA, abs_of_nonneg hB]
  have h1 := mul_le_mul ha hb (abs_nonneg _) (by positivity)
  have h2 := mul_le_mul_of_nonneg_left hb hA
  have h3 := mul_le_mul_of_nonneg_left ha hB
  linarith

theorem rel_div {a b A B u : ℚ} (hA : 0 ≤ A) (hB : 0 < B) (hu : 0 ≤ u) (hu1 : u ≤ 1 / 5) (ha : |a - A| ≤ A * u) (hb : |b - B| ≤ B * u) :
    |a / b - A / B| ≤ A / B * (5 / 2 * u) := by
  have hb1 := (abs_le.1 hb).1
  have hbl : 4 / 5 * B ≤ b := by nlinarith
  have hb0 : 0 < b := by linarith
  have h : a / b - A / B = ((a - A) * B - A * (b - B)) / (b * B) := by
    field_simp
    ring
  rw [h, abs_div, abs_of_pos (by positivity : 0 < b * B), div_le_iff₀ (by positivity)]
  have h1 : |(a - A) * B - A * (b - B)| ≤ 2 * (A * B * u) := by
    refine (abs_sub _ _).trans ?_
    rw [abs_mul, abs_mul, abs_of_nonneg hA, abs_of_pos hB]
    have h2 := mul_le_mul_of_nonneg_left hb hA
    have h3 := mul_le_mul_of_nonneg_right ha hB.le
    linarith
  refine h1.trans ?_
  have h4 : A / B * (5 / 2 * u) * (b * B) = A * u * (5 / 2 * b) := by
    field_simp
  rw [h4]
  have h5 : A * u * (2 * B) ≤ A * u * (5 / 2 * b) := mul_le_mul_of_nonneg_left (by linarith) (by positivity)
  linarith

theorem rel_trans {q x X u δ : ℚ} (hu : 0 ≤ u) (hx : |x - X| ≤ X * δ) (hq : |q - x| ≤ x * u) :
    |q - X| ≤ X * (δ + u * (1 + δ)) := by
  have h : q - X = (q - x) + (x - X) := by ring
  rw [h]
  refine (abs_add_le _ _).trans ?_
  have h1 := (abs_le.1 hx).2
  have h2 : x * u ≤ X * (1 + δ) * u := mul_le_mul_of_nonneg_right (by linarith) hu
  linarith

theorem f64_pow_rounds (i : Nat) : Rounds f64 false (10 ^ i) (pow10Tbl f64 i) := by
  have := ofNatF_rounds (F := f64) (by decide) (10 ^ i)
  push_cast at this
  unfold pow10Tbl
  rw [if_pos rfl]
  exact this

theorem f64_pow_rel (i : Nat) (hi : i ≤ 308) : ∃ q, IsNum f64 (pow10Tbl f64 i) false q ∧ |q - 10 ^ i| ≤ 10 ^ i / 2 ^ 53 := by
  have hle : (10 : ℚ) ^ i ≤ 10 ^ 308 := pow_le_pow_right₀ (by norm_num) hi
  have h1 : (1 : ℚ) ≤ 10 ^ i := one_le_pow₀ (by norm_num)
  refine rounds_rel (by decide) (f64_pow_rounds i) ?_ ?_
  · rw [show (2 : ℚ) ^ (f64.prec - 1) / 2 ^ f64.emin = 1 / 2 ^ 1022 by norm_num [f64]]
    have : (1 : ℚ) / 2 ^ 1022 ≤ 1 := by norm_num
    linarith
  · rw [show (2 : ℚ) ^ f64.prec = 2 ^ 53 from rfl, show (2 : ℚ) ^ f64.top = 2 ^ 1024 from rfl]
    have : (10 : ℚ) ^ 308 + 10 ^ 308 / 2 ^ 53 < 2 ^ 1024 := by norm_num
    have h3 : (10 : ℚ) ^ i / 2 ^ 53 ≤ 10 ^ 308 / 2 ^ 53 := div_le_div_of_nonneg_right hle (by positivity)
    linarith

/-- `power10` of a significand and an exponent within the table, for a result that is a normal `double`: three roundings. -/
theorem power10_rel (sig : Nat) (h0 : 0 < sig) (hs : sig < 2 ^ 64) (p : Int) (h1 : -308 ≤ p) (h2 : p ≤ 308)
    (hlo : 1 / 2 ^ 1021 ≤ (sig : ℚ) * 10 ^ p) (hhi : (sig : ℚ) * 10 ^ p ≤ 2 ^ 1023) :
    ∃ q x, Rounds f64 false x (power10 f64 (ofNatF f64 sig) p) ∧ IsNum f64 (power10 f64 (ofNatF f64 sig) p) false q ∧
      |q - (sig : ℚ) * 10 ^ p| ≤ (sig : ℚ) * 10 ^ p / 2 ^ 51 := by
  have hp : 2 ≤ f64.prec := by decide
  have hs1 : (1 : ℚ) ≤ sig := by exact_mod_cast h0
  have hs2 : (sig : ℚ) < 2 ^ 64 := by exact_mod_cast hs
  have hnorm : (2 : ℚ) ^ (f64.prec - 1) / 2 ^ f64.emin = 1 / 2 ^ 1022 := by norm_num [f64]
  have htop : (2 : ℚ) ^ f64.top = 2 ^ 1024 := rfl
  have hprec : (2 : ℚ) ^ f64.prec = 2 ^ 53 := rfl
  have hlt1 : (1 : ℚ) / 2 ^ 1022 ≤ 1 := by norm_num
  obtain ⟨q₁, hq₁, he₁⟩ := rounds_rel hp (ofNatF_rounds (F := f64) hp sig) (by rw [hnorm]; linarith)
    (by
      rw [hprec, htop]
      have : (2 : ℚ) ^ 64 + 2 ^ 64 / 2 ^ 53 < 2 ^ 1024 := by norm_num
      have h3 : (sig : ℚ) / 2 ^ 53 ≤ 2 ^ 64 / 2 ^ 53 := div_le_div_of_nonneg_right hs2.le (by positivity)
      linarith)
  rw [hprec] at he₁
  -- the last rounding
  have hlast : ∀ {v : FVal} {x : ℚ}, Rounds f64 false x v → |x - (sig : ℚ) * 10 ^ p| ≤ (sig : ℚ) * 10 ^ p * (5 / 2 * (1 / 2 ^ 53)) →
      ∃ q x, Rounds f64 false x v ∧ IsNum f64 v false q ∧ |q - (sig : ℚ) * 10 ^ p| ≤ (sig : ℚ) * 10 ^ p / 2 ^ 51 := by
    intro v x hv hx
    have hX : 0 ≤ (sig : ℚ) * 10 ^ p := le_trans (by positivity) hlo
    generalize (sig : ℚ) * 10 ^ p = X at *
    obtain ⟨g1, g2⟩ := abs_le.1 hx
    obtain ⟨q, hq, he⟩ := rounds_rel hp hv
      (by
        rw [hnorm]
        have : (1 : ℚ) / 2 ^ 1022 ≤ 1 / 2 ^ 1021 * (1 - 5 / 2 * (1 / 2 ^ 53)) := by norm_num
        have h3 : 1 / 2 ^ 1021 * (1 - 5 / 2 * (1 / 2 ^ 53)) ≤ X * (1 - 5 / 2 * (1 / 2 ^ 53)) :=
          mul_le_mul_of_nonneg_right hlo (by norm_num)
        linarith)
      (by
        rw [hprec, htop]
        have h4 : x ≤ 2 ^ 1023 * (1 + 5 / 2 * (1 / 2 ^ 53)) := by
          have : X * (1 + 5 / 2 * (1 / 2 ^ 53)) ≤ 2 ^ 1023 * (1 + 5 / 2 * (1 / 2 ^ 53)) := mul_le_mul_of_nonneg_right hhi (by norm_num)
          linarith
        have h5 : (2 : ℚ) ^ 1023 * (1 + 5 / 2 * (1 / 2 ^ 53)) * (1 + 1 / 2 ^ 53) < 2 ^ 1024 := by norm_num
        have h6 : x + x / 2 ^ 53 = x * (1 + 1 / 2 ^ 53) := by ring
        rw [h6]
        exact lt_of_le_of_lt (mul_le_mul_of_nonneg_right h4 (by norm_num)) h5)
    refine ⟨q, x, hv, hq, ?_⟩
    rw [hprec] at he
    have := rel_trans (u := 1 / 2 ^ 53) (by norm_num) hx (by rw [mul_one_div]; exact he)
    refine this.trans ?_
    rw [div_eq_mul_one_div X]
    refine mul_le_mul_of_nonneg_left ?_ hX
    norm_num
  unfold power10
  rw [show ((f64.max10 : ℕ) : Int) = 308 from rfl, if_neg (by omega), if_neg (by omega)]
  by_cases hneg : p < 0
  · rw [if_pos hneg]
    obtain ⟨q₂, hq₂, he₂⟩ := f64_pow_rel (-p).toNat (by omega)
    have hB : (0 : ℚ) < 10 ^ (-p).toNat := by positivity
    have hq2 : q₂ ≠ 0 := by
      rintro rfl
      rw [zero_sub, abs_neg, abs_of_pos hB] at he₂
      have : (10 : ℚ) ^ (-p).toNat / 2 ^ 53 < 10 ^ (-p).toNat := div_lt_self hB (by norm_num)
      linarith
    refine hlast (divF_rounds hp hq₁ hq₂ hq2) ?_
    have he : (sig : ℚ) / 10 ^ (-p).toNat = sig * (10 : ℚ) ^ p := by
      rw [← zpow_natCast, Int.toNat_of_nonneg (by omega), zpow_neg]
      field_simp
    rw [← he]
    exact rel_div (by linarith) hB (by norm_num) (by norm_num) (by rw [mul_one_div]; exact he₁) (by rw [mul_one_div]; exact he₂)
  · rw [if_neg hneg]
    obtain ⟨q₂, hq₂, he₂⟩ := f64_pow_rel p.toNat (by omega)
    refine hlast (mulF_rounds hp hq₁ hq₂) ?_
    have he : (sig : ℚ) * 10 ^ p.toNat = sig * (10 : ℚ) ^ p := by
      rw [← zpow_natCast, Int.toNat_of_nonneg (by omega)]
    rw [← he]
    refine (rel_mul (u := 1 / 2 ^ 53) (by linarith) (by positivity) (by norm_num) (by rw [mul_one_div]; exact he₁)
      (by rw [mul_one_div]; exact he₂)).trans ?_
    refine mul_le_mul_of_nonneg_left (by norm_num) (by positivity)

theorem rel_div2 {a b A B u w : ℚ} (hA : 0 ≤ A) (hB : 0 < B) (hw : 0 ≤ w) (hu : 0 ≤ u) (hw1 : w ≤ 1 / 101) (ha : |a - A| ≤ A * u) (hb : |b - B| ≤ B * w) :
    |a / b - A / B| ≤ A / B * (101 / 100 * (u + w)) := by
  have hb1 := (abs_le.1 hb).1
  have hbl : 100 / 101 * B ≤ b := by nlinarith
  have hb0 : 0 < b := by linarith
  have h : a / b - A / B = ((a - A) * B - A * (b - B)) / (b * B) := by
    field_simp
    ring
  rw [h, abs_div, abs_of_pos (by positivity : 0 < b * B), div_le_iff₀ (by positivity)]
  have h1 : |(a - A) * B - A * (b - B)| ≤ A * (u + w) * B := by
    refine (abs_sub _ _).trans ?_
    rw [abs_mul, abs_mul, abs_of_nonneg hA, abs_of_pos hB]
    have h2 := mul_le_mul_of_nonneg_left hb hA
    have h3 := mul_le_mul_of_nonneg_right ha hB.le
    linarith
  refine h1.trans ?_
  have h4 : A / B * (101 / 100 * (u + w)) * (b * B) = A * (u + w) * (101 / 100 * b) := by
    field_simp
  rw [h4]
  exact mul_le_mul_of_nonneg_left (by linarith) (by positivity)

theorem rel_ne {q A : ℚ} (hA : 0 < A) (h : |q - A| ≤ A / 2 ^ 53) : q ≠ 0 := by
  rintro rfl
  rw [zero_sub, abs_neg, abs_of_pos hA] at h
  have : A / 2 ^ 53 < A := div_lt_self hA (by norm_num)
  linarith

/-- `power10` of a significand and an exponent below the table, for a result that is a normal `double`: five roundings. -/
theorem power10_rel_low (sig : Nat) (h0 : 0 < sig) (hs : sig < 2 ^ 64) (p : Int) (h2 : p < -308)
    (hlo : 1 / 2 ^ 1021 ≤ (sig : ℚ) * 10 ^ p) :
    ∃ q x, Rounds f64 false x (power10 f64 (ofNatF f64 sig) p) ∧ IsNum f64 (power10 f64 (ofNatF f64 sig) p) false q ∧
      |q - (sig : ℚ) * 10 ^ p| ≤ (sig : ℚ) * 10 ^ p / 2 ^ 50 := by
  have hp : 2 ≤ f64.prec := by decide
  have hs1 : (1 : ℚ) ≤ sig := by exact_mod_cast h0
  have hs2 : (sig : ℚ) < 2 ^ 64 := by exact_mod_cast hs
  have hnorm : (2 : ℚ) ^ (f64.prec - 1) / 2 ^ f64.emin = 1 / 2 ^ 1022 := by norm_num [f64]
  have htop : (2 : ℚ) ^ f64.top = 2 ^ 1024 := rfl
  have hprec : (2 : ℚ) ^ f64.prec = 2 ^ 53 := rfl
  have hlt1 : (1 : ℚ) / 2 ^ 1022 ≤ 1 := by norm_num
  have h1 : -330 ≤ p := by
    by_contra hc
    have hle : (10 : ℚ) ^ p ≤ 10 ^ (-331 : ℤ) := zpow_le_zpow_right₀ (by norm_num) (by omega)
    have h6 : (sig : ℚ) * 10 ^ p ≤ 2 ^ 64 * 10 ^ (-331 : ℤ) := mul_le_mul hs2.le hle (by positivity) (by positivity)
    have h7 : (2 : ℚ) ^ 64 * 10 ^ (-331 : ℤ) < 1 / 2 ^ 1021 := by norm_num
    exact absurd (lt_of_le_of_lt (hlo.trans h6) h7) (lt_irrefl _)
  obtain ⟨k, hk, hk2⟩ : ∃ k : ℕ, p = -((k + 308 : ℕ) : Int) ∧ k ≤ 22 := ⟨(-p).toNat - 308, by omega, by omega⟩
  have hX : (sig : ℚ) * 10 ^ p = sig / 10 ^ k / 10 ^ 308 := by
    rw [hk, zpow_neg, zpow_natCast, pow_add, div_div, div_eq_mul_inv]
  rw [hX] at hlo ⊢
  obtain ⟨q₁, hq₁, he₁⟩ := rounds_rel hp (ofNatF_rounds (F := f64) hp sig) (by rw [hnorm]; linarith)
    (by
      rw [hprec, htop]
      have : (2 : ℚ) ^ 64 + 2 ^ 64 / 2 ^ 53 < 2 ^ 1024 := by norm_num
      have h3 : (sig : ℚ) / 2 ^ 53 ≤ 2 ^ 64 / 2 ^ 53 := div_le_div_of_nonneg_right hs2.le (by positivity)
      linarith)
  obtain ⟨q₂, hq₂, he₂⟩ := f64_pow_rel k (by omega)
  obtain ⟨q₃, hq₃, he₃⟩ := f64_pow_rel 308 (le_refl _)
  rw [hprec] at he₁
  have hv : power10 f64 (ofNatF f64 sig) p = divF f64 (divF f64 (ofNatF f64 sig) (pow10Tbl f64 k)) (maxV f64) := by
    unfold power10
    rw [show ((f64.max10 : ℕ) : Int) = 308 from rfl, if_neg (by omega), if_pos (by omega), show ((f64.bot : ℕ) : Int) = 1021 from rfl, if_neg (by omega),
      powDown.eq_def, dif_neg (by rw [show f64.max10 = 308 from rfl]; omega), show (-p).toNat - f64.max10 = k by rw [show f64.max10 = 308 from rfl]; omega]
  rw [hv]
  have hB : (0 : ℚ) < 10 ^ k := by positivity
  have hB1 : (1 : ℚ) ≤ 10 ^ k := one_le_pow₀ (by norm_num)
  have hB2 : (10 : ℚ) ^ k ≤ 10 ^ 22 := pow_le_pow_right₀ (by norm_num) hk2
  have hd1 := rel_div2 (A := sig) (u := 1 / 2 ^ 53) (w := 1 / 2 ^ 53) (by linarith) hB (by norm_num) (by norm_num) (by norm_num)
    (by rw [mul_one_div]; exact he₁) (by rw [mul_one_div]; exact he₂)
  have hY1 : (sig : ℚ) / 10 ^ k ≤ 2 ^ 64 := (div_le_self (by linarith) hB1).trans hs2.le
  have hY0 : 1 / 10 ^ 22 ≤ (sig : ℚ) / 10 ^ k := by
    rw [div_le_div_iff₀ (by positivity) hB]
    have := mul_le_mul hs1 hB2 hB.le (by linarith)
    linarith
  have hYn : 0 ≤ (sig : ℚ) / 10 ^ k := by positivity
  generalize (sig : ℚ) / 10 ^ k = Y at *
  have hr1 := divF_rounds hp hq₁ hq₂ (rel_ne hB he₂)
  generalize q₁ / q₂ = x₁ at *
  obtain ⟨g1, g2⟩ := abs_le.1 hd1
  obtain ⟨q₄, hq₄, he₄⟩ := rounds_rel hp hr1
    (by
      rw [hnorm]
      have h3 : Y * (1 - 101 / 100 * (1 / 2 ^ 53 + 1 / 2 ^ 53)) ≤ x₁ := by linarith
      have h4 : 1 / 10 ^ 22 * (1 - 101 / 100 * (1 / 2 ^ 53 + 1 / 2 ^ 53)) ≤ Y * (1 - 101 / 100 * (1 / 2 ^ 53 + 1 / 2 ^ 53)) :=
        mul_le_mul_of_nonneg_right hY0 (by norm_num)
      have h5 : (1 : ℚ) / 2 ^ 1022 ≤ 1 / 10 ^ 22 * (1 - 101 / 100 * (1 / 2 ^ 53 + 1 / 2 ^ 53)) := by norm_num
      exact h5.trans (h4.trans h3))
    (by
      rw [hprec, htop]
      have h3 : x₁ ≤ Y * (1 + 101 / 100 * (1 / 2 ^ 53 + 1 / 2 ^ 53)) := by linarith
      have h4 : Y * (1 + 101 / 100 * (1 / 2 ^ 53 + 1 / 2 ^ 53)) ≤ 2 ^ 64 * (1 + 101 / 100 * (1 / 2 ^ 53 + 1 / 2 ^ 53)) :=
        mul_le_mul_of_nonneg_right hY1 (by norm_num)
      have h5 : (2 : ℚ) ^ 64 * (1 + 101 / 100 * (1 / 2 ^ 53 + 1 / 2 ^ 53)) * (1 + 1 / 2 ^ 53) < 2 ^ 1024 := by norm_num
      have h6 : x₁ + x₁ / 2 ^ 53 = x₁ * (1 + 1 / 2 ^ 53) := by ring
      rw [h6]
      exact lt_of_le_of_lt (mul_le_mul_of_nonneg_right (h3.trans h4) (by norm_num)) h5)
  rw [hprec] at he₄
  have ht1 := rel_trans (u := 1 / 2 ^ 53) (by norm_num) hd1 (by rw [mul_one_div]; exact he₄)
  have hC : (0 : ℚ) < 10 ^ 308 := by positivity
  have hd2 := rel_div2 (w := 1 / 2 ^ 53) hYn hC (by norm_num) (by norm_num) (by norm_num) ht1 (by rw [mul_one_div]; exact he₃)
  have hr2 := divF_rounds hp hq₄ hq₃ (rel_ne hC he₃)
  have hq3 : 0 ≤ Y / 10 ^ 308 := by positivity
  have hhi : Y / 10 ^ 308 ≤ 2 ^ 64 := (div_le_self hYn (one_le_pow₀ (by norm_num))).trans hY1
  change IsNum f64 (maxV f64) false q₃ at hq₃
  change Rounds f64 false (q₄ / q₃) (divF f64 (divF f64 (ofNatF f64 sig) (pow10Tbl f64 k)) (maxV f64)) at hr2
  generalize Y / 10 ^ 308 = Z at *
  generalize q₄ / q₃ = x₂ at *
  have hd3 : |x₂ - Z| ≤ Z * (5 * (1 / 2 ^ 53)) := hd2.trans (mul_le_mul_of_nonneg_left (by norm_num) hq3)
  obtain ⟨g3, g4⟩ := abs_le.1 hd3
  obtain ⟨q, hq, he⟩ := rounds_rel hp hr2
    (by
      rw [hnorm]
      have h3 : Z * (1 - 5 * (1 / 2 ^ 53)) ≤ x₂ := by linarith
      have h4 : 1 / 2 ^ 1021 * (1 - 5 * (1 / 2 ^ 53)) ≤ Z * (1 - 5 * (1 / 2 ^ 53)) := mul_le_mul_of_nonneg_right hlo (by norm_num)
      have h5 : (1 : ℚ) / 2 ^ 1022 ≤ 1 / 2 ^ 1021 * (1 - 5 * (1 / 2 ^ 53)) := by norm_num
      exact h5.trans (h4.trans h3))
    (by
      rw [hprec, htop]
      have h3 : x₂ ≤ Z * (1 + 5 * (1 / 2 ^ 53)) := by linarith
      have h4 : Z * (1 + 5 * (1 / 2 ^ 53)) ≤ 2 ^ 64 * (1 + 5 * (1 / 2 ^ 53)) := mul_le_mul_of_nonneg_right hhi (by norm_num)
      have h5 : (2 : ℚ) ^ 64 * (1 + 5 * (1 / 2 ^ 53)) * (1 + 1 / 2 ^ 53) < 2 ^ 1024 := by norm_num
      have h6 : x₂ + x₂ / 2 ^ 53 = x₂ * (1 + 1 / 2 ^ 53) := by ring
      rw [h6]
      exact lt_of_le_of_lt (mul_le_mul_of_nonneg_right (h3.trans h4) (by norm_num)) h5)
  refine ⟨q, x₂, hr2, hq, ?_⟩
  rw [hprec] at he
  have := rel_trans (u := 1 / 2 ^ 53) (by norm_num) hd3 (by rw [mul_one_div]; exact he)
  refine this.trans ?_
  rw [div_eq_mul_one_div Z]
  exact mul_le_mul_of_nonneg_left (by norm_num) hq3

theorem rounds_over {v : FVal} {x : ℚ} (h : Rounds f64 false x v) (hx : 2 ^ 1025 ≤ x) : v = .inf false := by
  have h1 : (2 : ℚ) ^ (f64.prec - 1) / 2 ^ f64.emin = 1 / 2 ^ 1022 := by norm_num [f64]
  have h2 : (1 : ℚ) / 2 ^ 1022 ≤ 2 ^ 1025 := by norm_num
  obtain ⟨q, hq, h⟩ := h
  have hr := (abs_le.1 (nearest_rel (by decide) hq (by rw [h1]; linarith))).1
  rw [show (2 : ℚ) ^ f64.prec = 2 ^ 53 from rfl] at hr
  rcases h with ⟨h3, -⟩ | ⟨-, h⟩
  · rw [show (2 : ℚ) ^ f64.top = 2 ^ 1024 from rfl] at h3
    have h4 : x * (1 - 1 / 2 ^ 53) ≤ q := by linarith [mul_one_div x (2 ^ 53)]
    have h5 : (2 : ℚ) ^ 1025 * (1 - 1 / 2 ^ 53) ≤ x * (1 - 1 / 2 ^ 53) := mul_le_mul_of_nonneg_right hx (by norm_num)
    have h6 : (2 : ℚ) ^ 1024 ≤ 2 ^ 1025 * (1 - 1 / 2 ^ 53) := by norm_num
    linarith
  · exact h

theorem f64_pow_ge (i : Nat) (hi : i ≤ 308) : ∃ q m, IsNum f64 (pow10Tbl f64 i) false q ∧ 10 ^ i * (1 - 1 / 2 ^ 53) ≤ q ∧
    pow10Tbl f64 i = .fin false m ∧ m ≠ 0 := by
  obtain ⟨q, hq, he⟩ := f64_pow_rel i hi
  have h0 : (0 : ℚ) < 10 ^ i := by positivity
  have h1 := (abs_le.1 he).1
  have h2 : 10 ^ i * (1 - 1 / 2 ^ 53) ≤ q := by linarith [mul_one_div ((10 : ℚ) ^ i) (2 ^ 53)]
  obtain ⟨m, hm, hv⟩ := hq
  refine ⟨q, m, ⟨m, hm, hv⟩, h2, hm, ?_⟩
  rintro rfl
  have hq0 := isNum_units hv
  rw [Nat.cast_zero, zero_div] at hq0
  have : (0 : ℚ) < 10 ^ i * (1 - 1 / 2 ^ 53) := mul_pos h0 (by norm_num)
  linarith

theorem maxV_over (i : Nat) (h1 : 1 ≤ i) (hi : i ≤ 308) : mulF f64 (maxV f64) (pow10Tbl f64 i) = .inf false := by
  obtain ⟨q₁, _, hq₁, g₁, -⟩ := f64_pow_ge 308 (le_refl _)
  obtain ⟨q₂, _, hq₂, g₂, -⟩ := f64_pow_ge i hi
  refine rounds_over (mulF_rounds (by decide) hq₁ hq₂) ?_
  have h10 : (10 : ℚ) ≤ 10 ^ i := by
    have : (10 : ℚ) ^ 1 ≤ 10 ^ i := pow_le_pow_right₀ (by norm_num) h1
    simpa using this
  have h9 : (9 : ℚ) ≤ q₂ := by
    have : (9 : ℚ) ≤ 10 * (1 - 1 / 2 ^ 53) := by norm_num
    have h3 : (10 : ℚ) * (1 - 1 / 2 ^ 53) ≤ 10 ^ i * (1 - 1 / 2 ^ 53) := mul_le_mul_of_nonneg_right h10 (by norm_num)
    linarith
  have h5 : (0 : ℚ) ≤ 10 ^ 308 * (1 - 1 / 2 ^ 53) := mul_nonneg (by positivity) (by norm_num)
  have h6 := mul_le_mul g₁ h9 (by norm_num) (le_trans h5 g₁)
  have h7 : (2 : ℚ) ^ 1025 ≤ 10 ^ 308 * (1 - 1 / 2 ^ 53) * 9 := by norm_num
  linarith

theorem inf_mul {v : FVal} {m : Nat} (h : v = .fin false m) (hm : m ≠ 0) : mulF f64 (.inf false) v = .inf false := by
  subst h
  simp [mulF, hm]

theorem powUp_inf (p : Nat) : powUp f64 (.inf false) p = .inf false := by
  induction p using Nat.strongRecOn with
  | _ p ih =>
    rw [powUp]
    split
    · rename_i h
      rw [show f64.max10 = 308 from rfl] at *
      obtain ⟨_, m, -, -, h1, h2⟩ := f64_pow_ge 308 (le_refl _)
      rw [inf_mul (v := maxV f64) h1 h2]
      exact ih _ (by omega)
    · rename_i h
      rw [show f64.max10 = 308 from rfl] at h
      obtain ⟨_, m, -, -, h1, h2⟩ := f64_pow_ge p (by omega)
      exact inf_mul h1 h2

theorem powUp_over (k : Nat) (h1 : 1 ≤ k) : powUp f64 (maxV f64) k = .inf false := by
  rw [powUp]
  by_cases h : 308 < k
  · rw [dif_pos ⟨by decide, h⟩, show mulF f64 (maxV f64) (maxV f64) = .inf false from maxV_over 308 (by decide) (by decide)]
    exact powUp_inf _
  · rw [dif_neg (fun g => h g.2)]
    exact maxV_over k h1 (by omega)

theorem ofNatF_pos (F : FFmt) (hp : 2 ≤ F.prec) (n : Nat) (h0 : 0 < n) : (∃ m, ofNatF F n = .fin false m ∧ m ≠ 0) ∨ ofNatF F n = .inf false := by
  obtain ⟨q, hq, h1⟩ := ofNatF_rounds (F := F) hp n
  have hne : q ≠ 0 := by
    rintro rfl
    have := hq.2.1 1 (by exact_mod_cast isFloat_nat (F := F) 1 1 0 rfl (Nat.one_lt_two_pow (by omega)))
    have hs1 : (1 : ℚ) ≤ n := by exact_mod_cast h0
    rw [sub_zero, abs_of_nonneg (by linarith), abs_of_nonneg (by linarith)] at this
    linarith
  rcases h1 with ⟨h1, m, h3, h4⟩ | ⟨h1, h3⟩
  · refine Or.inl ⟨m, h3, ?_⟩
    rintro rfl
    apply hne
    rw [isNum_units h4]
    simp
  · exact Or.inr h3

theorem mulF_inf (F : FFmt) {v : FVal} (h : (∃ m, v = .fin false m ∧ m ≠ 0) ∨ v = .inf false) : mulF F v (.inf false) = .inf false := by
  rcases h with ⟨m, rfl, h⟩ | rfl
  · simp [mulF, h]
  · rfl

/-- Beyond the table every significand but zero gives infinity. -/
theorem power10_over (sig : Nat) (h0 : 0 < sig) (p : Int) (h : 308 < p) : power10 f64 (ofNatF f64 sig) p = .inf false := by
  have hv := ofNatF_pos f64 (by decide) sig h0
  generalize ofNatF f64 sig = v at hv
  unfold power10
  rw [show ((f64.max10 : ℕ) : Int) = 308 from rfl, show ((f64.top : ℕ) : Int) = 1024 from rfl, if_pos h]
  by_cases h2 : 1024 < p
  · rw [if_pos h2]
  · rw [if_neg h2, show f64.max10 = 308 from rfl, powUp_over (p.toNat - 308) (by omega), mulF_inf f64 hv]

end Verif
