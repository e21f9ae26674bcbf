import Verif.Proof.DragonboxPow
import Verif.Spec.Double

/-!
# Dragonbox: the interval is that of the numbers that are rounded to the double
-/

namespace Verif

open Spec

/-- The numbers that round to a float, with `P` the value of the last place and `l` the distance to the next smaller number. -/
theorem nearest_iff {F : FFmt} {fc : ℤ} {P l x : ℚ} (hP : 0 < P) (hl : 0 < l)
    (hself : IsFloat F (fc * P)) (hup : IsFloat F (fc * P + P)) (hdn : IsFloat F (fc * P - l))
    (hgap : ∀ y, IsFloat F y → y ≠ fc * P → fc * P + P ≤ y ∨ y ≤ fc * P - l) {closed : Bool} (hev : closed = true ↔ IsEvenFloat F (fc * P)) :
    NearestEven F x (fc * P) ↔ InIv closed (fc * P - l / 2) (fc * P + P / 2) x := by
  generalize hv : (fc * P : ℚ) = v at *
  have hub : |x - v| ≤ |x - (v + P)| → x ≤ v + P / 2 := by
    intro h
    by_contra hc
    have hc := lt_of_not_ge hc
    rw [abs_of_pos (by linarith : 0 < x - v)] at h
    rcases le_total (v + P) x with g | g
    · rw [abs_of_nonneg (by linarith)] at h; linarith
    · rw [abs_of_nonpos (by linarith)] at h; linarith
  have hlb : |x - v| ≤ |x - (v - l)| → v - l / 2 ≤ x := by
    intro h
    by_contra hc
    have hc := lt_of_not_ge hc
    rw [abs_of_neg (by linarith : x - v < 0)] at h
    rcases le_total (v - l) x with g | g
    · rw [abs_of_nonneg (by linarith)] at h; linarith
    · rw [abs_of_nonpos (by linarith)] at h; linarith
  constructor
  · rintro ⟨-, h2, h3⟩
    have u1 := hub (h2 _ hup)
    have l1 := hlb (h2 _ hdn)
    refine ⟨l1, u1, fun hc => ⟨lt_of_le_of_ne l1 fun he => ?_, lt_of_le_of_ne u1 fun he => ?_⟩⟩
    · have := hev.2 (h3 ⟨_, hdn, by intro h; linarith, by
        rw [← he, show v - l / 2 - (v - l) = l / 2 by ring, show v - l / 2 - v = -(l / 2) by ring, abs_neg]⟩)
      rw [hc] at this; cases this
    · have := hev.2 (h3 ⟨_, hup, by intro h; linarith, by
        rw [he, show v + P / 2 - (v + P) = -(P / 2) by ring, show v + P / 2 - v = P / 2 by ring, abs_neg]⟩)
      rw [hc] at this; cases this
  · rintro ⟨h1, h2, h3⟩
    refine ⟨hself, fun y hy => ?_, ?_⟩
    · by_cases he : y = v
      · rw [he]
      · rcases hgap y hy he with g | g
        · rw [abs_sub_comm x y]
          refine (abs_le.2 ⟨?_, ?_⟩ : |x - v| ≤ y - x).trans (le_abs_self _) <;> linarith
        · refine (abs_le.2 ⟨?_, ?_⟩ : |x - v| ≤ x - y).trans (le_abs_self _) <;> linarith
    · rintro ⟨y, hy, he, ht⟩
      cases hc : closed with
      | true => exact hev.1 hc
      | false =>
        exfalso
        obtain ⟨g1, g2⟩ := h3 hc
        rcases hgap y hy he with g | g
        · have : |x - v| < |x - y| := by
            rw [abs_sub_comm x y]
            exact lt_of_lt_of_le (abs_lt.2 ⟨by linarith, by linarith⟩ : |x - v| < y - x) (le_abs_self _)
          linarith
        · have : |x - v| < |x - y| := lt_of_lt_of_le (abs_lt.2 ⟨by linarith, by linarith⟩ : |x - v| < x - y) (le_abs_self _)
          linarith

theorem zpow_shift {e e' : Int} (h : e ≤ e') : ∃ n : Nat, (2 : ℚ) ^ e' = 2 ^ n * 2 ^ e := by
  obtain ⟨n, hn⟩ := Int.eq_ofNat_of_zero_le (sub_nonneg.2 h)
  exact ⟨n, by rw [← zpow_natCast, ← zpow_add₀ (by norm_num)]; congr 1; omega⟩

/-- What is above or below `fc * 2^e`. -/
theorem float_gap {fc : Nat} {e : Int} (hn : e = -1074 ∨ 2 ^ 52 ≤ fc) {y : ℚ} (hy : IsFloat f64 y) (hne : y ≠ fc * 2 ^ e) :
    (fc * 2 ^ e + 2 ^ e : ℚ) ≤ y ∨ y ≤ fc * 2 ^ e - (if fc = 2 ^ 52 ∧ e ≠ -1074 then 2 ^ e / 2 else 2 ^ e) := by
  obtain ⟨m, e', hm, he', rfl⟩ := hy
  have hP : (0 : ℚ) < 2 ^ e := by positivity
  have hle : (if fc = 2 ^ 52 ∧ e ≠ -1074 then 2 ^ e / 2 else 2 ^ e : ℚ) ≤ 2 ^ e := by
    split <;> linarith
  rcases le_or_gt e e' with hee | hee
  · obtain ⟨n, hn⟩ := zpow_shift hee
    rw [hn] at hne ⊢
    have e1 : (m * (2 ^ n * 2 ^ e) : ℚ) = ((m * 2 ^ n : ℤ) : ℚ) * 2 ^ e := by push_cast; ring
    rw [e1] at hne ⊢
    generalize m * 2 ^ n = i at *
    rcases lt_trichotomy i (fc : ℤ) with hlt | heq | hlt
    · right
      have : (i : ℚ) + 1 ≤ fc := by exact_mod_cast hlt
      have := mul_le_mul_of_nonneg_right this hP.le
      linarith
    · exfalso
      apply hne
      rw [heq]
      push_cast
      rfl
    · left
      have : (fc : ℚ) + 1 ≤ i := by exact_mod_cast hlt
      have := mul_le_mul_of_nonneg_right this hP.le
      linarith
  · right
    have hne' : e ≠ -1074 := by
      intro h
      rw [h] at hee
      have : -((1074 : Nat) : Int) ≤ e' := he'
      omega
    have hfc : 2 ^ 52 ≤ fc := hn.resolve_left hne'
    have hm' : (m : ℚ) ≤ 2 ^ 53 - 1 := by
      have : m ≤ 2 ^ 53 - 1 := by
        have := (abs_lt.1 hm).2
        change m < 2 ^ 53 at this
        omega
      exact_mod_cast this
    have h2 : (2 : ℚ) ^ e' ≤ 2 ^ e / 2 := by
      have : (2 : ℚ) ^ e' ≤ 2 ^ (e - 1) := zpow_le_zpow_right₀ (by norm_num) (by omega)
      rwa [zpow_sub_one₀ (by norm_num), ← div_eq_mul_inv] at this
    have h3 : (m * 2 ^ e' : ℚ) ≤ (2 ^ 53 - 1) * (2 ^ e / 2) := mul_le_mul hm' h2 (by positivity) (by norm_num)
    refine h3.trans ?_
    split
    · rename_i hc
      rw [hc.1]
      push_cast
      linarith
    · rename_i hc
      have : 2 ^ 52 + 1 ≤ fc := by
        rcases Nat.eq_or_lt_of_le hfc with g | g
        · exact absurd ⟨g.symm, hne'⟩ hc
        · omega
      have : (2 ^ 52 + 1 : ℚ) ≤ fc := by exact_mod_cast this
      have := mul_le_mul_of_nonneg_right this hP.le
      linarith

theorem even_float_iff {fc : Nat} {e : Int} (h1 : -1074 ≤ e) (h2 : fc < 2 ^ 53) (hn : e = -1074 ∨ 2 ^ 52 ≤ fc) :
    IsEvenFloat f64 (fc * 2 ^ e) ↔ fc % 2 = 0 := by
  constructor
  · rintro ⟨m, e', hm, he', heq, ⟨q, rfl⟩⟩
    rcases le_or_gt e e' with hee | hee
    · obtain ⟨n, hn⟩ := zpow_shift hee
      rw [hn, ← mul_assoc] at heq
      have := mul_right_cancel₀ (by positivity) heq
      have : (fc : ℤ) = 2 * q * 2 ^ n := by exact_mod_cast this
      have : (fc : ℤ) = 2 * (q * 2 ^ n) := by rw [this]; ring
      omega
    · exfalso
      have hne' : e ≠ -1074 := by
        intro h
        rw [h] at hee
        have : -((1074 : Nat) : Int) ≤ e' := he'
        omega
      have hfc : 2 ^ 52 ≤ fc := hn.resolve_left hne'
      obtain ⟨n, hn⟩ := zpow_shift (show e' + 1 ≤ e by omega)
      rw [hn, zpow_add_one₀ (by norm_num)] at heq
      have heq : ((fc : ℚ) * (2 ^ n * 2)) * 2 ^ e' = ((2 * q : ℤ) : ℚ) * 2 ^ e' := by rw [← heq]; ring
      have := mul_right_cancel₀ (by positivity) heq
      have : (fc : ℤ) * (2 ^ n * 2) = 2 * q := by exact_mod_cast this
      have hm := (abs_lt.1 hm).2
      change 2 * q < 2 ^ 53 at hm
      rw [← this] at hm
      have h1n : (1 : ℤ) ≤ 2 ^ n := by exact_mod_cast Nat.one_le_two_pow
      have : (2 ^ 52 : ℤ) ≤ fc := by exact_mod_cast hfc
      nlinarith
  · intro h
    refine ⟨fc, e, ?_, h1, by push_cast; rfl, by omega⟩
    rw [abs_of_nonneg (by positivity)]
    change (fc : ℤ) < 2 ^ 53
    exact_mod_cast h2

theorem isFloat_of {n : Nat} {e : Int} (h1 : -1074 ≤ e) (h2 : n < 2 ^ 53) : IsFloat f64 (n * 2 ^ e) := by
  refine ⟨n, e, ?_, h1, by push_cast; rfl⟩
  rw [abs_of_nonneg (by positivity)]
  change (n : ℤ) < 2 ^ 53
  exact_mod_cast h2

/-- The numbers that are rounded to the double with this significand and exponent. -/
theorem rounds_iff_interval {fc : Nat} {e : Int} (h1 : -1074 ≤ e) (h1' : e ≤ 971) (hf : 1 ≤ fc) (h2 : fc < 2 ^ 53) (hn : e = -1074 ∨ 2 ^ 52 ≤ fc) {m : Nat}
    (hm : (m : ℚ) = fc * 2 ^ e * 2 ^ 1074) {neg : Bool} {x : ℚ} :
    Rounds f64 neg x (.fin neg m) ↔ InIv (decide (fc % 2 = 0)) (fc * 2 ^ e - (if fc = 2 ^ 52 ∧ e ≠ -1074 then 2 ^ e / 2 else 2 ^ e) / 2) (fc * 2 ^ e + 2 ^ e / 2) x := by
  have hP : (0 : ℚ) < 2 ^ e := by positivity
  have key := nearest_iff (F := f64) (fc := (fc : ℤ)) (P := (2 : ℚ) ^ e) (l := if fc = 2 ^ 52 ∧ e ≠ -1074 then 2 ^ e / 2 else 2 ^ e) (x := x) hP
    (by split <;> linarith) (by rw [Int.cast_natCast]; exact isFloat_of h1 h2)
    (by
      rw [Int.cast_natCast]
      rcases Nat.eq_or_lt_of_le (show fc + 1 ≤ 2 ^ 53 by omega) with h | h
      · have := isFloat_of (n := 1) (e := e + 53) (by omega) (by decide)
        have e1 : ((1 : Nat) : ℚ) * 2 ^ (e + 53) = fc * 2 ^ e + 2 ^ e := by
          have : (fc : ℚ) + 1 = 2 ^ 53 := by exact_mod_cast h
          rw [zpow_add₀ (by norm_num), show (fc * 2 ^ e + 2 ^ e : ℚ) = (fc + 1) * 2 ^ e by ring, this]
          norm_num
          ring
        rwa [e1] at this
      · have := isFloat_of (n := fc + 1) (e := e) h1 h
        rwa [show ((fc + 1 : Nat) : ℚ) * 2 ^ e = fc * 2 ^ e + 2 ^ e by push_cast; ring] at this)
    (by
      rw [Int.cast_natCast]
      split
      · rename_i hc
        have := isFloat_of (n := 2 ^ 53 - 1) (e := e - 1) (by have := hc.2; omega) (by decide)
        rw [zpow_sub_one₀ (by norm_num)] at this
        convert this using 1
        rw [hc.1, Nat.cast_sub (by decide)]
        push_cast
        ring
      · have := isFloat_of (n := fc - 1) (e := e) h1 (by omega)
        convert this using 1
        rw [Nat.cast_sub hf]
        push_cast
        ring)
    (by
      intro y hy hne
      rw [Int.cast_natCast] at hne ⊢
      exact float_gap hn hy hne)
    (closed := decide (fc % 2 = 0)) (by rw [Int.cast_natCast, even_float_iff h1 h2 hn, decide_eq_true_eq])
  rw [Int.cast_natCast] at key
  rw [← key]
  have hE : f64.emin = 1074 := rfl
  constructor
  · rintro ⟨q, hq, ⟨-, m', hv, hm'⟩ | ⟨-, hv⟩⟩
    · cases hv
      rw [hE, hm] at hm'
      rw [mul_right_cancel₀ (by positivity) hm']
      exact hq
    · cases hv
  · intro hq
    refine ⟨_, hq, .inl ⟨?_, m, rfl, by rw [hE, hm]⟩⟩
    change (fc * 2 ^ e : ℚ) < 2 ^ 1024
    have a1 : (fc : ℚ) < 2 ^ 53 := by exact_mod_cast h2
    have a2 : (2 : ℚ) ^ e ≤ 2 ^ (971 : ℤ) := zpow_le_zpow_right₀ (by norm_num) h1'
    calc (fc * 2 ^ e : ℚ) < 2 ^ 53 * 2 ^ e := mul_lt_mul_of_pos_right a1 hP
      _ ≤ 2 ^ 53 * 2 ^ (971 : ℤ) := mul_le_mul_of_nonneg_left a2 (by norm_num)
      _ = 2 ^ 1024 := by
        rw [show (971 : ℤ) = ((971 : Nat) : ℤ) by rfl, zpow_natCast, ← pow_add]

theorem inIv_scale {closed : Bool} {lo hi w c : ℚ} (hc : 0 < c) : InIv closed lo hi w ↔ InIv closed (lo * c) (hi * c) (w * c) := by
  unfold InIv
  rw [mul_le_mul_iff_of_pos_right hc, mul_le_mul_iff_of_pos_right hc, mul_lt_mul_iff_of_pos_right hc, mul_lt_mul_iff_of_pos_right hc]

theorem fac_eq (e k : Int) : (facNum e k / facDen e k : ℚ) = 2 ^ (e - 1) * 10 ^ k := by
  unfold facNum facDen
  have h : ∀ (b : ℚ) (n : Int), 0 < b → b ^ n.toNat / b ^ (-n).toNat = b ^ n := by
    intro b n hb
    rw [← zpow_natCast, ← zpow_natCast, ← zpow_sub₀ hb.ne']
    congr 1
    omega
  push_cast
  rw [mul_div_mul_comm, show 1 - e = -(e - 1) by ring, h 2 _ (by norm_num), h 10 _ (by norm_num)]

end Verif
