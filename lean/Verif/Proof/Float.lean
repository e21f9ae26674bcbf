import Mathlib.Tactic.Linarith
import Mathlib.Tactic.Positivity
import Mathlib.Tactic.FieldSimp
import Mathlib.Tactic.Ring
import Mathlib.Tactic.NormNum
import Mathlib.Algebra.Order.Field.Power
import Mathlib.Algebra.Order.Ring.Abs
import Verif.Model.Float

/-!
# Rounding is rounding to nearest, ties to even
-/

namespace Verif

open Spec

/-! ## Rounding to an integer -/

theorem roundHalfEven_bounds (a b : Nat) (hb : 0 < b) :
    2 * a ≤ (2 * roundHalfEven a b + 1) * b ∧ 2 * roundHalfEven a b * b ≤ 2 * a + b := by
  have h := Nat.div_add_mod a b
  have hm := Nat.mod_lt a hb
  unfold roundHalfEven
  generalize a / b = q at *
  generalize a % b = r at *
  subst h
  constructor
  · split
    · nlinarith
    · split
      · nlinarith
      · split <;> nlinarith
  · split
    · nlinarith
    · split
      · nlinarith
      · split <;> nlinarith

theorem roundHalfEven_odd (a b : Nat) (hb : 0 < b) (ho : roundHalfEven a b % 2 = 1) :
    2 * a < (2 * roundHalfEven a b + 1) * b ∧ 2 * roundHalfEven a b * b < 2 * a + b := by
  have h := Nat.div_add_mod a b
  have hm := Nat.mod_lt a hb
  unfold roundHalfEven at *
  generalize a / b = q at *
  generalize a % b = r at *
  subst h
  split at ho
  · rename_i h1
    rw [if_pos h1]
    constructor <;> nlinarith
  · rename_i h1
    rw [if_neg h1]
    split at ho
    · rename_i h2
      rw [if_pos h2]
      constructor <;> nlinarith
    · rename_i h2
      split at ho
      · omega
      · omega

/-- The integer chosen is a nearest one; if it is odd, no other is as near. -/
theorem roundHalfEven_near (a b : Nat) (hb : 0 < b) (z : ℤ) :
    |(a : ℚ) / b - roundHalfEven a b| ≤ |(a : ℚ) / b - z| ∧
      (z ≠ roundHalfEven a b → roundHalfEven a b % 2 = 1 → |(a : ℚ) / b - roundHalfEven a b| < |(a : ℚ) / b - z|) := by
  have hb' : (0 : ℚ) < b := by exact_mod_cast hb
  obtain ⟨h1, h2⟩ := roundHalfEven_bounds a b hb
  have h1' : (a : ℚ) / b - roundHalfEven a b ≤ 1 / 2 := by
    rw [sub_le_iff_le_add, div_le_iff₀ hb']
    have : (2 * a : ℚ) ≤ (2 * roundHalfEven a b + 1) * b := by exact_mod_cast h1
    linarith
  have h2' : -(1 / 2) ≤ (a : ℚ) / b - roundHalfEven a b := by
    rw [le_sub_iff_add_le, le_div_iff₀ hb']
    have : (2 * roundHalfEven a b * b : ℚ) ≤ 2 * a + b := by exact_mod_cast h2
    linarith
  have habs : |(a : ℚ) / b - roundHalfEven a b| ≤ 1 / 2 := abs_le.2 ⟨by linarith, h1'⟩
  by_cases hz : z = roundHalfEven a b
  · subst hz
    simp
  · have hfar : 1 / 2 ≤ |(a : ℚ) / b - z| := by
      rcases Int.lt_or_gt_of_ne hz with h | h
      · have : (z : ℚ) + 1 ≤ (roundHalfEven a b : ℚ) := by exact_mod_cast h
        exact le_trans (by linarith) (le_abs_self _)
      · have : (roundHalfEven a b : ℚ) + 1 ≤ (z : ℚ) := by exact_mod_cast h
        exact le_trans (by linarith) (neg_le_abs _)
    refine ⟨habs.trans hfar, fun _ ho => lt_of_lt_of_le ?_ hfar⟩
    obtain ⟨g1, g2⟩ := roundHalfEven_odd a b hb ho
    refine abs_lt.2 ⟨?_, ?_⟩
    · rw [lt_sub_iff_add_lt, lt_div_iff₀ hb']
      have : (2 * roundHalfEven a b * b : ℚ) < 2 * a + b := by exact_mod_cast g2
      linarith
    · rw [sub_lt_iff_lt_add, div_lt_iff₀ hb']
      have : (2 * a : ℚ) < (2 * roundHalfEven a b + 1) * b := by exact_mod_cast g1
      linarith

/-! ## Rounding to a format, in units of the smallest number -/

/-- The scale chosen in `roundTo`. -/
def scaleOf (F : FFmt) (a b : Nat) : Nat := (a / b).log2 + 1 - F.prec

/-- The number chosen in `roundTo`. -/
def roundNum (F : FFmt) (a b : Nat) : Nat := roundHalfEven a (b * 2 ^ scaleOf F a b)

theorem roundTo_def (F : FFmt) (neg : Bool) (a b : Nat) : roundTo F neg a b =
    if roundNum F a b * 2 ^ scaleOf F a b < 2 ^ (F.top + F.emin) then .fin neg (roundNum F a b * 2 ^ scaleOf F a b) else .inf neg := rfl

theorem scaleOf_lt (F : FFmt) (a b : Nat) (hb : 0 < b) : a < 2 ^ (F.prec + scaleOf F a b) * b := by
  have h1 : a / b < 2 ^ ((a / b).log2 + 1) := Nat.lt_log2_self
  have h2 : 2 ^ ((a / b).log2 + 1) ≤ 2 ^ (F.prec + scaleOf F a b) := Nat.pow_le_pow_right (by decide) (by unfold scaleOf; omega)
  exact (Nat.div_lt_iff_lt_mul hb).1 (lt_of_lt_of_le h1 h2)

theorem scaleOf_le (F : FFmt) (a b : Nat) (hs : 0 < scaleOf F a b) (hp : 0 < F.prec) :
    2 ^ (F.prec - 1) * 2 ^ scaleOf F a b * b ≤ a := by
  have h0 : a / b ≠ 0 := by
    intro h
    unfold scaleOf at hs
    rw [h] at hs
    simp at hs
    omega
  have h1 : 2 ^ (a / b).log2 ≤ a / b := Nat.log2_self_le h0
  have h2 : F.prec - 1 + scaleOf F a b = (a / b).log2 := by unfold scaleOf at *; omega
  rw [← pow_add, h2]
  exact le_trans (Nat.mul_le_mul_right _ h1) (Nat.div_mul_le_self a b)

theorem roundNum_le (F : FFmt) (a b : Nat) (hb : 0 < b) : roundNum F a b ≤ 2 ^ F.prec := by
  have h := scaleOf_lt F a b hb
  have hbs : 0 < b * 2 ^ scaleOf F a b := by positivity
  have h2 := (roundHalfEven_bounds a _ hbs).2
  rw [pow_add] at h
  unfold roundNum
  by_contra hc
  have h3 : 2 ^ F.prec + 1 ≤ roundHalfEven a (b * 2 ^ scaleOf F a b) := by omega
  have h4 : a < 2 ^ F.prec * (b * 2 ^ scaleOf F a b) := by linarith
  generalize b * 2 ^ scaleOf F a b = B at *
  generalize roundHalfEven a B = R at *
  nlinarith

/-- Nearest among all numbers of the format, in units. -/
theorem roundNum_near (F : FFmt) (hp : 2 ≤ F.prec) (a b : Nat) (hb : 0 < b) (m : ℤ) (e : Nat) (hm : |m| < 2 ^ F.prec) :
    |(a : ℚ) / b - roundNum F a b * 2 ^ scaleOf F a b| ≤ |(a : ℚ) / b - m * 2 ^ e| ∧
      (m * 2 ^ e ≠ (roundNum F a b : ℚ) * 2 ^ scaleOf F a b → roundNum F a b % 2 = 1 →
        |(a : ℚ) / b - roundNum F a b * 2 ^ scaleOf F a b| < |(a : ℚ) / b - m * 2 ^ e|) := by
  have hb' : (0 : ℚ) < b := by exact_mod_cast hb
  set s := scaleOf F a b with hs
  have hG : (0 : ℚ) < 2 ^ s := by positivity
  have hbs : 0 < b * 2 ^ s := by positivity
  have hscale : ∀ y : ℚ, |(a : ℚ) / b - y * 2 ^ s| = |(a : ℚ) / ((b * 2 ^ s : ℕ) : ℚ) - y| * 2 ^ s := by
    intro y
    rw [← abs_of_pos hG, ← abs_mul, abs_of_pos hG]
    congr 1
    push_cast
    field_simp
  have key := roundHalfEven_near a (b * 2 ^ s) hbs
  have hR : roundNum F a b = roundHalfEven a (b * 2 ^ s) := rfl
  rw [← hR] at key
  by_cases hes : s ≤ e
  · obtain ⟨d, rfl⟩ := Nat.exists_eq_add_of_le hes
    have hz : (m : ℚ) * 2 ^ (s + d) = ((m * 2 ^ d : ℤ) : ℚ) * 2 ^ s := by push_cast; ring
    rw [hz, hscale, hscale]
    obtain ⟨k1, k2⟩ := key (m * 2 ^ d)
    refine ⟨mul_le_mul_of_nonneg_right k1 hG.le, fun hne ho => mul_lt_mul_of_pos_right (k2 ?_ ho) hG⟩
    intro h
    apply hne
    rw [h]
    push_cast
    ring
  · have hs0 : 0 < s := by omega
    have hle := scaleOf_le F a b hs0 (by omega)
    rw [← hs] at hle
    have hX : (2 : ℚ) ^ (F.prec - 1) * 2 ^ s ≤ (a : ℚ) / b := by
      rw [le_div_iff₀ hb']
      exact_mod_cast hle
    have hY : (m : ℚ) * 2 ^ e < 2 ^ (F.prec - 1) * 2 ^ s := by
      have h1 : (m : ℚ) < 2 ^ F.prec := by
        have := lt_of_le_of_lt (le_abs_self m) hm
        exact_mod_cast this
      have h2 : (2 : ℚ) ^ (F.prec - 1) * 2 ^ s = 2 ^ F.prec * 2 ^ (s - 1) := by
        rw [← pow_add, ← pow_add]
        congr 1
        omega
      rw [h2]
      have h3 : (2 : ℚ) ^ e ≤ 2 ^ (s - 1) := pow_le_pow_right₀ (by norm_num) (by omega)
      calc (m : ℚ) * 2 ^ e < 2 ^ F.prec * 2 ^ e := mul_lt_mul_of_pos_right h1 (by positivity)
        _ ≤ _ := mul_le_mul_of_nonneg_left h3 (by positivity)
    have hstrict : |(a : ℚ) / b - roundNum F a b * 2 ^ s| < |(a : ℚ) / b - m * 2 ^ e| := by
      have h1 : |(a : ℚ) / b - roundNum F a b * 2 ^ s| ≤ |(a : ℚ) / b - 2 ^ (F.prec - 1) * 2 ^ s| := by
        have := (key (2 ^ (F.prec - 1))).1
        rw [hscale, hscale]
        push_cast at this ⊢
        exact mul_le_mul_of_nonneg_right this hG.le
      refine lt_of_le_of_lt h1 ?_
      rw [abs_of_nonneg (by linarith), abs_of_nonneg (by linarith)]
      linarith
    exact ⟨hstrict.le, fun _ _ => hstrict⟩

/-! ## `roundTo` rounds -/

theorem unit_pow {F : FFmt} {e : ℤ} (he : -(F.emin : ℤ) ≤ e) : (2 : ℚ) ^ e * 2 ^ F.emin = 2 ^ (e + F.emin).toNat := by
  have h : ((e + F.emin).toNat : ℤ) = e + F.emin := Int.toNat_of_nonneg (by omega)
  rw [← zpow_natCast (2 : ℚ) (e + F.emin).toNat, h, zpow_add₀ (by norm_num), zpow_natCast]

theorem isFloat_num (F : FFmt) (hp : 2 ≤ F.prec) (a b : Nat) (hb : 0 < b) :
    IsFloat F ((roundNum F a b : ℚ) * 2 ^ scaleOf F a b / 2 ^ F.emin) ∧
      (roundNum F a b % 2 = 0 → IsEvenFloat F ((roundNum F a b : ℚ) * 2 ^ scaleOf F a b / 2 ^ F.emin)) := by
  have hle := roundNum_le F a b hb
  set s := scaleOf F a b
  set R := roundNum F a b
  have hz : ∀ k : Nat, (2 : ℚ) ^ ((k : ℤ) - (F.emin : ℤ)) = 2 ^ k / 2 ^ F.emin := by
    intro k
    rw [zpow_sub₀ (by norm_num), zpow_natCast, zpow_natCast]
  by_cases hR : R = 2 ^ F.prec
  · have hv : IsEvenFloat F ((R : ℚ) * 2 ^ s / 2 ^ F.emin) := by
      refine ⟨2 ^ (F.prec - 1), ((s + 1 : ℕ) : ℤ) - (F.emin : ℤ), ?_, by push_cast; omega, ?_, ?_⟩
      · rw [abs_of_pos (by positivity)]
        exact pow_lt_pow_right₀ (by norm_num) (by omega)
      · rw [hz, hR]
        push_cast
        have : (2 : ℚ) ^ F.prec = 2 ^ (F.prec - 1) * 2 := by
          rw [← pow_succ]
          congr 1
          omega
        rw [this]
        ring
      · exact dvd_pow_self 2 (by omega)
    obtain ⟨m, e, h1, h2, h3, h4⟩ := hv
    exact ⟨⟨m, e, h1, h2, h3⟩, fun _ => ⟨m, e, h1, h2, h3, h4⟩⟩
  · have hlt : R < 2 ^ F.prec := by omega
    have hv : |(R : ℤ)| < 2 ^ F.prec := by
      rw [abs_of_nonneg (by positivity)]
      exact_mod_cast hlt
    have he : ((R : ℚ) * 2 ^ s / 2 ^ F.emin) = ((R : ℤ) : ℚ) * (2 : ℚ) ^ ((s : ℤ) - (F.emin : ℤ)) := by
      rw [hz]
      push_cast
      ring
    exact ⟨⟨R, (s : ℤ) - F.emin, hv, by omega, he⟩, fun h => ⟨R, (s : ℤ) - F.emin, hv, by omega, he, by omega⟩⟩

/-- What `roundTo` chooses is the nearest number of the format, ties to even. -/
theorem nearest_num (F : FFmt) (hp : 2 ≤ F.prec) (a b : Nat) (hb : 0 < b) :
    NearestEven F ((a : ℚ) / b / 2 ^ F.emin) ((roundNum F a b : ℚ) * 2 ^ scaleOf F a b / 2 ^ F.emin) := by
  have hU : (0 : ℚ) < 2 ^ F.emin := by positivity
  obtain ⟨hf, hev⟩ := isFloat_num F hp a b hb
  have hsc : ∀ y : ℚ, |(a : ℚ) / b / 2 ^ F.emin - y / 2 ^ F.emin| = |(a : ℚ) / b - y| / 2 ^ F.emin := by
    intro y
    rw [← sub_div, abs_div, abs_of_pos hU]
  refine ⟨hf, ?_, ?_⟩
  · rintro y ⟨m, e, h1, h2, rfl⟩
    have hy : (m : ℚ) * 2 ^ e = m * 2 ^ (e + F.emin).toNat / 2 ^ F.emin := by
      rw [← unit_pow h2]
      field_simp
    rw [hy, hsc, hsc]
    exact div_le_div_of_nonneg_right (roundNum_near F hp a b hb m _ h1).1 hU.le
  · rintro ⟨y, ⟨m, e, h1, h2, rfl⟩, hne, heq⟩
    apply hev
    by_contra ho
    have hy : (m : ℚ) * 2 ^ e = m * 2 ^ (e + F.emin).toNat / 2 ^ F.emin := by
      rw [← unit_pow h2]
      field_simp
    rw [hy] at hne heq
    have := (roundNum_near F hp a b hb m (e + F.emin).toNat h1).2 (fun h => hne (by rw [h])) (by omega)
    rw [hsc, hsc] at heq
    have h3 := div_lt_div_of_pos_right this hU
    rw [heq] at h3
    exact lt_irrefl _ h3

theorem roundTo_rounds (F : FFmt) (hp : 2 ≤ F.prec) (neg : Bool) (a b : Nat) (hb : 0 < b) :
    Rounds F neg ((a : ℚ) / b / 2 ^ F.emin) (roundTo F neg a b) := by
  have hU : (0 : ℚ) < 2 ^ F.emin := by positivity
  refine ⟨_, nearest_num F hp a b hb, ?_⟩
  rw [roundTo_def]
  split
  · rename_i h
    left
    refine ⟨?_, _, rfl, ?_⟩
    · rw [div_lt_iff₀ hU, ← pow_add]
      exact_mod_cast h
    · push_cast
      field_simp
  · rename_i h
    right
    refine ⟨?_, rfl⟩
    rw [le_div_iff₀ hU, ← pow_add]
    exact_mod_cast (not_lt.1 h)

/-! ## Rounding is a function -/

theorem float_between {F : FFmt} {q r : ℚ} (hq : IsEvenFloat F q) (hr : IsEvenFloat F r) (h : q < r) : ∃ y, IsFloat F y ∧ q < y ∧ y < r := by
  obtain ⟨m, e, h1, h2, rfl, k, rfl⟩ := hq
  obtain ⟨m', e', g1, g2, rfl, k', rfl⟩ := hr
  have hpos : ∀ j : ℤ, (0 : ℚ) < 2 ^ j := fun j => zpow_pos (by norm_num) j
  have hbig : ∀ k : ℤ, |2 * k| < 2 ^ F.prec → F.prec ≠ 0 → |2 * k| + 1 < 2 ^ F.prec := by
    intro k hk h0
    obtain ⟨p, hp⟩ := Nat.exists_eq_succ_of_ne_zero h0
    have h2 : (2 : ℤ) ^ F.prec = 2 ^ p * 2 := by rw [hp, pow_succ]
    have : |2 * k| = 2 * |k| := by rw [abs_mul]; rfl
    omega
  have hp0 : F.prec ≠ 0 := by
    intro h0
    rw [h0] at h1 g1
    have e1 : k = 0 := by
      by_contra hk
      have := abs_pos.2 (mul_ne_zero two_ne_zero hk)
      omega
    have e2 : k' = 0 := by
      by_contra hk
      have := abs_pos.2 (mul_ne_zero two_ne_zero hk)
      omega
    subst e1 e2
    simp at h
  by_cases hee : e ≤ e'
  · obtain ⟨d, hd⟩ := Int.eq_ofNat_of_zero_le (by omega : 0 ≤ e' - e)
    have he' : e' = e + d := by omega
    subst he'
    have hr' : ((2 * k' : ℤ) : ℚ) * 2 ^ (e + d : ℤ) = ((2 * (k' * 2 ^ d) : ℤ) : ℚ) * 2 ^ e := by
      rw [zpow_add₀ (by norm_num), zpow_natCast]
      push_cast
      ring
    rw [hr'] at h ⊢
    have hlt : 2 * k < 2 * (k' * 2 ^ d) := by
      have := lt_of_mul_lt_mul_right h (hpos e).le
      exact_mod_cast this
    refine ⟨((2 * k + 1 : ℤ) : ℚ) * 2 ^ e, ⟨2 * k + 1, e, ?_, h2, rfl⟩, ?_, ?_⟩
    · exact lt_of_le_of_lt (abs_add_le _ _) (hbig k h1 hp0)
    · exact mul_lt_mul_of_pos_right (by exact_mod_cast (by omega : 2 * k < 2 * k + 1)) (hpos e)
    · exact mul_lt_mul_of_pos_right (by exact_mod_cast (by omega : 2 * k + 1 < 2 * (k' * 2 ^ d))) (hpos e)
  · obtain ⟨d, hd⟩ := Int.eq_ofNat_of_zero_le (by omega : 0 ≤ e - e')
    have he' : e = e' + d := by omega
    subst he'
    have hr' : ((2 * k : ℤ) : ℚ) * 2 ^ (e' + d : ℤ) = ((2 * (k * 2 ^ d) : ℤ) : ℚ) * 2 ^ e' := by
      rw [zpow_add₀ (by norm_num), zpow_natCast]
      push_cast
      ring
    rw [hr'] at h ⊢
    have hlt : 2 * (k * 2 ^ d) < 2 * k' := by
      have := lt_of_mul_lt_mul_right h (hpos e').le
      exact_mod_cast this
    refine ⟨((2 * k' - 1 : ℤ) : ℚ) * 2 ^ e', ⟨2 * k' - 1, e', ?_, g2, rfl⟩, ?_, ?_⟩
    · exact lt_of_le_of_lt (abs_sub _ _) (hbig k' g1 hp0)
    · exact mul_lt_mul_of_pos_right (by exact_mod_cast (by omega : 2 * (k * 2 ^ d) < 2 * k' - 1)) (hpos e')
    · exact mul_lt_mul_of_pos_right (by exact_mod_cast (by omega : 2 * k' - 1 < 2 * k')) (hpos e')

theorem nearest_lt {F : FFmt} {x q r : ℚ} (hq : NearestEven F x q) (hr : NearestEven F x r) (h : q < r) : False := by
  have heq : |x - q| = |x - r| := le_antisymm (hq.2.1 r hr.1) (hr.2.1 q hq.1)
  have e1 := hq.2.2 ⟨r, hr.1, h.ne', heq.symm⟩
  have e2 := hr.2.2 ⟨q, hq.1, h.ne, heq⟩
  obtain ⟨y, hy, h1, h2⟩ := float_between e1 e2 h
  have h3 := hq.2.1 y hy
  -- `x` is in the middle
  have hmid : x = (q + r) / 2 := by
    rcases abs_eq_abs.1 heq with h | h <;> linarith
  subst hmid
  rw [abs_of_pos (by linarith)] at h3
  rcases le_abs.1 h3 with h | h <;> linarith

theorem nearest_unique {F : FFmt} {x q r : ℚ} (hq : NearestEven F x q) (hr : NearestEven F x r) : q = r := by
  rcases lt_trichotomy q r with h | h | h
  · exact absurd h (fun h => nearest_lt hq hr h)
  · exact h
  · exact absurd h (fun h => nearest_lt hr hq h)

theorem rounds_unique {F : FFmt} {neg : Bool} {x : ℚ} {v w : FVal} (hv : Rounds F neg x v) (hw : Rounds F neg x w) : v = w := by
  obtain ⟨q, hq, hv⟩ := hv
  obtain ⟨r, hr, hw⟩ := hw
  obtain rfl := nearest_unique hq hr
  rcases hv with ⟨h1, m, rfl, h2⟩ | ⟨h1, rfl⟩
  · rcases hw with ⟨g1, n, rfl, g2⟩ | ⟨g1, rfl⟩
    · rw [← g2] at h2
      rw [Nat.cast_inj.1 h2]
    · linarith
  · rcases hw with ⟨g1, n, rfl, g2⟩ | ⟨g1, rfl⟩
    · linarith
    · rfl

/-- A number of the format is rounded to itself. -/
theorem nearest_self {F : FFmt} {x q : ℚ} (hx : IsFloat F x) (h : NearestEven F x q) : q = x := by
  have := h.2.1 x hx
  rw [sub_self, abs_zero] at this
  have := abs_eq_zero.1 (le_antisymm this (abs_nonneg _))
  linarith

theorem rounds_exact {F : FFmt} {neg : Bool} {x : ℚ} {v : FVal} (h : Rounds F neg x v) (hx : IsFloat F x) (ht : x < 2 ^ F.top) : IsNum F v neg x := by
  obtain ⟨q, hq, h⟩ := h
  obtain rfl := nearest_self hx hq
  rcases h with ⟨-, m, h1, h2⟩ | ⟨h1, -⟩
  · exact ⟨m, h1, h2⟩
  · linarith

/-! ## The operations -/

theorem isNum_units {F : FFmt} {m : Nat} {x : ℚ} (h : (m : ℚ) = x * 2 ^ F.emin) : x = m / 2 ^ F.emin := by
  rw [h]
  field_simp

theorem mulF_rounds {F : FFmt} (hp : 2 ≤ F.prec) {v w : FVal} {a b : Bool} {x y : ℚ} (hv : IsNum F v a x) (hw : IsNum F w b y) :
    Rounds F (a != b) (x * y) (mulF F v w) := by
  obtain ⟨m, rfl, hm⟩ := hv
  obtain ⟨n, rfl, hn⟩ := hw
  have := roundTo_rounds F hp (a != b) (m * n) (2 ^ F.emin) (by positivity)
  have he : ((m * n : ℕ) : ℚ) / ((2 ^ F.emin : ℕ) : ℚ) / 2 ^ F.emin = x * y := by
    push_cast
    rw [isNum_units hm, isNum_units hn]
    field_simp
  rw [he] at this
  exact this

theorem divF_rounds {F : FFmt} (hp : 2 ≤ F.prec) {v w : FVal} {a b : Bool} {x y : ℚ} (hv : IsNum F v a x) (hw : IsNum F w b y) (hy : y ≠ 0) :
    Rounds F (a != b) (x / y) (divF F v w) := by
  obtain ⟨m, rfl, hm⟩ := hv
  obtain ⟨n, rfl, hn⟩ := hw
  have hn0 : n ≠ 0 := by
    rintro rfl
    apply hy
    rw [isNum_units hn]
    simp
  have := roundTo_rounds F hp (a != b) (m * 2 ^ F.emin) n (by omega)
  have hn' : (n : ℚ) ≠ 0 := by exact_mod_cast hn0
  have he : ((m * 2 ^ F.emin : ℕ) : ℚ) / (n : ℚ) / 2 ^ F.emin = x / y := by
    push_cast
    rw [isNum_units hm, isNum_units hn]
    field_simp
  rw [he] at this
  change Rounds F (a != b) (x / y) (if n = 0 then (if m = 0 then .nan else .inf (a != b)) else roundTo F (a != b) (m * 2 ^ F.emin) n)
  rw [if_neg hn0]
  exact this

theorem ofNatF_rounds {F : FFmt} (hp : 2 ≤ F.prec) (n : Nat) : Rounds F false n (ofNatF F n) := by
  have := roundTo_rounds F hp false (n * 2 ^ F.emin) 1 (by decide)
  have he : ((n * 2 ^ F.emin : ℕ) : ℚ) / ((1 : ℕ) : ℚ) / 2 ^ F.emin = n := by
    push_cast
    field_simp
  rw [he] at this
  exact this

/-- An integer of the form `m × 2^k` with `m` of at most `prec` bits is a number of the format. -/
theorem isFloat_nat {F : FFmt} (n m k : Nat) (h : n = m * 2 ^ k) (hm : m < 2 ^ F.prec) : IsFloat F n := by
  refine ⟨m, k, ?_, by omega, ?_⟩
  · rw [abs_of_nonneg (by positivity)]
    exact_mod_cast hm
  · rw [h, zpow_natCast]
    push_cast
    ring

/-- A sign in front of a number that is rounded already. -/
theorem signF_mul {F : FFmt} (hp : 2 ≤ F.prec) {x : ℚ} {v : FVal} (sign : Int) (h : Rounds F false x v) :
    Rounds F (decide (sign < 0)) x (mulF F (signF F sign) v) := by
  obtain ⟨q, hq, h⟩ := h
  rcases h with ⟨h1, m, rfl, h2⟩ | ⟨h1, rfl⟩
  · refine ⟨q, hq, Or.inl ⟨h1, ?_⟩⟩
    have hs : IsNum F (signF F sign) (decide (sign < 0)) 1 := ⟨_, rfl, by push_cast; ring⟩
    have := mulF_rounds hp hs (⟨m, rfl, h2⟩ : IsNum F (.fin false m) false q)
    rw [one_mul] at this
    obtain ⟨n, hn, h3⟩ := rounds_exact this hq.1 h1
    refine ⟨n, ?_, h3⟩
    rw [hn]
    simp
  · refine ⟨q, hq, Or.inr ⟨h1, ?_⟩⟩
    simp [mulF, signF]

end Verif
