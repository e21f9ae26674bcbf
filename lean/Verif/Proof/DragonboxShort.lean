import Verif.Proof.DragonboxZeros
import Mathlib.Algebra.Order.Field.Basic
import Mathlib.Algebra.Order.Field.Rat
import Mathlib.Tactic.Positivity
import Mathlib.Algebra.Order.Field.Power

/-!
# Dragonbox: shortest and closest, from what the algorithm finds out

`u` is the power of ten of the large unit.  In units of the small power of ten the interval is `I`, the number itself `v`.
-/

namespace Verif

/-- The interval between `lo` and `hi`, with its ends when `closed`. -/
def InIv (closed : Bool) (lo hi w : ℚ) : Prop := lo ≤ w ∧ w ≤ hi ∧ (closed = false → lo < w ∧ w < hi)

/-- What is known about the result `sig * 10^z`. -/
structure DbSplit (I : ℚ → Prop) (v : ℚ) (u sig z : Nat) : Prop where
  mem : I (sig * 10 ^ z)
  pos : 0 < sig
  nozero : ¬ 10 ∣ sig
  alt : (u ≤ z ∧ (∀ i : Nat, I (10 ^ u * i) → (10 ^ u * i : ℚ) = sig * 10 ^ z) ∧
      (sig = 1 → z = u → ∀ w : ℚ, w ≤ 9 * 10 ^ (u - 1) → |(sig * 10 ^ z : ℚ) - v| ≤ |w - v|)) ∨
    (z + 1 = u ∧ (∀ i : Nat, ¬ I (10 ^ u * i)) ∧ (∀ i : Nat, I (10 ^ z * i) → |(sig * 10 ^ z : ℚ) - v| ≤ |(10 ^ z * i : ℚ) - v|) ∧
      (10 ≤ sig ∨ ¬ I (10 ^ z) ∨ (1 ≤ z ∧ ∀ w : ℚ, w ≤ 9 * 10 ^ (z - 1) → |(sig * 10 ^ z : ℚ) - v| ≤ |w - v|)))

/-- No gaps. -/
def NoGap (I : ℚ → Prop) : Prop := ∀ a b c : ℚ, a ≤ b → b ≤ c → I a → I c → I b

theorem inIv_noGap (closed : Bool) (lo hi : ℚ) : NoGap (InIv closed lo hi) := fun _ _ _ h1 h2 h3 h4 =>
  ⟨h3.1.trans h1, h2.trans h4.2.1, fun h => ⟨lt_of_lt_of_le (h3.2.2 h).1 h1, lt_of_le_of_lt h2 (h4.2.2 h).2⟩⟩

theorem scaled_lt {d j : Nat} {y : Int} {m : Nat} (hd : d < 10 ^ j) (hy : y ≤ m) : (d : ℚ) * 10 ^ y ≤ 10 ^ (j + m) := by
  have h1 : (d : ℚ) ≤ 10 ^ j := by exact_mod_cast hd.le
  have h2 : (10 : ℚ) ^ y ≤ 10 ^ m := by
    rw [← zpow_natCast]
    exact zpow_le_zpow_right₀ (by norm_num) hy
  rw [pow_add]
  exact mul_le_mul h1 h2 (by positivity) (by positivity)

theorem same_dec {sig z d : Nat} {y : Int} (h0 : ¬ 10 ∣ sig) (h : (d : ℚ) * 10 ^ y = sig * 10 ^ z) : sig ≤ d := by
  rcases le_or_gt y z with hy | hy
  · obtain ⟨n, hn⟩ := Int.eq_ofNat_of_zero_le (sub_nonneg.2 hy)
    have e1 : (d : ℚ) = sig * 10 ^ n := by
      have : (sig : ℚ) * 10 ^ z = sig * 10 ^ n * 10 ^ y := by
        rw [mul_assoc, ← zpow_natCast, ← zpow_natCast, ← zpow_add₀ (by norm_num)]
        congr 2
        omega
      rw [this] at h
      exact mul_right_cancel₀ (by positivity) h
    have e2 : d = sig * 10 ^ n := by exact_mod_cast e1
    rw [e2]
    exact Nat.le_mul_of_pos_right _ (by positivity)
  · obtain ⟨n, hn⟩ := Int.eq_ofNat_of_zero_le (show 0 ≤ y - z - 1 by omega)
    have e1 : (sig : ℚ) = d * 10 ^ (n + 1) := by
      have : (d : ℚ) * 10 ^ y = d * 10 ^ (n + 1) * 10 ^ z := by
        rw [mul_assoc, ← zpow_natCast, ← zpow_natCast, ← zpow_add₀ (by norm_num)]
        congr 2
        push_cast
        omega
      rw [this] at h
      exact (mul_right_cancel₀ (by positivity) h).symm
    have e2 : sig = d * 10 ^ (n + 1) := by exact_mod_cast e1
    exact absurd ⟨d * 10 ^ n, by rw [e2, pow_succ]; ring⟩ h0

theorem as_unit {d u : Nat} {y : Int} (h : (u : Int) ≤ y) : ∃ i : Nat, (d : ℚ) * 10 ^ y = 10 ^ u * i := by
  obtain ⟨n, hn⟩ := Int.eq_ofNat_of_zero_le (sub_nonneg.2 h)
  refine ⟨d * 10 ^ n, ?_⟩
  push_cast
  rw [show y = (u : Int) + n by omega, zpow_add₀ (by norm_num), zpow_natCast, zpow_natCast]
  ring

/-- No decimal in the interval has fewer digits. -/
theorem DbSplit.shortest {I : ℚ → Prop} {v : ℚ} {u sig z : Nat} (h : DbSplit I v u sig z) (hI : NoGap I) (hu : 1 ≤ u) {d j : Nat} {y : Int}
    (h0 : 0 < d) (hd : I (d * 10 ^ y)) (hj : d < 10 ^ j) : sig < 10 ^ j := by
  by_contra hc
  have hc : 10 ^ j ≤ sig := Nat.le_of_not_lt hc
  have hcq : (10 : ℚ) ^ j ≤ sig := by exact_mod_cast hc
  have hj1 : 1 ≤ j := by
    rcases Nat.eq_zero_or_pos j with rfl | h
    · simp at hj; omega
    · exact h
  have hmem := h.mem
  have mid : ∀ {m : Nat}, m = u - 1 → y ≤ m → u ≤ z + 1 → I (10 ^ u * ((10 ^ (j - 1) : Nat) : ℚ)) := by
    intro m hm hy hz
    refine hI _ _ _ ?_ ?_ hd hmem
    · refine (scaled_lt hj hy).trans (le_of_eq ?_)
      push_cast
      rw [← pow_add]
      congr 1
      omega
    · push_cast
      rw [← pow_add]
      calc (10 : ℚ) ^ (u + (j - 1)) ≤ 10 ^ (j + z) := pow_le_pow_right₀ (by norm_num) (by omega)
        _ = 10 ^ j * 10 ^ z := pow_add _ _ _
        _ ≤ sig * 10 ^ z := mul_le_mul_of_nonneg_right hcq (by positivity)
  rcases h.alt with ⟨hz, hb, -⟩ | ⟨hz, hb, -, -⟩
  · rcases le_or_gt (u : Int) y with hy | hy
    · obtain ⟨i, hi⟩ := as_unit (d := d) hy
      have e := hb i (hi ▸ hd)
      rw [← hi] at e
      have := same_dec h.nozero e
      omega
    · have e := hb _ (mid rfl (by omega) (by omega))
      have : (10 : ℚ) ^ (u + (j - 1)) < 10 ^ (j + z) := pow_lt_pow_right₀ (by norm_num) (by omega)
      have h2 : (10 : ℚ) ^ (j + z) ≤ sig * 10 ^ z := by
        rw [pow_add]
        exact mul_le_mul_of_nonneg_right hcq (by positivity)
      push_cast at e
      rw [← pow_add] at e
      linarith
  · rcases le_or_gt (u : Int) y with hy | hy
    · obtain ⟨i, hi⟩ := as_unit (d := d) hy
      exact hb i (hi ▸ hd)
    · exact hb _ (mid rfl (by omega) (by omega))

theorem exists_len {n : Nat} (h : 0 < n) : ∃ j, 10 ^ j ≤ n ∧ n < 10 ^ (j + 1) := by
  induction n using Nat.strong_induction_on with
  | _ n ih =>
    rcases lt_or_ge n 10 with h10 | h10
    · exact ⟨0, by simpa using Nat.succ_le_of_lt h, by simpa using h10⟩
    · obtain ⟨j, h1, h2⟩ := ih (n / 10) (by omega) (by omega)
      refine ⟨j + 1, ?_, ?_⟩
      · rw [pow_succ]; omega
      · rw [pow_succ]; omega

/-- No decimal in the interval with as many digits is closer to the number. -/
theorem DbSplit.closest {I : ℚ → Prop} {v : ℚ} {u sig z : Nat} (h : DbSplit I v u sig z) (hI : NoGap I) (hu : 1 ≤ u) {d : Nat} {y : Int}
    (hd : I (d * 10 ^ y)) (hj : ∀ j, sig < 10 ^ j → d < 10 ^ j) :
    |(sig * 10 ^ z : ℚ) - v| ≤ |(d * 10 ^ y : ℚ) - v| := by
  obtain ⟨j, j1, j2⟩ := exists_len h.pos
  have hdj := hj _ j2
  have hjq : (10 : ℚ) ^ j ≤ sig := by exact_mod_cast j1
  have hV : (10 : ℚ) ^ (j + z) ≤ sig * 10 ^ z := by
    rw [pow_add]
    exact mul_le_mul_of_nonneg_right hjq (by positivity)
  have hmem := h.mem
  rcases h.alt with ⟨hz, hb, hx⟩ | ⟨hz, hb, hn, hx⟩
  · rcases le_or_gt (u : Int) y with hy | hy
    · obtain ⟨i, hi⟩ := as_unit (d := d) hy
      have e := hb i (hi ▸ hd)
      rw [hi, e]
    · have hle : (d : ℚ) * 10 ^ y ≤ 10 ^ (u + j) := (scaled_lt hdj (m := u - 1) (by omega)).trans (le_of_eq (by congr 1; omega))
      have hm : I (10 ^ u * ((10 ^ j : Nat) : ℚ)) := by
        push_cast
        rw [← pow_add]
        refine hI _ _ _ hle ?_ hd hmem
        exact (pow_le_pow_right₀ (by norm_num) (by omega)).trans hV
      have e := hb _ hm
      have e2 : 10 ^ u * 10 ^ j = sig * 10 ^ z := by exact_mod_cast e
      have hs1 : sig = 10 ^ j ∧ z = u := by
        have : z = u := by
          rcases Nat.lt_or_ge u z with hlt | hge
          · exfalso
            have a1 : 10 ^ j * 10 ^ z ≤ sig * 10 ^ z := Nat.mul_le_mul_right _ j1
            rw [← e2, mul_comm] at a1
            have a2 := Nat.le_of_mul_le_mul_right a1 (Nat.pow_pos (by decide))
            have a3 : 10 ^ u < 10 ^ z := Nat.pow_lt_pow_right (by decide) hlt
            omega
          · omega
        subst this
        rw [mul_comm] at e2
        exact ⟨(Nat.eq_of_mul_eq_mul_right (Nat.pow_pos (by decide)) e2).symm, rfl⟩
      have hj0 : j = 0 := by
        rcases j with _ | j
        · rfl
        · exfalso
          exact h.nozero ⟨10 ^ j, by rw [hs1.1, pow_succ, mul_comm]⟩
      subst hj0
      refine hx (by simpa using hs1.1) hs1.2 _ ?_
      have hd9 : (d : ℚ) ≤ 9 := by
        have : d ≤ 9 := by simp at hdj; omega
        exact_mod_cast this
      have h2 : (10 : ℚ) ^ y ≤ 10 ^ (u - 1) := by
        rw [← zpow_natCast]
        exact zpow_le_zpow_right₀ (by norm_num) (by omega)
      exact mul_le_mul hd9 h2 (by positivity) (by norm_num)
  · rcases le_or_gt (u : Int) y with hy | hy
    · obtain ⟨i, hi⟩ := as_unit (d := d) hy
      exact absurd (hi ▸ hd) (hb i)
    · rcases le_or_gt (z : Int) y with hy2 | hy2
      · obtain ⟨i, hi⟩ := as_unit (d := d) hy2
        rw [hi]
        exact hn i (hi ▸ hd)
      · have hm : I (10 ^ (j + z)) := by
          refine hI _ _ _ ?_ hV hd hmem
          rcases Nat.eq_zero_or_pos z with rfl | hz0
          · have h2 : (10 : ℚ) ^ y ≤ 10 ^ (-1 : Int) := zpow_le_zpow_right₀ (by norm_num) (by omega)
            have h3 : (d : ℚ) ≤ 10 ^ (j + 1) := by exact_mod_cast hdj.le
            have := mul_le_mul h3 h2 (by positivity) (by positivity)
            refine this.trans (le_of_eq ?_)
            rw [pow_succ, add_zero, mul_assoc]
            norm_num
          · exact (scaled_lt hdj (m := z - 1) (by omega)).trans (le_of_eq (by congr 1; omega))
        rcases j with _ | j
        · rcases hx with hx | hx | ⟨hz0, hx⟩
          · simp at j2; omega
          · exact absurd (by simpa using hm) hx
          · refine hx _ ?_
            have hd9 : (d : ℚ) ≤ 9 := by
              have : d ≤ 9 := by simp at hdj; omega
              exact_mod_cast this
            have h2 : (10 : ℚ) ^ y ≤ 10 ^ (z - 1) := by
              rw [← zpow_natCast]
              exact zpow_le_zpow_right₀ (by norm_num) (by omega)
            exact mul_le_mul hd9 h2 (by positivity) (by norm_num)
        · exfalso
          apply hb (10 ^ j)
          push_cast
          rw [← pow_add, ← hz, show z + 1 + j = j + 1 + z by omega]
          exact hm

end Verif
