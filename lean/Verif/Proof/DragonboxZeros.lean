import Verif.Proof.DragonboxCore

/-!
# Dragonbox: the trailing zeros
-/

namespace Verif

attribute [local irreducible] modInv5 modInvPow5 ctz

theorem inv5_32 : 5 * (modInvPow5 64 1 % 2 ^ 32) % 2 ^ 32 = 1 % 2 ^ 32 := by decide +kernel

/-- One step of both loops. -/
theorem step5 {inv q : Nat} (hi : 5 * inv % 2 ^ 32 = 1 % 2 ^ 32) (h : q < 2 ^ 32) :
    ((2 ^ 32 - 1) / 5 < q * inv % 2 ^ 32 ∧ ¬ 5 ∣ q) ∨
      (¬ (2 ^ 32 - 1) / 5 < q * inv % 2 ^ 32 ∧ 5 ∣ q ∧ q * inv % 2 ^ 32 = q / 5) := by
  have h1 := modInv_iff (w := 32) (a := 5) (n := q) (by decide) hi h
  by_cases hd : 5 ∣ q
  · exact .inr ⟨not_lt.2 (h1.2 hd), hd, modInv_dvd (by decide) hi h hd⟩
  · exact .inl ⟨lt_of_not_ge fun hc => hd (h1.1 hc), hd⟩

theorem rtzLoop_spec {inv : Nat} (hi : 5 * inv % 2 ^ 32 = 1 % 2 ^ 32) : ∀ {left s q : Nat}, q < 2 ^ 32 →
    ∃ j, (rtzLoop inv left s q).2 = s + j ∧ j ≤ left ∧ q = (rtzLoop inv left s q).1 * 5 ^ j ∧ (¬ 5 ∣ (rtzLoop inv left s q).1 ∨ j = left)
  | 0, s, q, _ => ⟨0, rfl, le_refl _, by simp [rtzLoop], .inr rfl⟩
  | left + 1, s, q, h => by
    unfold rtzLoop
    dsimp only
    rcases step5 hi h with ⟨h1, h2⟩ | ⟨h1, h2, h3⟩
    · rw [if_pos h1]
      exact ⟨0, rfl, by omega, by simp, .inl h2⟩
    · rw [if_neg h1, h3]
      obtain ⟨j, g1, g2, g3, g4⟩ := rtzLoop_spec hi (left := left) (s := s + 1) (q := q / 5) (by omega)
      refine ⟨j + 1, by omega, by omega, ?_, by omega⟩
      rw [pow_succ, ← mul_assoc, ← g3]
      omega

theorem ctz_ge {m n x : Nat} (hm : m < n) (h : 2 ^ m ∣ x) : m ≤ ctz n x := by
  by_contra hc
  have := @ctz_max n x (by omega)
  exact this ((Nat.pow_dvd_pow 2 (by omega)).trans h)

theorem rtzRem_spec {inv t q R : Nat} (hi : 5 * inv % 2 ^ 32 = 1 % 2 ^ 32) (hR : R < 2 ^ 32) (ht : 2 ^ t ∣ R + q * 10 ^ 8) (hq : q * 10 ^ 8 < 2 ^ 63) :
    ∀ {left j r : Nat}, r * 5 ^ j = R → j ≤ t → left + j = 7 → ∃ z, z ≤ t ∧ z ≤ 7 ∧ (rtzRem inv t q left j r).2 = z ∧
      (rtzRem inv t q left j r).1 * 10 ^ z = R + q * 10 ^ 8 ∧ (z = t ∨ z = 7 ∨ ¬ 5 ^ (z + 1) ∣ R) := by
  have fin : ∀ {j r : Nat}, r * 5 ^ j = R → j ≤ t → j ≤ 7 → (r / 2 ^ j + q * 10 ^ (8 - j) % 2 ^ 64) * 10 ^ j = R + q * 10 ^ 8 := by
    intro j r h1 h2 h3
    have e8 : q * 10 ^ (8 - j) * 10 ^ j = q * 10 ^ 8 := by rw [mul_assoc, ← pow_add, show 8 - j + j = 8 by omega]
    have hlt : q * 10 ^ (8 - j) < 2 ^ 64 := by
      have : q * 10 ^ (8 - j) * 1 ≤ q * 10 ^ (8 - j) * 10 ^ j := Nat.mul_le_mul_left _ (Nat.pow_pos (by decide))
      rw [e8] at this
      omega
    rw [Nat.mod_eq_of_lt hlt, Nat.add_mul, e8]
    congr 1
    have hd : 2 ^ j ∣ R := by
      have a1 : 2 ^ j ∣ R + q * 10 ^ 8 := (Nat.pow_dvd_pow 2 h2).trans ht
      have a2 : 2 ^ j ∣ q * 10 ^ 8 := Dvd.dvd.mul_left ((Nat.pow_dvd_pow 2 (by omega : j ≤ 8)).trans (by decide)) q
      exact (Nat.dvd_add_left a2).1 a1
    have hd2 : 2 ^ j ∣ r := by
      have hco : Nat.Coprime (2 ^ j) (5 ^ j) := Nat.Coprime.pow _ _ (by decide)
      exact hco.dvd_of_dvd_mul_right (h1 ▸ hd)
    rw [ten_pow_split, ← mul_assoc, Nat.div_mul_cancel hd2, h1]
  intro left
  induction left with
  | zero =>
    intro j r h1 h2 h3
    exact ⟨j, h2, by omega, rfl, fin h1 h2 (by omega), .inr (.inl (by omega))⟩
  | succ left ih =>
    intro j r h1 h2 h3
    unfold rtzRem
    dsimp only
    have hr : r < 2 ^ 32 := lt_of_le_of_lt (by
      have : r * 1 ≤ r * 5 ^ j := Nat.mul_le_mul_left _ (Nat.pow_pos (by decide))
      omega) hR
    rcases step5 hi hr with ⟨g1, g2⟩ | ⟨g1, g2, g3⟩
    · rw [if_pos (.inr g1)]
      refine ⟨j, h2, by omega, rfl, fin h1 h2 (by omega), .inr (.inr ?_)⟩
      rw [← h1, pow_succ, mul_comm r]
      intro hc
      exact g2 (Nat.dvd_of_mul_dvd_mul_left (Nat.pow_pos (by decide)) hc)
    · by_cases hj : t = j
      · rw [if_pos (.inl hj)]
        exact ⟨j, h2, by omega, rfl, fin h1 h2 (by omega), .inl hj.symm⟩
      · rw [if_neg (by omega), g3]
        refine ih ?_ (by omega) (by omega)
        rw [pow_succ', ← mul_assoc, Nat.div_mul_cancel g2, h1]

/-- The zeros are all removed. -/
theorem removeZeros_spec {n : Nat} (h0 : 0 < n) (hn : n < 10 ^ 17) :
    (removeZeros n).1 * 10 ^ (removeZeros n).2 = n ∧ ¬ 10 ∣ (removeZeros n).1 ∧ (removeZeros n).2 ≤ 16 := by
  have hz : ∀ {x z : Nat}, x * 10 ^ z = n → z ≤ 16 := by
    intro x z h
    by_contra hc
    have h1 : 10 ^ 17 ∣ n := (Nat.pow_dvd_pow 10 (by omega : 17 ≤ z)).trans (Dvd.intro_left x h)
    have := Nat.le_of_dvd h0 h1
    omega
  have key : ∀ {z : Nat}, z ≤ 15 → z = min (ctz 64 n) 16 → ¬ 2 ^ (z + 1) ∣ n := by
    intro z h1 h2 hd
    have := ctz_ge (m := z + 1) (n := 64) (by omega) hd
    omega
  have suff : (removeZeros n).1 * 10 ^ (removeZeros n).2 = n ∧ ¬ 10 ∣ (removeZeros n).1 → (removeZeros n).1 * 10 ^ (removeZeros n).2 = n ∧ ¬ 10 ∣ (removeZeros n).1 ∧ (removeZeros n).2 ≤ 16 :=
    fun h => ⟨h.1, h.2, hz h.1⟩
  apply suff
  clear suff
  have hc8 := modInv_iff (w := 64) (a := 5 ^ 8) (n := n) (Nat.pow_pos (by decide)) (modInvPow5_ok 8 (by decide)) (by omega)
  have ht : 2 ^ min (ctz 64 n) 16 ∣ n := (Nat.pow_dvd_pow 2 (min_le_left _ _)).trans ctz_dvd
  unfold removeZeros maxQuot5
  dsimp only
  generalize hT : min (ctz 64 n) 16 = t at *
  have ht16 : t ≤ 16 := by omega
  split
  · rename_i h
    obtain ⟨h8, hc⟩ := h
    have hd := hc8.1 hc
    rw [modInv_dvd (Nat.pow_pos (by decide)) (modInvPow5_ok 8 (by decide)) (by omega) hd]
    obtain ⟨g, hg⟩ : 10 ^ 8 ∣ n := by
      rw [ten_pow_split]
      exact Nat.Coprime.mul_dvd_of_dvd_of_dvd (by decide) ((Nat.pow_dvd_pow 2 h8).trans ht) hd
    have hq : n / 5 ^ 8 / 2 ^ 8 % 2 ^ 32 = g := by omega
    rw [hq]
    obtain ⟨j, g1, g2, g3, g4⟩ := rtzLoop_spec inv5_32 (left := t - 8) (s := 8) (q := g) (by omega)
    generalize rtzLoop (modInvPow5 64 1 % 2 ^ 32) (t - 8) 8 g = w at *
    obtain ⟨q, s⟩ := w
    dsimp only at *
    have h2g : 2 ^ (t - 8) ∣ g := by
      have : 2 ^ 8 * 2 ^ (t - 8) ∣ 2 ^ 8 * (5 ^ 8 * g) := by
        rw [← pow_add, show 8 + (t - 8) = t by omega, show 2 ^ 8 * (5 ^ 8 * g) = n by omega]
        exact ht
      have := Nat.dvd_of_mul_dvd_mul_left (by decide) this
      exact (Nat.Coprime.pow _ _ (by decide) : Nat.Coprime (2 ^ (t - 8)) (5 ^ 8)).dvd_of_dvd_mul_left this
    have h2q : 2 ^ j ∣ q := by
      have : 2 ^ j ∣ q * 5 ^ j := g3 ▸ (Nat.pow_dvd_pow 2 g2).trans h2g
      exact (Nat.Coprime.pow _ _ (by decide) : Nat.Coprime (2 ^ j) (5 ^ j)).dvd_of_dvd_mul_right this
    rw [show s - 8 = j by omega, g1]
    obtain ⟨y, rfl⟩ := h2q
    rw [Nat.mul_div_cancel_left _ (Nat.pow_pos (by decide))]
    have hy : y * 10 ^ (8 + j) = n := by
      rw [hg, g3, pow_add, ten_pow_split j]
      ring
    refine ⟨hy, fun hc => ?_⟩
    obtain ⟨x, rfl⟩ := hc
    have hj : j = t - 8 := g4.resolve_left fun h => h ⟨2 ^ j * (2 * x), by ring⟩
    have h16 := hz (x := x) (z := 8 + j + 1) (by rw [← hy, pow_succ]; ring)
    refine key (z := t) (by omega) rfl ⟨5 ^ (t + 1) * x, ?_⟩
    rw [← hy, ← mul_assoc, ← ten_pow_split, pow_succ, show 8 + j = t by omega]
    ring
  · rename_i h
    have e1 : n / 10 ^ 8 % 2 ^ 32 = n / 10 ^ 8 := by omega
    have e2 : (n % 2 ^ 32 + 2 ^ 32 - 10 ^ 8 * (n / 10 ^ 8) % 2 ^ 32) % 2 ^ 32 = n % 10 ^ 8 := by omega
    rw [e1, e2]
    have e3 : n % 10 ^ 8 + n / 10 ^ 8 * 10 ^ 8 = n := by omega
    obtain ⟨z, g1, g2, g3, g4, g5⟩ := rtzRem_spec inv5_32 (t := t) (q := n / 10 ^ 8) (R := n % 10 ^ 8) (by omega) (by rw [e3]; exact ht) (by omega) (left := 7) (j := 0) (r := n % 10 ^ 8) (by simp) (by omega) (by omega)
    rw [e3] at g4
    rw [g3]
    refine ⟨g4, fun hc => ?_⟩
    obtain ⟨x, hx⟩ := hc
    rw [hx] at g4
    have d2 : 2 ^ (z + 1) ∣ n := ⟨5 ^ (z + 1) * x, by rw [← g4, ← mul_assoc, ← ten_pow_split, pow_succ]; ring⟩
    have d5 : 5 ^ (z + 1) ∣ n := ⟨2 ^ (z + 1) * x, by rw [← g4, ← mul_assoc, mul_comm (5 ^ (z + 1)), ← ten_pow_split, pow_succ]; ring⟩
    rcases g5 with rfl | rfl | g5
    · exact key (by omega) rfl d2
    · have : 7 + 1 ≤ t := by
        by_contra hc
        exact key (z := t) (by omega) rfl ((Nat.pow_dvd_pow 2 (by omega)).trans d2)
      exact h ⟨by omega, hc8.2 d5⟩
    · apply g5
      have a2 : 5 ^ (z + 1) ∣ n / 10 ^ 8 * 10 ^ 8 := Dvd.dvd.mul_left ((Nat.pow_dvd_pow 5 (by omega : z + 1 ≤ 8)).trans (by decide)) _
      exact (Nat.dvd_add_left a2).1 (e3.symm ▸ d5)

end Verif
