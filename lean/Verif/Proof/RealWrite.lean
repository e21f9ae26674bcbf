import Verif.Proof.RealDec
import Verif.Proof.RealOut
import Verif.Spec.Write

/-!
# Reals written and read back
-/

namespace Verif

open Spec

/-- The digits written without an exponent are few. -/
theorem fewDigits_len {dbl : Bool} {r : Dec} {L : Nat} (h : FewDigits dbl r) (hd : HasDigits r.sig L) :
    (if r.exp < 0 then max L (r.exp.natAbs + 1) else L + r.exp.natAbs) < tooLong dbl := by
  have ht : 1 ≤ tooLong dbl := by unfold tooLong; split <;> omega
  unfold FewDigits at h
  split
  · rename_i he
    rw [if_pos he] at h
    have := (Nat.pow_lt_pow_iff_right (by decide : 1 < 10)).1 (Nat.lt_of_le_of_lt hd.2.1 h.1)
    have h1 := hd.1
    omega
  · rename_i he
    rw [if_neg he] at h
    have h2 : 10 ^ (L - 1 + r.exp.toNat) ≤ r.sig * 10 ^ r.exp.toNat := by
      rw [Nat.pow_add]
      exact Nat.mul_le_mul_right _ hd.2.1
    have := (Nat.pow_lt_pow_iff_right (by decide : 1 < 10)).1 (Nat.lt_of_le_of_lt h2 h)
    have h1 := hd.1
    omega

theorem auto_small {sig L : Nat} {exp : Int} (hd : HasDigits sig L) (h : (sig : ℚ) * 10 ^ exp < 10 ^ (-5 : Int)) :
    (L : Int) + exp < -4 := by
  by_contra hc
  have h1 : (10 : ℚ) ^ (-5 : Int) ≤ 10 ^ (((L - 1 : Nat) : Int) + exp) :=
    zpow_le_zpow_right₀ (by norm_num) (by have := hd.1; omega)
  rw [zpow_add₀ (by norm_num), zpow_natCast] at h1
  have h2 : ((10 : ℚ) ^ (L - 1)) ≤ sig := by exact_mod_cast hd.2.1
  have h3 := mul_le_mul_of_nonneg_right h2 (zpow_pos (by norm_num : (0 : ℚ) < 10) exp).le
  linarith

theorem auto_large {sig L : Nat} {exp : Int} (hd : HasDigits sig L) (h : (10 : ℚ) ^ (6 : Int) ≤ (sig : ℚ) * 10 ^ exp) :
    6 < (L : Int) + exp := by
  by_contra hc
  have h1 : (10 : ℚ) ^ ((L : Int) + exp) ≤ 10 ^ (6 : Int) := zpow_le_zpow_right₀ (by norm_num) (by omega)
  rw [zpow_add₀ (by norm_num), zpow_natCast] at h1
  have h2 : (sig : ℚ) < (10 : ℚ) ^ L := by exact_mod_cast hd.2.2
  have h3 := mul_lt_mul_of_pos_right h2 (zpow_pos (by norm_num : (0 : ℚ) < 10) exp)
  linarith

/-- A real that has the type is written as a number that reads as the same real. -/
theorem toChars_reads {dbl : Bool} {fmt : FPFmt} {r : Dec} (h : HasReal dbl fmt r) :
    ∃ t, toChars dbl fmt r.neg r.sig r.exp = .ok t ∧ ReadsTxt (.real dbl fmt) (.num t) (.real r) := by
  obtain ⟨hn, hs, he, hf⟩ := h
  rcases Nat.eq_zero_or_pos r.sig with h0 | h0
  · rcases hn with hn | rfl
    · exact absurd (by rw [h0]) hn
    · refine ⟨[ch0], rfl, .real (neg := false) (i := [ch0]) (fd := []) (e := 0)
        ⟨[], [], Or.inl rfl, Or.inl ⟨rfl, rfl⟩, Or.inl ⟨rfl, rfl⟩, rfl⟩ (by cases dbl <;> decide) (by decide) (Or.inr rfl) ?_⟩
      simp [Dec.val, numVal, numAbs, decVal, digVal]
  · have hs' : r.sig < if dbl then 10 ^ 17 else 10 ^ 9 := by cases dbl <;> exact hs
    have hb := real_exp_bound h0 hs' he
    have hd := (decimalLength_spec dbl r.sig h0 hs').1
    obtain ⟨t, e1, i, fd, e', g1, g2, g3, g4⟩ := sciChars_denotes dbl r.neg r.sig r.exp h0 hs' hb.1
    have hlen : decimalLength dbl r.sig < tooLong dbl := by
      have := hb.2
      unfold tooLong
      cases dbl <;> simp at this ⊢ <;> omega
    have ht19 : tooLong dbl ≤ 18 := by cases dbl <;> decide
    have hval : ∀ {i fd : Bytes} {e : Int}, numAbs i fd e = (r.sig : ℚ) * 10 ^ r.exp → r.val = numVal r.neg i fd e := by
      intro i fd e h
      rw [numVal, h]
      rfl
    have sci : ReadsTxt (.real dbl fmt) (.num ((if r.neg then [chMinus] else []) ++ t)) (.real r) :=
      .real g1 (by omega) (by omega) hn (hval g2)
    have dec : FewDigits dbl r → ReadsTxt (.real dbl fmt)
        (.num ((if r.neg then [chMinus] else []) ++ decChars r.sig r.exp (decimalLength dbl r.sig + r.exp))) (.real r) := by
      intro hfd
      obtain ⟨i, fd, e', g1, g2, g3, g4⟩ := decChars_denotes r.neg r.sig _ r.exp hd
      have := fewDigits_len hfd hd
      exact .real g1 (by omega) (by omega) hn (hval g2)
    unfold toChars
    dsimp only
    rw [if_neg (by omega)]
    split
    · rw [e1]; exact ⟨_, rfl, sci⟩
    · rename_i hns
      split
      · rw [e1]; exact ⟨_, rfl, sci⟩
      · rename_i hna
        refine ⟨_, rfl, dec ?_⟩
        cases fmt with
        | scientific => exact absurd rfl hns
        | decimal => exact hf
        | auto =>
          rcases hf with hf | hf | hf
          · exact hf
          · exact absurd ⟨rfl, Or.inl (auto_small hd hf)⟩ hna
          · exact absurd ⟨rfl, Or.inr (auto_large hd hf)⟩ hna

end Verif
