import Verif.Proof.DragonboxBridge

/-!
# Dragonbox: the decimal that is found for the bits of a double
-/

namespace Verif

open Spec

attribute [local irreducible] modInv5 modInvPow5 ctz dbNormal dbShorter

/-- What is found out about the decimal of a double. -/
structure DecFacts (u : Nat) (sig : Nat) (exp : Int) : Prop where
  small : sig < 10 ^ 17
  exp1 : -400 ≤ exp
  exp2 : exp ≤ 400
  ex : ∃ (mk : Int) (z t : Nat) (I : ℚ → Prop), exp = mk + z ∧ 1 ≤ t ∧ NoGap I ∧
    (∀ q : ℚ, Rounds f64 (signOf u) q (doubleOf u) ↔ I (q * 10 ^ (-mk))) ∧ DbSplit I (absOf u * 10 ^ (-mk)) t sig z

theorem floorLog10Pow2Minus_eq (e : Int) : floorLog10Pow2Minus e = (e * 1262611 - 524031) / 4194304 := by
  unfold floorLog10Pow2Minus dbLog
  rw [show ((dbShift 0 0x4d104d427de7fbcc 22 : Nat) : Int) = 1262611 by decide +kernel,
    show ((dbShift 0 0x1ffbfc2bbc780375 22 : Nat) : Int) = 524031 by decide +kernel]
  norm_num

theorem normal_facts {u fc : Nat} {e : Int} (h1 : -1074 ≤ e) (h2 : e ≤ 971) (hf1 : 1 ≤ fc) (hf2 : fc < 2 ^ 53) (hn : e = -1074 ∨ 2 ^ 52 ≤ fc)
    (hp : ¬ (fc = 2 ^ 52 ∧ e ≠ -1074)) (hd : doubleOf u = .fin (signOf u) (magOf u)) (hm : (magOf u : ℚ) = fc * 2 ^ e * 2 ^ 1074) :
    DecFacts u (dbNormal fc e (decide (fc % 2 = 0))).1 (dbNormal fc e (decide (fc % 2 = 0))).2 := by
  obtain ⟨z, z1, z2, z3, z4⟩ := dbNormal_split (closed := decide (fc % 2 = 0)) h1 h2 hf1 hf2 (hn.imp id fun h => by omega)
  have hl := floorLog10Pow2_eq e
  refine ⟨z2, by rw [z3]; omega, by rw [z3]; omega, floorLog10Pow2 e - 2, z, 3,
    InIv (decide (fc % 2 = 0)) (2 * fc * dbHalf e - dbHalf e) (2 * fc * dbHalf e + dbHalf e), z3, by decide, inIv_noGap _ _ _, fun q => ?_, ?_⟩
  rotate_left
  · convert z4 using 1
    unfold dbHalf absOf
    rw [hm, mul_div_cancel_right₀ _ (by positivity), fac_eq, zpow_sub_one₀ (by norm_num)]
    ring
  · rw [hd, rounds_iff_interval h1 h2 hf1 hf2 hn hm, if_neg hp, inIv_scale (c := (10 : ℚ) ^ (-(floorLog10Pow2 e - 2))) (by positivity)]
    unfold dbHalf
    rw [fac_eq, zpow_sub_one₀ (by norm_num)]
    generalize (10 : ℚ) ^ (-(floorLog10Pow2 e - 2)) = c
    generalize (2 : ℚ) ^ e = P
    rw [show (fc * P - P / 2) * c = 2 * fc * (P * 2⁻¹ * c) - P * 2⁻¹ * c by ring, show (fc * P + P / 2) * c = 2 * fc * (P * 2⁻¹ * c) + P * 2⁻¹ * c by ring]

theorem pow_facts {u : Nat} {e : Int} (h1 : -1074 ≤ e) (h2 : e ≤ 971) (hd : doubleOf u = .fin (signOf u) (magOf u))
    (hm : (magOf u : ℚ) = (2 ^ 52 : Nat) * 2 ^ e * 2 ^ 1074) : DecFacts u (dbShorter e).1 (dbShorter e).2 := by
  obtain ⟨z, z1, z2, z3, z4⟩ := dbShorter_split h1 h2
  have hl := floorLog10Pow2Minus_eq e
  have hq : ∀ n : Nat, ((n * powNum e : Nat) / powDen e : ℚ) = n * (2 ^ e / 4) * 10 ^ (-floorLog10Pow2Minus e) := by
    intro n
    unfold powNum powDen
    rw [Nat.cast_mul, mul_div_assoc, fac_eq, show e - 1 - 1 = e - 2 by ring, zpow_sub₀ (by norm_num)]
    norm_num
    ring
  rw [hq, hq, hq] at z4
  refine ⟨z2, by rw [z3]; omega, by rw [z3]; omega, floorLog10Pow2Minus e, z, 1,
    InIv true ((powLeft e : Nat) * (2 ^ e / 4) * 10 ^ (-floorLog10Pow2Minus e)) ((2 ^ 54 + 2 : Nat) * (2 ^ e / 4) * 10 ^ (-floorLog10Pow2Minus e)), z3, by decide, inIv_noGap _ _ _, fun q => ?_, ?_⟩
  rotate_left
  · convert z4 using 1
    unfold absOf
    rw [hm, mul_div_cancel_right₀ _ (by positivity)]
    push_cast
    ring
  · rw [hd, rounds_iff_interval h1 h2 (by decide) (by decide) (.inr (le_refl _)) hm, inIv_scale (c := (10 : ℚ) ^ (-floorLog10Pow2Minus e)) (by positivity)]
    generalize (10 : ℚ) ^ (-floorLog10Pow2Minus e) = c
    generalize hP : (2 : ℚ) ^ e = P
    have hx : decide (2 ^ 52 % 2 = 0) = true := by decide
    rw [hx]
    have hr : (((2 ^ 52 : Nat) : ℚ) * P + P / 2) * c = ((2 ^ 54 + 2 : Nat) : ℚ) * (P / 4) * c := by push_cast; ring
    have hleft : (((2 ^ 52 : Nat) : ℚ) * P - (if 2 ^ 52 = 2 ^ 52 ∧ e ≠ -1074 then P / 2 else P) / 2) * c = (powLeft e : Nat) * (P / 4) * c := by
      unfold powLeft
      by_cases he : e = -1074
      · rw [if_neg (by simp [he]), if_pos he]
        push_cast
        ring
      · rw [if_pos ⟨rfl, he⟩, if_neg he]
        push_cast
        ring
    rw [hr, hleft]

/-- `to_decimal` for every finite number that is not zero. -/
theorem toDecimal_facts {u : Nat} (hf : FiniteBits u) (h0 : magOf u ≠ 0) : DecFacts u (toDecimal u).1 (toDecimal u).2 := by
  have hd : doubleOf u = .fin (signOf u) (magOf u) := if_pos hf
  have hpar : u % 2 ^ 52 % 2 = u % 2 := by omega
  unfold toDecimal
  unfold FiniteBits at hf
  dsimp only
  have hx : u / 2 ^ 52 % 2 ^ 11 < 2 ^ 11 := Nat.mod_lt _ (by decide)
  have hs : u % 2 ^ 52 < 2 ^ 52 := Nat.mod_lt _ (by decide)
  have hmag : magOf u = if u / 2 ^ 52 % 2 ^ 11 = 0 then u % 2 ^ 52 else (2 ^ 52 + u % 2 ^ 52) * 2 ^ (u / 2 ^ 52 % 2 ^ 11 - 1) := rfl
  generalize u / 2 ^ 52 % 2 ^ 11 = x at *
  generalize u % 2 ^ 52 = s at *
  by_cases hx0 : x = 0
  · rw [if_neg (by simpa using hx0)]
    rw [if_pos hx0] at hmag
    have := normal_facts (u := u) (fc := s) (e := -1022 - 52) (by norm_num) (by norm_num) (by omega) (by omega) (.inl (by norm_num)) (fun h => by omega) hd (by
      rw [hmag, mul_assoc, show (-1022 - 52 : ℤ) = -((1074 : Nat) : ℤ) by norm_num, zpow_neg, zpow_natCast, inv_mul_cancel₀ (by positivity), mul_one])
    rwa [hpar] at this
  · rw [if_pos (by simpa using hx0)]
    rw [if_neg hx0] at hmag
    have hm : (magOf u : ℚ) = (2 ^ 52 + s : Nat) * 2 ^ ((x : Int) - 1023 - 52) * 2 ^ 1074 := by
      rw [hmag, Nat.cast_mul, mul_assoc, ← zpow_natCast (2 : ℚ) 1074, ← zpow_add₀ (by norm_num),
        show (x : Int) - 1023 - 52 + (1074 : Nat) = ((x - 1 : Nat) : Int) by omega, zpow_natCast]
      push_cast
      rfl
    by_cases hs0 : s = 0
    · rw [if_pos hs0]
      subst hs0
      rw [add_zero] at hm
      exact pow_facts (by omega) (by omega) hd hm
    · rw [if_neg hs0]
      rw [Nat.add_comm] at hm
      have := normal_facts (u := u) (fc := s + 2 ^ 52) (e := (x : Int) - 1023 - 52) (by omega) (by omega) (by omega) (by omega) (.inr (by omega)) (fun h => by omega) hd hm
      rwa [show (s + 2 ^ 52) % 2 = u % 2 by omega] at this

end Verif
