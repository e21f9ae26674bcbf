import Verif.Proof.DragonboxFloatBridge
import Verif.Proof.DragonboxMain

/-!
# Dragonbox for floats: the decimal that is found for the bits of a float
-/

namespace Verif

open Spec

attribute [local irreducible] modInv5 modInvPow5 ctz dfNormal dfShorter

/-- What is found out about the decimal of a float. -/
structure DecFactsF (u : Nat) (sig : Nat) (exp : Int) : Prop where
  small : sig < 10 ^ 9
  exp1 : -400 ≤ exp
  exp2 : exp ≤ 400
  ex : ∃ (mk : Int) (z t : Nat) (I : ℚ → Prop), exp = mk + z ∧ 1 ≤ t ∧ NoGap I ∧
    (∀ q : ℚ, Rounds f32 (signOf32 u) q (floatOf u) ↔ I (q * 10 ^ (-mk))) ∧ DbSplit I (absOf32 u * 10 ^ (-mk)) t sig z

theorem normal_factsF {u fc : Nat} {e : Int} (h1 : -149 ≤ e) (h2 : e ≤ 104) (hf1 : 1 ≤ fc) (hf2 : fc < 2 ^ 24) (hn : e = -149 ∨ 2 ^ 23 ≤ fc)
    (hp : ¬ (fc = 2 ^ 23 ∧ e ≠ -149)) (hd : floatOf u = .fin (signOf32 u) (magOf32 u)) (hm : (magOf32 u : ℚ) = fc * 2 ^ e * 2 ^ 149) :
    DecFactsF u (dfNormal fc e (decide (fc % 2 = 0))).1 (dfNormal fc e (decide (fc % 2 = 0))).2 := by
  obtain ⟨z, z1, z2, z3, z4⟩ := dfNormal_split (closed := decide (fc % 2 = 0)) h1 h2 hf1 hf2 (hn.imp id fun h => by omega)
  have hl := floorLog10Pow2_eq e
  refine ⟨z2, by rw [z3]; omega, by rw [z3]; omega, floorLog10Pow2 e - 1, z, 2,
    InIv (decide (fc % 2 = 0)) (2 * fc * dfHalf e - dfHalf e) (2 * fc * dfHalf e + dfHalf e), z3, by decide, inIv_noGap _ _ _, fun q => ?_, ?_⟩
  rotate_left
  · convert z4 using 1
    unfold dfHalf absOf32
    rw [hm, mul_div_cancel_right₀ _ (by positivity), fac_eq, zpow_sub_one₀ (by norm_num)]
    ring
  · rw [hd, rounds_iff_intervalF h1 h2 hf1 hf2 hn hm, if_neg hp, inIv_scale (c := (10 : ℚ) ^ (-(floorLog10Pow2 e - 1))) (by positivity)]
    unfold dfHalf
    rw [fac_eq, zpow_sub_one₀ (by norm_num)]
    generalize (10 : ℚ) ^ (-(floorLog10Pow2 e - 1)) = c
    generalize (2 : ℚ) ^ e = P
    rw [show (fc * P - P / 2) * c = 2 * fc * (P * 2⁻¹ * c) - P * 2⁻¹ * c by ring, show (fc * P + P / 2) * c = 2 * fc * (P * 2⁻¹ * c) + P * 2⁻¹ * c by ring]

theorem pow_factsF {u : Nat} {e : Int} (h1 : -149 ≤ e) (h2 : e ≤ 104) (hd : floatOf u = .fin (signOf32 u) (magOf32 u))
    (hm : (magOf32 u : ℚ) = (2 ^ 23 : Nat) * 2 ^ e * 2 ^ 149) : DecFactsF u (dfShorter e).1 (dfShorter e).2 := by
  obtain ⟨z, z1, z2, z3, z4⟩ := dfShorter_split h1 h2
  have hl := floorLog10Pow2Minus_eq e
  have hq : ∀ n : Nat, ((n * powNum e : Nat) / powDen e : ℚ) = n * (2 ^ e / 4) * 10 ^ (-floorLog10Pow2Minus e) := by
    intro n
    unfold powNum powDen
    rw [Nat.cast_mul, mul_div_assoc, fac_eq, show e - 1 - 1 = e - 2 by ring, zpow_sub₀ (by norm_num)]
    norm_num
    ring
  rw [hq, hq, hq] at z4
  refine ⟨z2, by rw [z3]; omega, by rw [z3]; omega, floorLog10Pow2Minus e, z, 1,
    InIv true ((powLeftF e : Nat) * (2 ^ e / 4) * 10 ^ (-floorLog10Pow2Minus e)) ((2 ^ 25 + 2 : Nat) * (2 ^ e / 4) * 10 ^ (-floorLog10Pow2Minus e)), z3, by decide, inIv_noGap _ _ _, fun q => ?_, ?_⟩
  rotate_left
  · convert z4 using 1
    unfold absOf32
    rw [hm, mul_div_cancel_right₀ _ (by positivity)]
    push_cast
    ring
  · rw [hd, rounds_iff_intervalF h1 h2 (by decide) (by decide) (.inr (le_refl _)) hm, inIv_scale (c := (10 : ℚ) ^ (-floorLog10Pow2Minus e)) (by positivity)]
    generalize (10 : ℚ) ^ (-floorLog10Pow2Minus e) = c
    generalize hP : (2 : ℚ) ^ e = P
    have hx : decide (2 ^ 23 % 2 = 0) = true := by decide
    rw [hx]
    have hr : (((2 ^ 23 : Nat) : ℚ) * P + P / 2) * c = ((2 ^ 25 + 2 : Nat) : ℚ) * (P / 4) * c := by push_cast; ring
    have hleft : (((2 ^ 23 : Nat) : ℚ) * P - (if 2 ^ 23 = 2 ^ 23 ∧ e ≠ -149 then P / 2 else P) / 2) * c = (powLeftF e : Nat) * (P / 4) * c := by
      unfold powLeftF
      by_cases he : e = -149
      · rw [if_neg (by simp [he]), if_pos he]
        push_cast
        ring
      · rw [if_pos ⟨rfl, he⟩, if_neg he]
        push_cast
        ring
    rw [hr, hleft]

/-- `to_decimal` for every finite number that is not zero. -/
theorem toDecimalF_facts {u : Nat} (hf : FiniteBits32 u) (h0 : magOf32 u ≠ 0) : DecFactsF u (toDecimalF u).1 (toDecimalF u).2 := by
  have hd : floatOf u = .fin (signOf32 u) (magOf32 u) := if_pos hf
  have hpar : u % 2 ^ 23 % 2 = u % 2 := by omega
  unfold toDecimalF
  unfold FiniteBits32 at hf
  dsimp only
  have hx : u / 2 ^ 23 % 2 ^ 8 < 2 ^ 8 := Nat.mod_lt _ (by decide)
  have hs : u % 2 ^ 23 < 2 ^ 23 := Nat.mod_lt _ (by decide)
  have hmag : magOf32 u = if u / 2 ^ 23 % 2 ^ 8 = 0 then u % 2 ^ 23 else (2 ^ 23 + u % 2 ^ 23) * 2 ^ (u / 2 ^ 23 % 2 ^ 8 - 1) := rfl
  generalize u / 2 ^ 23 % 2 ^ 8 = x at *
  generalize u % 2 ^ 23 = s at *
  by_cases hx0 : x = 0
  · rw [if_neg (by simpa using hx0)]
    rw [if_pos hx0] at hmag
    have := normal_factsF (u := u) (fc := s) (e := -126 - 23) (by norm_num) (by norm_num) (by omega) (by omega) (.inl (by norm_num)) (fun h => by omega) hd (by
      rw [hmag, mul_assoc, show (-126 - 23 : ℤ) = -((149 : Nat) : ℤ) by norm_num, zpow_neg, zpow_natCast, inv_mul_cancel₀ (by positivity), mul_one])
    rwa [hpar] at this
  · rw [if_pos (by simpa using hx0)]
    rw [if_neg hx0] at hmag
    have hm : (magOf32 u : ℚ) = (2 ^ 23 + s : Nat) * 2 ^ ((x : Int) - 127 - 23) * 2 ^ 149 := by
      rw [hmag, Nat.cast_mul, mul_assoc, ← zpow_natCast (2 : ℚ) 149, ← zpow_add₀ (by norm_num),
        show (x : Int) - 127 - 23 + (149 : Nat) = ((x - 1 : Nat) : Int) by omega, zpow_natCast]
      push_cast
      rfl
    by_cases hs0 : s = 0
    · rw [if_pos hs0]
      subst hs0
      rw [add_zero] at hm
      exact pow_factsF (by omega) (by omega) hd hm
    · rw [if_neg hs0]
      rw [Nat.add_comm] at hm
      have := normal_factsF (u := u) (fc := s + 2 ^ 23) (e := (x : Int) - 127 - 23) (by omega) (by omega) (by omega) (by omega) (.inr (by omega)) (fun h => by omega) hd hm
      rwa [show (s + 2 ^ 23) % 2 = u % 2 by omega] at this

end Verif
