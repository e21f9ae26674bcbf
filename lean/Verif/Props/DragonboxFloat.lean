import Verif.Proof.DragonboxFloatMain
import Verif.Props.Dragonbox
import Verif.Proof.FloatPow32

/-!
# Properties C105 and C106: the decimal that is written for a float, and what is read back
-/

namespace Verif

open Spec

attribute [local irreducible] toDecimalF

/-- **C105** (round trip) For the bits of every finite float other than zero the decimal that is written rounds, to nearest with ties to even, to
this float. -/
theorem C105_rounds {u : Nat} (hf : FiniteBits32 u) (h0 : magOf32 u ≠ 0) :
    Rounds f32 (signOf32 u) (((toDecimalF u).1 : ℚ) * 10 ^ (toDecimalF u).2) (floatOf u) := by
  obtain ⟨-, -, -, mk, z, t, I, hx, -, -, hr, hs⟩ := toDecimalF_facts hf h0
  rw [hr, hx, dec_scale]
  exact hs.mem

/-- **C105** (shortest) No decimal with fewer digits rounds to this float, and the one that is written does not end in a zero. -/
theorem C105_shortest {u : Nat} (hf : FiniteBits32 u) (h0 : magOf32 u ≠ 0) :
    ¬ 10 ∣ (toDecimalF u).1 ∧ ∀ (d : Nat) (x : Int), Rounds f32 (signOf32 u) ((d : ℚ) * 10 ^ x) (floatOf u) → ∀ j, d < 10 ^ j → (toDecimalF u).1 < 10 ^ j := by
  obtain ⟨-, -, -, mk, z, t, I, hx, ht, hI, hr, hs⟩ := toDecimalF_facts hf h0
  refine ⟨hs.nozero, fun d x hd j hj => ?_⟩
  rcases Nat.eq_zero_or_pos d with h | h
  · exfalso
    have hz : Rounds f32 (signOf32 u) 0 (.fin (signOf32 u) 0) := by
      have := ofNatF_rounds (F := f32) (by decide) 0
      rw [show ofNatF f32 0 = .fin false 0 by decide +kernel, Nat.cast_zero] at this
      obtain ⟨q, h1, ⟨h2, m, h3, h4⟩ | ⟨-, h3⟩⟩ := this
      · cases h3
        exact ⟨q, h1, .inl ⟨h2, 0, rfl, h4⟩⟩
      · cases h3
    rw [h, Nat.cast_zero, zero_mul] at hd
    have := rounds_unique hd hz
    rw [show floatOf u = .fin (signOf32 u) (magOf32 u) from if_pos hf] at this
    injection this with _ h2
    exact h0 h2
  · rw [hr, dec_scale'] at hd
    exact hs.shortest hI ht h hd hj

/-- **C105** (closest) Of the decimals with as few digits that round to this float none is closer to it. -/
theorem C105_closest {u : Nat} (hf : FiniteBits32 u) (h0 : magOf32 u ≠ 0) (d : Nat) (x : Int)
    (hd : Rounds f32 (signOf32 u) ((d : ℚ) * 10 ^ x) (floatOf u)) (hj : ∀ j, (toDecimalF u).1 < 10 ^ j → d < 10 ^ j) :
    |((toDecimalF u).1 : ℚ) * 10 ^ (toDecimalF u).2 - absOf32 u| ≤ |(d : ℚ) * 10 ^ x - absOf32 u| := by
  obtain ⟨-, -, -, mk, z, t, I, hx, ht, hI, hr, hs⟩ := toDecimalF_facts hf h0
  rw [hr, dec_scale'] at hd
  have h := hs.closest hI ht hd hj
  have hc : (0 : ℚ) < 10 ^ (-mk) := by positivity
  rw [← dec_scale', ← dec_scale _ mk z, ← sub_mul, ← sub_mul, abs_mul, abs_mul, abs_of_pos hc, mul_le_mul_iff_of_pos_right hc] at h
  rw [hx]
  exact h

/-- **C105** (zero) Zero, of either sign, has the significand zero. -/
theorem C105_zero {u : Nat} (hu : u < 2 ^ 32) (h0 : u % 2 ^ 31 = 0) : (toDecimalF u).1 = 0 := by
  have h : u = 0 ∨ u = 2 ^ 31 := by omega
  have hz : (toDecimalF 0).1 = 0 ∧ (toDecimalF (2 ^ 31)).1 = 0 := by decide +kernel
  rcases h with h | h
  · rw [h]; exact hz.1
  · rw [h]; exact hz.2

/-- The hypotheses are met by 0.1, the smallest number and the largest one; the decimals are those that one expects. -/
example : FiniteBits32 0x3DCCCCCD ∧ magOf32 0x3DCCCCCD ≠ 0 ∧ FiniteBits32 1 ∧ magOf32 1 ≠ 0 ∧ FiniteBits32 0x7F7FFFFF ∧
    toDecimalF 0x3DCCCCCD = (1, -1) ∧ toDecimalF 1 = (1, -45) ∧ toDecimalF 0x7F7FFFFF = (34028235, 31) ∧
    toDecimalF 0xC0490FDB = (31415927, -7) ∧ toDecimalF 0x00800000 = (11754944, -45) := by decide +kernel

/-- The hypothesis of C105_closest is met by another decimal of as many digits: `1e-45` is written though `2e-45` rounds to it, too. -/
example : Rounds f32 (signOf32 1) (((2 : Nat) : ℚ) / 10 ^ 45) (floatOf 1) ∧ ∀ j, (toDecimalF 1).1 < 10 ^ j → 2 < 10 ^ j := by
  refine ⟨?_, fun j hj => ?_⟩
  · have h := roundTo_rounds f32 (by decide) false (2 * 2 ^ 149) (10 ^ 45) (by decide)
    rw [show roundTo f32 false (2 * 2 ^ 149) (10 ^ 45) = floatOf 1 by decide +kernel] at h
    convert h using 1
    · decide +kernel
    · rw [show f32.emin = 149 from rfl]
      push_cast
      norm_num
  · rw [show (toDecimalF 1).1 = 1 by decide +kernel] at hj
    rcases j with _ | j
    · omega
    · have : 10 ^ 1 ≤ 10 ^ (j + 1) := Nat.pow_le_pow_right (by decide) (by omega)
      omega

/-! ## The round trip of the bits -/

/-- **C106 is false of the code**: the float next to 3246.0461 is written so, and that is read, in default mode and in
precise mode, as the float below it, 3246.0458984375: the significand 32460461 is no float. -/
theorem C106_false (fc : Bytes → CharsRes) :
    floatOf 0x454AE0BD = .fin false (0xCAE0BD * 2 ^ 137) ∧ writeFloat .auto 0x454AE0BD = .ok asc! "3246.0461" ∧
    ∀ precise, readFloat f32 fc false { exRCfg with precise := precise, maxDig := 10 } asc! "3246.0461," = .ok (.fin false (0xCAE0BC * 2 ^ 137), asc! ",") := by
  refine ⟨by decide +kernel, by decide +kernel, fun precise => ?_⟩
  have h : readReal false { exRCfg with precise := precise, maxDig := 10 } asc! "3246.0461," = .ok (.calc 1 32460461 (-4), asc! ",") := by
    cases precise <;> decide +kernel
  refine readFloat_ok h ?_
  simp only [realValue]
  decide +kernel

/-- **C106** In default mode a float that is neither very small nor very large, written in scientific format, is read back with a
relative error of at most 2^-21: at most eight units in the last place.  (Full statement: it is read back as the same float, false by
`C106_false`.) -/
theorem C106_error_partial (located : Bool) (cfg : RCfg) (hp : cfg.precise = false) (hm : cfg.maxDig = 10) {u : Nat} (hf : FiniteBits32 u)
    (h1 : 1 / 10 ^ 28 ≤ absOf32 u) (h2 : absOf32 u ≤ 2 ^ 126) {c : Bytes} (hc : AfterValue c)
    (hr : c = [] → cfg.zt = true ∧ cfg.checked = true) (fc : Bytes → CharsRes) :
    ∃ t v q, writeFloat .scientific u = .ok t ∧ readFloat f32 fc located cfg (t ++ c) = .ok (v, c) ∧ IsNum f32 v (signOf32 u) q ∧
      |q - absOf32 u| ≤ absOf32 u / 2 ^ 21 := by
  have h0 : magOf32 u ≠ 0 := by
    intro h
    unfold absOf32 at h1
    rw [h, Nat.cast_zero, zero_div] at h1
    have : (0 : ℚ) < 1 / 10 ^ 28 := by positivity
    linarith
  have hF := toDecimalF_facts hf h0
  have hrd := C105_rounds hf h0
  have hsp : 0 < (toDecimalF u).1 := by
    obtain ⟨mk, z, t, I, -, -, -, -, hs⟩ := hF.ex
    exact hs.pos
  unfold writeFloat
  rw [show (decide (u / 2 ^ 31 % 2 = 1)) = signOf32 u from rfl]
  rw [show floatOf u = .fin (signOf32 u) (magOf32 u) from if_pos hf] at hrd
  have hs9 := hF.small
  have hx1 := hF.exp1
  have hx2 := hF.exp2
  clear hF
  generalize (toDecimalF u).1 = sig at *
  generalize (toDecimalF u).2 = exp at *
  have habs : IsNum f32 (.fin (signOf32 u) (magOf32 u)) (signOf32 u) (absOf32 u) := ⟨_, rfl, by
    unfold absOf32
    rw [show f32.emin = 149 from rfl, div_mul_cancel₀ _ (by positivity)]⟩
  generalize absOf32 u = X at *
  generalize signOf32 u = neg at *
  -- the decimal is near the number
  have hX : 0 < X := lt_of_lt_of_le (by positivity) h1
  have hD : |X - (sig : ℚ) * 10 ^ exp| ≤ (sig : ℚ) * 10 ^ exp / 2 ^ 24 := by
    obtain ⟨q, hq, h⟩ := hrd
    obtain ⟨m, g1, g2⟩ := habs
    rcases h with ⟨-, m', g3, g4⟩ | ⟨-, g3⟩
    · have e1 : q = X := by
        have : m = m' := by rw [g1] at g3; injection g3
        rw [← this, g2] at g4
        exact (mul_right_cancel₀ (by positivity) g4).symm
      subst e1
      refine nearest_rel (F := f32) (by decide) hq ?_
      rw [show (2 : ℚ) ^ (f32.prec - 1) / 2 ^ f32.emin = 1 / 2 ^ 126 by norm_num [f32]]
      by_contra hcon
      have hcon := lt_of_not_ge hcon
      have h3 : IsFloat f32 (1 / 2 ^ 126) := ⟨1, -126, by decide, by decide, by norm_num⟩
      have := hq.2.1 _ h3
      have e3 : (1 : ℚ) / 2 ^ 126 < 1 / 10 ^ 28 := by norm_num
      rw [abs_of_neg (by linarith), abs_of_neg (by linarith)] at this
      linarith
    · cases g3
  -- its size
  have hs1 : (1 : ℚ) ≤ sig := by exact_mod_cast hsp
  have hs2 : (sig : ℚ) < 10 ^ (9 : ℤ) := by exact_mod_cast hs9
  have hpe : (0 : ℚ) < 10 ^ exp := zpow_pos (by norm_num) _
  generalize hV : (sig : ℚ) * 10 ^ exp = V at *
  have hV0 : 0 < V := by rw [← hV]; positivity
  obtain ⟨d1, d2⟩ := abs_le.1 hD
  have hVlo : 1 / 10 ^ (29 : ℤ) ≤ V := by
    have e1 : (1 : ℚ) / 10 ^ (29 : ℤ) * (1 + 1 / 2 ^ 24) ≤ 1 / 10 ^ 28 := by norm_num
    have e2 : X ≤ V * (1 + 1 / 2 ^ 24) := by linarith
    by_contra hcon
    have := mul_lt_mul_of_pos_right (lt_of_not_ge hcon) (show (0 : ℚ) < 1 + 1 / 2 ^ 24 by norm_num)
    linarith
  have hVhi : V ≤ 2 ^ 127 := by
    have e2 : V * (1 - 1 / 2 ^ 24) ≤ X := by linarith
    by_contra hcon
    have := mul_lt_mul_of_pos_right (lt_of_not_ge hcon) (show (0 : ℚ) < 1 - 1 / 2 ^ 24 by norm_num)
    have e3 : (2 : ℚ) ^ 126 < 2 ^ 127 * (1 - 1 / 2 ^ 24) := by norm_num
    linarith
  have hVhi' : V < 10 ^ (39 : ℤ) := lt_of_le_of_lt hVhi (by norm_num)
  have hrange : ∀ {s : Nat} {x : Int}, (s : ℚ) < 10 ^ (9 : ℤ) → (s : ℚ) * 10 ^ x = V → -38 ≤ x ∧ x ≤ 38 := by
    intro s x hs hv
    have hpx : (0 : ℚ) < 10 ^ x := zpow_pos (by norm_num) _
    have h1s : (1 : ℚ) ≤ s := by
      have : s ≠ 0 := by
        rintro rfl
        rw [Nat.cast_zero, zero_mul] at hv
        linarith
      exact_mod_cast Nat.one_le_iff_ne_zero.2 this
    constructor
    · have h8 : (10 : ℚ) ^ (-29 : ℤ) < 10 ^ (9 + x) := by
        rw [zpow_add₀ (by norm_num), zpow_neg, ← one_div]
        refine lt_of_le_of_lt hVlo ?_
        rw [← hv]
        exact mul_lt_mul_of_pos_right hs hpx
      have := (zpow_lt_zpow_iff_right₀ (by norm_num : (1 : ℚ) < 10)).1 h8
      omega
    · have h8 : (10 : ℚ) ^ x < 10 ^ (39 : ℤ) := by
        refine lt_of_le_of_lt ?_ hVhi'
        rw [← hv]
        exact le_mul_of_one_le_left hpx.le h1s
      have := (zpow_lt_zpow_iff_right₀ (by norm_num : (1 : ℚ) < 10)).1 h8
      omega
  have hexp := hrange hs2 hV
  have hs' : sig < if false then 10 ^ 17 else 10 ^ 9 := by rw [if_neg (by decide)]; exact hs9
  have he' : if false then -900 ≤ exp ∧ exp ≤ 900 else -90 ≤ exp ∧ exp ≤ 90 := by rw [if_neg (by decide)]; omega
  have hb := real_exp_bound hsp hs' he'
  obtain ⟨t, i, fd, e, k1, k2, k3, k4, k5, k6⟩ := toChars_text false .scientific neg sig exp hsp hs' hb.1
  have hl := k4 rfl
  have hb2 := hb.2
  rw [if_neg (by decide)] at hb2
  have hdv := decVal_lt (numText_digits k2).2
  have hdv9 : decVal (i ++ fd) < 10 ^ 9 := lt_of_lt_of_le hdv (Nat.pow_le_pow_right (by decide) (by omega))
  have hdvq : (decVal (i ++ fd) : ℚ) < 10 ^ (9 : ℤ) := by exact_mod_cast hdv9
  have k7 : (decVal (i ++ fd) : ℚ) * 10 ^ (e - (fd.length : Int)) = V := by rw [← hV]; exact k3
  have hx := hrange hdvq k7
  have hrd' := real_digits located cfg hp (by omega) (by omega) k2 (by omega) (by omega) (numEnd_after hc) hr
  have hd0 : 0 < decVal (i ++ fd) := by
    rcases Nat.eq_zero_or_pos (decVal (i ++ fd)) with h | h
    · rw [h, Nat.cast_zero, zero_mul] at k7
      linarith
    · exact h
  obtain ⟨q, y, g1, g2, g3⟩ := power10_rel32 (decVal (i ++ fd)) hd0 (by omega) (e - (fd.length : Int)) hx.1 hx.2
    (by rw [k7]; exact le_trans (by norm_num) hVlo) (by rw [k7]; exact hVhi)
  rw [k7] at g3
  refine ⟨t, _, q, k1, readFloat_ok hrd' rfl, signF_num (by decide) g1 g2, ?_⟩
  obtain ⟨m1, m2⟩ := abs_le.1 g3
  have e2 : V * (1 - 1 / 2 ^ 24) ≤ X := by linarith
  rw [abs_le]
  constructor <;> linarith

/-- The hypotheses are met by the float of the theorem before. -/
example (fc : Bytes → CharsRes) := C106_error_partial false { exRCfg with maxDig := 10 } rfl rfl (u := 0x454AE0BD) (by decide +kernel)
  (by
    unfold absOf32
    rw [show magOf32 0x454AE0BD = 0xCAE0BD * 2 ^ 137 by decide +kernel]
    norm_num)
  (by
    unfold absOf32
    rw [show magOf32 0x454AE0BD = 0xCAE0BD * 2 ^ 137 by decide +kernel]
    norm_num)
  (c := asc! ",") afterComma (by simp) fc

end Verif
