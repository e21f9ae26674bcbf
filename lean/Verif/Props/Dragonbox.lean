import Verif.Proof.DragonboxMain
import Verif.Props.RealLit

/-!
# Property C104: the decimal that is written for a double
-/

namespace Verif

open Spec

attribute [local irreducible] toDecimal

theorem dec_scale (a : ℚ) (mk : Int) (z : Nat) : a * 10 ^ (mk + z) * 10 ^ (-mk) = a * 10 ^ z := by
  rw [mul_assoc, ← zpow_add₀ (by norm_num), show mk + z + -mk = (z : Int) by ring, zpow_natCast]

theorem dec_scale' (a : ℚ) (mk x : Int) : a * 10 ^ x * 10 ^ (-mk) = a * 10 ^ (x - mk) := by
  rw [mul_assoc, ← zpow_add₀ (by norm_num), sub_eq_add_neg]

/-- **C104** (round trip) For the bits of every finite double other than zero the decimal that is written rounds, to nearest with ties to even, to
this double. -/
theorem C104_rounds {u : Nat} (hf : FiniteBits u) (h0 : magOf u ≠ 0) :
    Rounds f64 (signOf u) (((toDecimal u).1 : ℚ) * 10 ^ (toDecimal u).2) (doubleOf u) := by
  obtain ⟨-, -, -, mk, z, t, I, hx, -, -, hr, hs⟩ := toDecimal_facts hf h0
  rw [hr, hx, dec_scale]
  exact hs.mem

/-- **C104** (shortest) No decimal with fewer digits rounds to this double, and the one that is written does not end in a zero. -/
theorem C104_shortest {u : Nat} (hf : FiniteBits u) (h0 : magOf u ≠ 0) :
    ¬ 10 ∣ (toDecimal u).1 ∧ ∀ (d : Nat) (x : Int), Rounds f64 (signOf u) ((d : ℚ) * 10 ^ x) (doubleOf u) → ∀ j, d < 10 ^ j → (toDecimal u).1 < 10 ^ j := by
  obtain ⟨-, -, -, mk, z, t, I, hx, ht, hI, hr, hs⟩ := toDecimal_facts hf h0
  refine ⟨hs.nozero, fun d x hd j hj => ?_⟩
  rcases Nat.eq_zero_or_pos d with h | h
  · exfalso
    have hz : Rounds f64 (signOf u) 0 (.fin (signOf u) 0) := by
      have := ofNatF_rounds (F := f64) (by decide) 0
      rw [show ofNatF f64 0 = .fin false 0 by decide +kernel, Nat.cast_zero] at this
      obtain ⟨q, h1, ⟨h2, m, h3, h4⟩ | ⟨-, h3⟩⟩ := this
      · cases h3
        exact ⟨q, h1, .inl ⟨h2, 0, rfl, h4⟩⟩
      · cases h3
    rw [h, Nat.cast_zero, zero_mul] at hd
    have := rounds_unique hd hz
    rw [show doubleOf u = .fin (signOf u) (magOf u) from if_pos hf] at this
    injection this with _ h2
    exact h0 h2
  · rw [hr, dec_scale'] at hd
    exact hs.shortest hI ht h hd hj

/-- **C104** (closest) Of the decimals with as few digits that round to this double none is closer to it. -/
theorem C104_closest {u : Nat} (hf : FiniteBits u) (h0 : magOf u ≠ 0) (d : Nat) (x : Int)
    (hd : Rounds f64 (signOf u) ((d : ℚ) * 10 ^ x) (doubleOf u)) (hj : ∀ j, (toDecimal u).1 < 10 ^ j → d < 10 ^ j) :
    |((toDecimal u).1 : ℚ) * 10 ^ (toDecimal u).2 - absOf u| ≤ |(d : ℚ) * 10 ^ x - absOf u| := by
  obtain ⟨-, -, -, mk, z, t, I, hx, ht, hI, hr, hs⟩ := toDecimal_facts hf h0
  rw [hr, dec_scale'] at hd
  have h := hs.closest hI ht hd hj
  have hc : (0 : ℚ) < 10 ^ (-mk) := by positivity
  rw [← dec_scale', ← dec_scale _ mk z, ← sub_mul, ← sub_mul, abs_mul, abs_mul, abs_of_pos hc, mul_le_mul_iff_of_pos_right hc] at h
  rw [hx]
  exact h

/-- **C104** (zero) Zero, of either sign, has the significand zero. -/
theorem C104_zero {u : Nat} (hu : u < 2 ^ 64) (h0 : u % 2 ^ 63 = 0) : (toDecimal u).1 = 0 := by
  have h : u = 0 ∨ u = 2 ^ 63 := by omega
  have hz : (toDecimal 0).1 = 0 ∧ (toDecimal (2 ^ 63)).1 = 0 := by decide +kernel
  rcases h with h | h
  · rw [h]; exact hz.1
  · rw [h]; exact hz.2

/-- The hypotheses are met by 0.1, the smallest number and the largest one; the decimals are those that one expects. -/
example : FiniteBits 0x3FB999999999999A ∧ magOf 0x3FB999999999999A ≠ 0 ∧ FiniteBits 1 ∧ magOf 1 ≠ 0 ∧ FiniteBits 0x7FEFFFFFFFFFFFFF ∧
    toDecimal 0x3FB999999999999A = (1, -1) ∧ toDecimal 1 = (5, -324) ∧ toDecimal 0x7FEFFFFFFFFFFFFF = (17976931348623157, 292) ∧
    toDecimal 0xC00921FB54442D18 = (3141592653589793, -15) ∧ toDecimal 0x0010000000000000 = (22250738585072014, -324) := by decide +kernel

/-- The hypothesis of C104_closest is met by another decimal of as many digits: `5e-324` is written though `4e-324` and `3e-324` round to it, too. -/
example : Rounds f64 (signOf 1) (((4 : Nat) : ℚ) * 10 ^ (-((324 : Nat) : Int))) (doubleOf 1) ∧ ∀ j, (toDecimal 1).1 < 10 ^ j → 4 < 10 ^ j := by
  refine ⟨?_, fun j hj => ?_⟩
  · have h := rounds_decimal false 4 324
    rw [show roundTo f64 false (4 * 2 ^ f64.emin) (10 ^ 324) = doubleOf 1 by decide +kernel] at h
    exact h
  · rw [show (toDecimal 1).1 = 5 by decide +kernel] at hj
    omega

/-! ## The round trip of the bits -/

theorem decimalOf_bits (u : Nat) (h0 : FiniteBits u → magOf u ≠ 0) : DecimalOf (doubleOf u) (toDecimal u).1 (toDecimal u).2 := by
  intro neg m hv
  by_cases hf : FiniteBits u
  · have h := toDecimal_facts hf (h0 hf)
    have hd : doubleOf u = .fin (signOf u) (magOf u) := if_pos hf
    have hr := C104_rounds hf (h0 hf)
    rw [hd] at hv
    injection hv with h1 h2
    subst h1
    subst h2
    refine ⟨h0 hf, ?_, h.small, by have := h.exp1; omega, by have := h.exp2; omega, hr⟩
    obtain ⟨mk, z, t, I, -, -, -, -, hs⟩ := h.ex
    exact hs.pos
  · exfalso
    unfold doubleOf at hv
    rw [if_neg hf] at hv
    split at hv <;> cases hv

/-- **C100** (bits) The bits of a finite double other than zero, written in any format, are read back in precise mode as the same double, with what
dragonbox computes for them. -/
theorem C100_bits_partial (located : Bool) (cfg : RCfg) (hp : cfg.precise = true) (hm : cfg.maxDig = 18) (hck : cfg.checked = true)
    (hzt : cfg.zt = false) (fmt : FPFmt) {u : Nat} (hf : FiniteBits u) (h0 : magOf u ≠ 0) {c : Bytes} (hc : AfterValue c) (hne : c ≠ [])
    (fc : Bytes → CharsRes) (hfc : ∀ t, writeDouble fmt u = .ok t → ∀ t', t' = t ∨ t' = t ++ c →
      CharsGives f64 fc t' (signOf u) (((toDecimal u).1 : ℚ) * 10 ^ (toDecimal u).2)) :
    ∃ t, writeDouble fmt u = .ok t ∧ readFloat f64 fc located cfg (t ++ c) = .ok (doubleOf u, c) := by
  have hd : doubleOf u = .fin (signOf u) (magOf u) := if_pos hf
  obtain ⟨h1, h2, h3, h4, h5, h6⟩ := decimalOf_bits u (fun _ => h0) _ _ hd
  rw [hd] at h6 ⊢
  exact C100_round_trip_partial located cfg hp hm hck hzt fmt (signOf u) (magOf u) h0 _ _ h2 h3 ⟨h4, h5⟩ h6 hc hne fc hfc

/-- **C101** (bits) The bits of a double that is not zero, stored as a string or where it may be one, are read back in place in precise mode as the same
datum, NaN and the infinities included. -/
theorem C101_bits_partial (cfg : RCfg) (hp : cfg.precise = true) (hm : cfg.maxDig = 18) (hck : cfg.checked = true)
    (hzt : cfg.zt = false) (fmt : FPFmt) (always : Bool) (ne : NumErrs) (u : Nat) (h0 : FiniteBits u → magOf u ≠ 0) (ha : Allowed ne (doubleOf u))
    {c : Bytes} (hc : AfterValue c) (hne : c ≠ []) (fc : Bytes → CharsRes)
    (hfc : ∀ t, writeDouble fmt u = .ok t → ∀ t', t' = t ∨ t' = t ++ c ∨ t' = t ++ chQuote :: c →
      CharsGives f64 fc t' (signOf u) (((toDecimal u).1 : ℚ) * 10 ^ (toDecimal u).2)) :
    ∃ t, writeRealQ true fmt (some always) ne (doubleOf u) (toDecimal u).1 (toDecimal u).2 = .ok t ∧
      parseRealQ f64 fc cfg always ne (t ++ c) = .ok (doubleOf u, c) := by
  refine C101_round_trip_partial cfg hp hm hck hzt fmt always ne (doubleOf u) ha _ _ (decimalOf_bits u h0) hc hne fc fun neg m hv t ht => ?_
  have hf : FiniteBits u := by
    by_contra hf
    unfold doubleOf at hv
    rw [if_neg hf] at hv
    split at hv <;> cases hv
  rw [show doubleOf u = .fin (signOf u) (magOf u) from if_pos hf] at hv
  injection hv with h1 h2
  subst h1
  exact hfc t ht

/-- The hypotheses are met by -3.141592653589793, and by NaN. -/
example : (∃ t, writeDouble .auto 0xC00921FB54442D18 = .ok t ∧ t = asc! "-3.141592653589793") ∧ FiniteBits 0xC00921FB54442D18 ∧
    magOf 0xC00921FB54442D18 ≠ 0 ∧ Allowed ⟨true, false⟩ (doubleOf 0x7FF8000000000000) ∧ ¬ FiniteBits 0x7FF8000000000000 :=
  ⟨⟨_, by decide +kernel, rfl⟩, by decide +kernel, by decide +kernel, by
    rw [show doubleOf 0x7FF8000000000000 = .nan by decide +kernel]; rfl, by decide +kernel⟩

end Verif
