import Verif.Proof.RealVal

/-!
# Reals: C17, C58, C59, C60, C61
-/

namespace Verif

open Spec

/-! ## C17 -/

/-- **C17** The text written for a real (scientific, decimal or chosen automatically) is a JSON number that denotes
exactly significand × 10^exponent, for every positive significand of up to 17 digits (9 for `float`) and every exponent
a `double` (`float`) can have; the buffer accesses of the scientific writer are all in bounds. -/
theorem C17_exact (dbl : Bool) (fmt : FPFmt) (neg : Bool) (sig : Nat) (exp : Int) (h0 : 0 < sig)
    (hs : sig < if dbl then 10 ^ 17 else 10 ^ 9)
    (he : if dbl then -900 ≤ exp ∧ exp ≤ 900 else -90 ≤ exp ∧ exp ≤ 90) :
    ∃ t, toChars dbl fmt neg sig exp = .ok t ∧
      NumDenotes t ((if neg then -1 else 1) * ((sig : ℚ) * 10 ^ exp)) :=
  toChars_denotes dbl fmt neg sig exp h0 hs (real_exp_bound h0 hs he).1

/-- -123.45 with the automatic format. -/
example : toChars true .auto true 12345 (-2) = .ok [0x2D, 0x31, 0x32, 0x33, 0x2E, 0x34, 0x35] := by decide +kernel
/-- 1.2345e25 with the automatic format. -/
example : toChars true .auto false 12345 21 = .ok [0x31, 0x2E, 0x32, 0x33, 0x34, 0x35, 0x65, 0x32, 0x35] := by
  decide +kernel
example : 0 < 12345 ∧ 12345 < 10 ^ 17 ∧ (-900 : Int) ≤ -2 ∧ (-2 : Int) ≤ 900 := by decide

/-- **C17** (zero) Zero is written `0`; for negative zero too, so that its sign is lost. -/
theorem C17_zero (dbl : Bool) (fmt : FPFmt) (neg : Bool) (exp : Int) : toChars dbl fmt neg 0 exp = .ok [0x30] := rfl

/-! ## C58 -/

/-- The policies used in the examples: `double`, checked, from a `string_view`. -/
def exRCfg : RCfg := { checked := true, zt := false, precise := false, runtime := true, maxDig := 18 }

/-- `-1.25e+3` is a number with sign, digits and exponent as shown. -/
theorem exRealText : NumText [0x2D, 0x31, 0x2E, 0x32, 0x35, 0x65, 0x2B, 0x33] true [0x31] [0x32, 0x35] 3 :=
  ⟨[0x2E, 0x32, 0x35], [0x65, 0x2B, 0x33], Or.inr ⟨⟨by simp, by unfold IsDig; decide⟩, by decide⟩,
    Or.inr ⟨rfl, by simp, by unfold IsDig; decide⟩,
    Or.inr ⟨0x65, [0x33], Or.inl rfl, ⟨by simp, by unfold IsDig; decide⟩, Or.inr (Or.inl ⟨rfl, by decide⟩)⟩, rfl⟩

/-- `C58_digits`, in front of anything that does not continue the number. -/
theorem real_digits (located : Bool) (cfg : RCfg) (hp : cfg.precise = false) (hm : 2 ≤ cfg.maxDig)
    (hm' : cfg.maxDig ≤ 19) {txt : Bytes} {neg : Bool} {i fd : Bytes} {e : Int} (ht : NumText txt neg i fd e)
    (hT : (i ++ fd).length < cfg.maxDig) (he : e.natAbs + (i ++ fd).length < 2 ^ 31) {c : Bytes} (hc : NumEnd c)
    (hr : c = [] → cfg.zt = true ∧ cfg.checked = true) :
    readReal located cfg (txt ++ c) = .ok (.calc (if neg then -1 else 1) (decVal (i ++ fd)) (e - (fd.length : Int)), c) := by
  obtain ⟨k, j, s, t', h1, h2, h3, h4, h5, h6, h7⟩ := readReal_spec located cfg hm hm' ht (by omega) hc hr
  have hd := (numText_digits ht).2
  have hTl : (i ++ fd).length = i.length + fd.length := List.length_append
  rw [h1, finish_default cfg _ _ _ _ _ hp (by omega)]
  have hk : k = (i ++ fd).length ∧ j = k := by
    cases hse : cfg.skipEnd
    · obtain ⟨rfl, g1, g2⟩ := h5 hse
      exact ⟨by omega, rfl⟩
    · cases located
      · exact h6 hse rfl
      · exact (h7 hse rfl).1 (by omega)
  obtain ⟨g1, rfl⟩ := hk
  rw [Nat.mod_eq_of_lt (decVal_take_lt hd _ (by omega)), g1, List.take_length]
  congr 3
  omega

/-- **C58** (fewer than 18 digits, 10 for `float`) Whatever the policy, and whether the number is read in place or from a range found before:
the floating point computation is given the sign of the number, all its digits as one numeral, and the exponent less one for each digit after
the point. -/
theorem C58_digits (located : Bool) (cfg : RCfg) (hp : cfg.precise = false) (hm : 2 ≤ cfg.maxDig)
    (hm' : cfg.maxDig ≤ 19) {txt : Bytes} {neg : Bool} {i fd : Bytes} {e : Int} (ht : NumText txt neg i fd e)
    (hT : (i ++ fd).length < cfg.maxDig) (he : e.natAbs + (i ++ fd).length < 2 ^ 31) {c : Bytes} (hc : AfterValue c)
    (hr : c = [] → cfg.zt = true ∧ cfg.checked = true) :
    readReal located cfg (txt ++ c) = .ok (.calc (if neg then -1 else 1) (decVal (i ++ fd)) (e - (fd.length : Int)), c) :=
  real_digits located cfg hp hm hm' ht hT he (numEnd_after hc) hr

/-- **C58**, so that sign, significand and exponent stand for exactly the value of the number. -/
theorem C58_exact (located : Bool) (cfg : RCfg) (hp : cfg.precise = false) (hm : 2 ≤ cfg.maxDig)
    (hm' : cfg.maxDig ≤ 19) {txt : Bytes} {neg : Bool} {i fd : Bytes} {e : Int} (ht : NumText txt neg i fd e)
    (hT : (i ++ fd).length < cfg.maxDig) (he : e.natAbs + (i ++ fd).length < 2 ^ 31) {c : Bytes} (hc : AfterValue c)
    (hr : c = [] → cfg.zt = true ∧ cfg.checked = true) :
    ∃ (sig : Nat) (x : Int), readReal located cfg (txt ++ c) = .ok (.calc (if neg then -1 else 1) sig x, c) ∧
      (sig : ℚ) * 10 ^ x = numAbs i fd e :=
  ⟨_, _, C58_digits located cfg hp hm hm' ht hT he hc hr, rfl⟩

/-- `-1.25e+3,` read both ways. -/
example : readReal false exRCfg [0x2D, 0x31, 0x2E, 0x32, 0x35, 0x65, 0x2B, 0x33, 0x2C] = .ok (.calc (-1) 125 1, [0x2C]) ∧
    readReal true exRCfg [0x2D, 0x31, 0x2E, 0x32, 0x35, 0x65, 0x2B, 0x33, 0x2C] = .ok (.calc (-1) 125 1, [0x2C]) := by
  decide +kernel
example : ([0x31] ++ [0x32, 0x35] : Bytes).length < exRCfg.maxDig ∧ AfterValue [0x2C] :=
  ⟨by decide, ⟨[], [0x2C], by simp [IsWs], rfl, Or.inr ⟨_, _, rfl, by simp⟩⟩⟩

/-- The hypotheses are met. -/
example (located : Bool) := C58_exact located exRCfg rfl (by decide) (by decide) exRealText (by decide) (by decide)
  (c := [0x2C]) ⟨[], [0x2C], by simp [IsWs], rfl, Or.inr ⟨_, _, rfl, by simp⟩⟩ (by simp)

/-- **C58** (any number of digits, checked input that is not zero terminated) Digits beyond the 18th (10th) are cut
off: the significand and exponent stand for the magnitude of the number rounded towards zero, off by less than one unit
of the last digit kept. -/
theorem C58_truncated_partial (located : Bool) (cfg : RCfg) (hp : cfg.precise = false) (hck : cfg.checked = true)
    (hzt : cfg.zt = false) (hm : 2 ≤ cfg.maxDig)
    (hm' : cfg.maxDig ≤ 19) {txt : Bytes} {neg : Bool} {i fd : Bytes} {e : Int} (ht : NumText txt neg i fd e)
    (he : e.natAbs + (i ++ fd).length < 2 ^ 31) {c : Bytes} (hc : AfterValue c) (hne : c ≠ []) :
    ∃ (sig : Nat) (x : Int), readReal located cfg (txt ++ c) = .ok (.calc (if neg then -1 else 1) sig x, c) ∧
      (sig : ℚ) * 10 ^ x ≤ numAbs i fd e ∧ numAbs i fd e < ((sig : ℚ) + 1) * 10 ^ x := by
  obtain ⟨k, j, s, t', h1, h2, h3, h4, h5, h6, h7⟩ := readReal_spec located cfg hm hm' ht (by omega) (numEnd_after hc)
    (fun h => absurd h hne)
  have hd := (numText_digits ht).2
  have hTl : (i ++ fd).length = i.length + fd.length := List.length_append
  have hse : cfg.skipEnd = false := by simp [RCfg.skipEnd, hck, hzt]
  obtain ⟨rfl, g1, g2⟩ := h5 hse
  refine ⟨_, _, by rw [h1, finish_default cfg _ _ _ _ _ hp (by omega)], ?_⟩
  rw [Nat.mod_eq_of_lt (decVal_take_lt hd _ (by omega))]
  have := sciVal_bounds i fd e _ hd h3
  unfold sciVal at this
  push_cast at this
  exact this

/-- `3.14159265358979323846 ` keeps 17 digits read in place, 18 from a range. -/
example :
    readReal false exRCfg [0x33, 0x2E, 0x31, 0x34, 0x31, 0x35, 0x39, 0x32, 0x36, 0x35, 0x33, 0x35, 0x38, 0x39, 0x37, 0x39,
      0x33, 0x32, 0x33, 0x38, 0x34, 0x36, 0x20] = .ok (.calc 1 31415926535897932 (-16), [0x20]) ∧
    readReal true exRCfg [0x33, 0x2E, 0x31, 0x34, 0x31, 0x35, 0x39, 0x32, 0x36, 0x35, 0x33, 0x35, 0x38, 0x39, 0x37, 0x39,
      0x33, 0x32, 0x33, 0x38, 0x34, 0x36, 0x20] = .ok (.calc 1 314159265358979323 (-17), [0x20]) := by decide +kernel

/-- **C58 is false of the code** for zero terminated input (what `from_json` uses when given a `std::string`) and
digits read in place: `1.8446744073709551617` (20 digits) wraps around 2^64 and is read as 1 × 10^-19, and
`3.14159265358979323846` as another number. -/
theorem C58_zero_terminated_false :
    readReal false { exRCfg with zt := true } [0x31, 0x2E, 0x38, 0x34, 0x34, 0x36, 0x37, 0x34, 0x34, 0x30, 0x37, 0x33,
      0x37, 0x30, 0x39, 0x35, 0x35, 0x31, 0x36, 0x31, 0x37, 0x20] = .ok (.calc 1 1 (-19), [0x20]) ∧
    readReal false { exRCfg with zt := true } [0x33, 0x2E, 0x31, 0x34, 0x31, 0x35, 0x39, 0x32, 0x36, 0x35, 0x33, 0x35,
      0x38, 0x39, 0x37, 0x39, 0x33, 0x32, 0x33, 0x38, 0x34, 0x36, 0x20] =
      .ok (.calc 1 564616105916946374 (-20), [0x20]) := by
  decide +kernel

/-- **C58 is false of the code** for zero terminated or unchecked input when the number was located before: digits
after the 18th are read but not counted.  `1234567890123456789` is read as ten times its value, and
`0.12345678901234567890` as 123.4567… -/
theorem C58_located_false :
    readReal true { exRCfg with zt := true } [0x31, 0x32, 0x33, 0x34, 0x35, 0x36, 0x37, 0x38, 0x39, 0x30, 0x31, 0x32,
      0x33, 0x34, 0x35, 0x36, 0x37, 0x38, 0x39, 0x2C] = .ok (.calc 1 1234567890123456789 1, [0x2C]) ∧
    readReal true { exRCfg with checked := false } [0x30, 0x2E, 0x31, 0x32, 0x33, 0x34, 0x35, 0x36, 0x37, 0x38, 0x39,
      0x30, 0x31, 0x32, 0x33, 0x34, 0x35, 0x36, 0x37, 0x38, 0x39, 0x30, 0x2C] =
      .ok (.calc 1 12345678901234567890 (-17), [0x2C]) := by
  decide +kernel

/-- **C58 is false of the code** for exponents that do not fit: the exponent of `1e18446744073709551616` is taken
modulo 2^64, and outside constant evaluation the exponent of `1e4294967296` modulo 2^32, so that both are read as 1. -/
theorem C58_exponent_false :
    readReal false exRCfg [0x31, 0x65, 0x31, 0x38, 0x34, 0x34, 0x36, 0x37, 0x34, 0x34, 0x30, 0x37, 0x33, 0x37, 0x30, 0x39,
      0x35, 0x35, 0x31, 0x36, 0x31, 0x36, 0x2C] = .ok (.calc 1 1 0, [0x2C]) ∧
    readReal false exRCfg [0x31, 0x65, 0x34, 0x32, 0x39, 0x34, 0x39, 0x36, 0x37, 0x32, 0x39, 0x36, 0x2C] =
      .ok (.calc 1 1 0, [0x2C]) := by
  decide +kernel

/-- **C58 is false of the code** when a number without fraction and exponent ends the input of a checked parser over a
`string_view`: the byte after the range is read. -/
theorem C58_end_false (cfg : RCfg) (hck : cfg.checked = true) (hz0 : cfg.zt = false) (h18 : cfg.maxDig = 18) (ds : Bytes)
    (hi : IsInt ds) (hl : ds.length ≤ 18) : readReal false cfg ds = .ub := by
  have hd := isInt_digits hi
  have hnil : NoDig [] := by intro x hx; simp at hx
  have hv := validateSignedFirst_digits cfg.base ds [] hi hnil
  rw [List.append_nil] at hv
  have hz : RRoom cfg [] := by intro h; simp [RCfg.skipEnd, hz0, hck] at h
  have ht : took cfg (min ds.length cfg.maxDig) ds = ds.length := by
    have : cfg.skipEnd = false := by simp [RCfg.skipEnd, hz0, hck]
    simp only [took, this, Bool.false_eq_true, if_false, h18]
    omega
  have hw : unkWhole cfg ds = .ub := by
    have h := digitsWhile_spec cfg (min ds.length cfg.maxDig) 0 ds [] (by decide) hd.2 hnil hz
    rw [ht, List.append_nil, List.drop_length] at h
    unfold unkWhole
    dsimp only
    rw [h, Res.ok_bind]
    dsimp only
    rw [if_pos (by simp)]
    simp [skipDigitsR, hz0]
  obtain ⟨d, t, rfl, hd0⟩ := isDigits_head hd
  unfold readReal realUnknown
  rw [if_neg (by decide)]
  dsimp only
  rw [show isNumberStart d = true by simp [isNumberStart, (isDigit_iff d).2 hd0], show assertWeak cfg.checked true
    Err.invalidNumberStart = .ok () by rw [hck]; rfl, Res.ok_bind, hv, Res.ok_bind, hw]
  rfl

/-! ## C59 -/

/-- `C59_precise_partial`, in front of anything that does not continue the number. -/
theorem real_precise (located : Bool) (cfg : RCfg) (hp : cfg.precise = true) (hm : cfg.maxDig = 18)
    {txt : Bytes} {neg : Bool} {i fd : Bytes} {e : Int} (ht : NumText txt neg i fd e)
    (he : e.natAbs + (i ++ fd).length < 2 ^ 62) {c : Bytes} (hc : NumEnd c)
    (hr : c = [] → cfg.zt = true ∧ cfg.checked = true)
    (hl : located = false → (cfg.zt = true ∨ cfg.checked = false) → (i ++ fd).length ≤ 19) :
    ∃ out, readReal located cfg (txt ++ c) = .ok (out, c) ∧
      ((out = .strtod txt ∨ out = .strtod (txt ++ c)) ∨
        ∃ (sig : Nat) (x : Int), out = .calc (if neg then -1 else 1) sig x ∧ sig ≤ 2 ^ 53 ∧ -22 ≤ x ∧ x ≤ 22 ∧
          (sig : ℚ) * 10 ^ x = numAbs i fd e) := by
  obtain ⟨k, j, s, t', h1, h2, h3, h4, h5, h6, h7⟩ := readReal_spec located cfg (by omega) (by omega) ht he hc hr
  obtain ⟨hi, hd⟩ := numText_digits ht
  have hTl : (i ++ fd).length = i.length + fd.length := List.length_append
  refine ⟨_, h1, ?_⟩
  have htx : t' = txt ∨ t' = txt ++ c := by rw [h2]; cases located <;> simp
  unfold finish
  rw [hp, Bool.true_and]
  by_cases hcond : (s || decide (22 < (i.length : Int) - (j : Int) + e) || decide ((i.length : Int) - (j : Int) + e < -22) ||
      decide (9007199254740992 < decVal ((i ++ fd).take k) % 2 ^ 64)) = true
  · rw [if_pos hcond]
    left
    rcases htx with rfl | rfl
    · exact Or.inl rfl
    · exact Or.inr rfl
  · rw [if_neg hcond]
    simp only [Bool.or_eq_true, decide_eq_true_eq, not_or, Bool.not_eq_true] at hcond
    obtain ⟨⟨⟨hs, hx1⟩, hx2⟩, hsg⟩ := hcond
    right
    have hwr : (if cfg.runtime then wrapSigned 32 ((i.length : Int) - (j : Int) + e) else (i.length : Int) - (j : Int) + e) =
        (i.length : Int) - (j : Int) + e := by
      split
      · unfold wrapSigned; dsimp only; split <;> omega
      · rfl
    rw [hwr]
    -- a significand of 18 or more digits without leading zero is above 2^53
    have hbig : ∀ k, 18 ≤ k → k ≤ 19 → k ≤ i.length → decVal ((i ++ fd).take k) % 2 ^ 64 ≤ 9007199254740992 → False := by
      intro k hk1 hk2 hk3 hle
      rw [Nat.mod_eq_of_lt (decVal_take_lt hd _ hk2), List.take_append_of_le_length hk3] at hle
      have h10 := isInt_hasDigits (ds := i.take k) (isInt_take hi (by omega) k (by omega))
        (isInt_take_pos hi (by omega) k (by omega))
      have := h10.2.1
      rw [List.length_take, Nat.min_eq_left hk3] at this
      have h17 : 10 ^ 17 ≤ 10 ^ (k - 1) := Nat.pow_le_pow_right (by decide) (by omega)
      have h17' : 9007199254740992 < 10 ^ 17 := by decide
      omega
    have hk : k = (i ++ fd).length ∧ j = k ∧ k ≤ 19 := by
      cases hse : cfg.skipEnd
      · obtain ⟨rfl, g1, g2⟩ := h5 hse
        refine ⟨?_, rfl, by omega⟩
        rcases g2 with g2 | ⟨g2, g3 | ⟨-, g3, g4, g5⟩⟩
        · exact g2
        · rw [hs] at g3; simp at g3
        · exact absurd (by omega : decVal ((i ++ fd).take j) % 2 ^ 64 ≤ 9007199254740992)
            (fun h => hbig j (by omega) (by omega) (by omega) h)
      · have hse' : cfg.zt = true ∨ cfg.checked = false := by
          unfold RCfg.skipEnd at hse
          simpa using hse
        cases located
        · obtain ⟨g1, g2⟩ := h6 hse rfl
          exact ⟨g1, g2, by rw [g1]; exact hl rfl hse'⟩
        · obtain ⟨g1, g2⟩ := h7 hse rfl
          rcases g2 with g2 | g2 | ⟨g2, g3, g4⟩
          · exact ⟨(g1 g2).1, (g1 g2).2, by rw [(g1 g2).1]; omega⟩
          · rw [hs] at g2; simp at g2
          · exact absurd (by omega : decVal ((i ++ fd).take k) % 2 ^ 64 ≤ 9007199254740992)
              (fun h => hbig k (by omega) (by omega) (by omega) h)
    obtain ⟨g1, rfl, g2⟩ := hk
    exact ⟨_, _, rfl, by omega, by omega, by omega, numAbs_full i fd e hd _ g1 g2⟩

/-- **C59** With `IEEE754Precise::yes` a `double` is computed either by `strtod` (`from_chars`) on the text of the
number, or from a significand of at most 2^53 and a power of ten of at most 22, both exact in `double`, that stand for
exactly the value of the number; so that one correctly rounded multiplication or division gives the nearest `double`.
For numbers read in place from zero terminated or unchecked input: up to 19 digits. -/
theorem C59_precise_partial (located : Bool) (cfg : RCfg) (hp : cfg.precise = true) (hm : cfg.maxDig = 18)
    {txt : Bytes} {neg : Bool} {i fd : Bytes} {e : Int} (ht : NumText txt neg i fd e)
    (he : e.natAbs + (i ++ fd).length < 2 ^ 62) {c : Bytes} (hc : AfterValue c)
    (hr : c = [] → cfg.zt = true ∧ cfg.checked = true)
    (hl : located = false → (cfg.zt = true ∨ cfg.checked = false) → (i ++ fd).length ≤ 19) :
    ∃ out, readReal located cfg (txt ++ c) = .ok (out, c) ∧
      ((out = .strtod txt ∨ out = .strtod (txt ++ c)) ∨
        ∃ (sig : Nat) (x : Int), out = .calc (if neg then -1 else 1) sig x ∧ sig ≤ 2 ^ 53 ∧ -22 ≤ x ∧ x ≤ 22 ∧
          (sig : ℚ) * 10 ^ x = numAbs i fd e) :=
  real_precise located cfg hp hm ht he (numEnd_after hc) hr hl

/-- `9007199254740993.` then digits: read with `strtod`; `0.5` computed. -/
example : readReal false { exRCfg with precise := true } [0x39, 0x30, 0x30, 0x37, 0x31, 0x39, 0x39, 0x32, 0x35, 0x34, 0x37, 0x34, 0x30, 0x39, 0x39, 0x33, 0x20] =
      .ok (.strtod [0x39, 0x30, 0x30, 0x37, 0x31, 0x39, 0x39, 0x32, 0x35, 0x34, 0x37, 0x34, 0x30, 0x39, 0x39, 0x33, 0x20], [0x20]) ∧
    readReal true { exRCfg with precise := true } [0x2D, 0x32, 0x2E, 0x35, 0x2C] = .ok (.calc (-1) 25 (-1), [0x2C]) := by
  decide +kernel

/-- The hypotheses are met. -/
example (located : Bool) := C59_precise_partial located { exRCfg with precise := true } rfl rfl exRealText (by decide)
  (c := [0x2C]) ⟨[], [0x2C], by simp [IsWs], rfl, Or.inr ⟨_, _, rfl, by simp⟩⟩ (by simp) (fun _ _ => by decide)

/-- **C59 is false of the code** for zero terminated input with more digits after the point than fit: the number is
computed from digits that wrapped around, not handed to `strtod`. -/
theorem C59_zero_terminated_false :
    readReal false { exRCfg with zt := true, precise := true } [0x31, 0x2E, 0x38, 0x34, 0x34, 0x36, 0x37, 0x34, 0x34, 0x30, 0x37, 0x33, 0x37, 0x30, 0x39, 0x35, 0x35, 0x31, 0x36, 0x31, 0x37, 0x20] =
      .ok (.calc 1 1 (-19), [0x20]) := by decide +kernel

/-- **C59 is false of the code** for `float`: `12345678901` read from a range found before is computed from its first ten
digits, and the limits are those of `double`, so that significands above 2^24 are used as they are. -/
theorem C59_float_false :
    readReal true { exRCfg with precise := true, maxDig := 10 } [0x31, 0x32, 0x33, 0x34, 0x35, 0x36, 0x37, 0x38, 0x39, 0x30, 0x31, 0x2C] =
      .ok (.calc 1 1234567890 1, [0x2C]) ∧
    readReal false { exRCfg with precise := true, maxDig := 10 } [0x31, 0x36, 0x37, 0x37, 0x37, 0x32, 0x31, 0x37, 0x2C] =
      .ok (.calc 1 16777217 0, [0x2C]) := by decide +kernel

/-- **C59 is false of the code** for exponents that do not fit 64 bits: computed as 1. -/
theorem C59_exponent_false :
    readReal false { exRCfg with precise := true } [0x31, 0x65, 0x31, 0x38, 0x34, 0x34, 0x36, 0x37, 0x34, 0x34, 0x30, 0x37, 0x33, 0x37, 0x30, 0x39, 0x35, 0x35, 0x31, 0x36, 0x31, 0x36, 0x2C] = .ok (.calc 1 1 0, [0x2C]) := by
  decide +kernel

/-! ## C60 -/

/-- **C60** (the integer part is not 0; checked input that is not zero terminated) In default mode the significand and
exponent stand for the value of the number with a relative error below 10^-16 (10^-8 for `float`), however many digits
it has. -/
theorem C60_precision_partial (located : Bool) (cfg : RCfg) (hp : cfg.precise = false) (hck : cfg.checked = true)
    (hzt : cfg.zt = false) (hm : 2 ≤ cfg.maxDig)
    (hm' : cfg.maxDig ≤ 19) {txt : Bytes} {neg : Bool} {i fd : Bytes} {e : Int} (ht : NumText txt neg i fd e)
    (hi0 : i ≠ [0x30])
    (he : e.natAbs + (i ++ fd).length < 2 ^ 31) {c : Bytes} (hc : AfterValue c) (hne : c ≠ []) :
    ∃ (sig : Nat) (x : Int), readReal located cfg (txt ++ c) = .ok (.calc (if neg then -1 else 1) sig x, c) ∧
      sig < 2 ^ 64 ∧ (sig : ℚ) * 10 ^ x ≤ numAbs i fd e ∧
      (numAbs i fd e - (sig : ℚ) * 10 ^ x) * 10 ^ (cfg.maxDig - 2) ≤ numAbs i fd e := by
  obtain ⟨k, j, s, t', h1, h2, h3, h4, h5, h6, h7⟩ := readReal_spec located cfg hm hm' ht (by omega) (numEnd_after hc)
    (fun h => absurd h hne)
  obtain ⟨hi, hd⟩ := numText_digits ht
  have hTl : (i ++ fd).length = i.length + fd.length := List.length_append
  have hse : cfg.skipEnd = false := by simp [RCfg.skipEnd, hck, hzt]
  obtain ⟨rfl, g1, g2⟩ := h5 hse
  refine ⟨_, _, by rw [h1, finish_default cfg _ _ _ _ _ hp (by omega)], Nat.mod_lt _ (by decide), ?_⟩
  rw [Nat.mod_eq_of_lt (decVal_take_lt hd _ (by omega))]
  have hb := sciVal_bounds i fd e _ hd h3
  have h0 : (0 : ℚ) ≤ numAbs i fd e := by
    unfold numAbs
    exact mul_nonneg (Nat.cast_nonneg _) (zpow_pos (by norm_num) _).le
  by_cases hk : j = (i ++ fd).length
  · subst hk
    have := sciVal_full i fd e
    unfold sciVal at this hb
    rw [this]
    refine ⟨le_refl _, ?_⟩
    rw [sub_self, zero_mul]
    exact h0
  · have hk1 : cfg.maxDig - 1 ≤ j := by
      rcases g2 with g2 | g2
      · exact absurd g2 hk
      · exact g2.1
    have hS := lead_take hi hi0 fd (fun c hc => hd c (List.mem_append.2 (Or.inr hc))) j (by omega) h3
    unfold sciVal at hb
    refine ⟨hb.1, ?_⟩
    have hx : (0 : ℚ) < (10 : ℚ) ^ ((i.length : Int) - (j : Int) + e) := zpow_pos (by norm_num) _
    set S := decVal ((i ++ fd).take j)
    set X := (10 : ℚ) ^ ((i.length : Int) - (j : Int) + e)
    have hS' : (10 : ℚ) ^ (cfg.maxDig - 2) ≤ (S : ℚ) := by
      have : 10 ^ (cfg.maxDig - 2) ≤ S := Nat.le_trans (Nat.pow_le_pow_right (by decide) (by omega)) hS
      exact_mod_cast this
    have hb2 := hb.2
    push_cast at hb2
    have h10 : (0 : ℚ) ≤ (10 : ℚ) ^ (cfg.maxDig - 2) := by positivity
    calc (numAbs i fd e - S * X) * 10 ^ (cfg.maxDig - 2) ≤ X * 10 ^ (cfg.maxDig - 2) :=
          mul_le_mul_of_nonneg_right (by linarith) h10
      _ ≤ X * S := mul_le_mul_of_nonneg_left hS' hx.le
      _ ≤ numAbs i fd e := by rw [mul_comm]; exact hb.1

/-- The hypotheses are met. -/
example (located : Bool) := C60_precision_partial located exRCfg rfl rfl rfl (by decide) (by decide) exRealText (by decide)
  (by decide) (c := [0x2C]) ⟨[], [0x2C], by simp [IsWs], rfl, Or.inr ⟨_, _, rfl, by simp⟩⟩ (by simp)

/-- **C60 is false of the code** for numbers with zeros after the point: they use up the digits kept.
`0.00000000000000001234` is read as zero, and of `0.00012345678901234567` (as written by the library) 13 significant
digits remain. -/
theorem C60_leading_zeros_false :
    readReal false exRCfg [0x30, 0x2E, 0x30, 0x30, 0x30, 0x30, 0x30, 0x30, 0x30, 0x30, 0x30, 0x30, 0x30, 0x30, 0x30, 0x30, 0x30, 0x30, 0x31, 0x32, 0x33, 0x34, 0x2C] = .ok (.calc 1 0 (-16), [0x2C]) ∧
    readReal false exRCfg [0x30, 0x2E, 0x30, 0x30, 0x30, 0x31, 0x32, 0x33, 0x34, 0x35, 0x36, 0x37, 0x38, 0x39, 0x30, 0x31, 0x32, 0x33, 0x34, 0x35, 0x36, 0x37, 0x2C] = .ok (.calc 1 1234567890123 (-16), [0x2C]) := by
  decide +kernel

/-! ## C61 -/

/-- **C61** (precise mode) What the library writes for a `double`, in any format, is read back by the precise parser from
the same decimal significand × 10^exponent: exactly, or by `strtod` on the text written. -/
theorem C61_precise_partial (located : Bool) (cfg : RCfg) (hp : cfg.precise = true) (hm : cfg.maxDig = 18)
    (hck : cfg.checked = true) (hzt : cfg.zt = false) (fmt : FPFmt) (neg : Bool) (sig : Nat) (exp : Int) (h0 : 0 < sig)
    (hs : sig < 10 ^ 17) (he : -900 ≤ exp ∧ exp ≤ 900) {c : Bytes} (hc : AfterValue c) (hne : c ≠ []) :
    ∃ t out, toChars true fmt neg sig exp = .ok t ∧ readReal located cfg (t ++ c) = .ok (out, c) ∧
      ((out = .strtod t ∨ out = .strtod (t ++ c)) ∨
        ∃ (sig' : Nat) (x : Int), out = .calc (if neg then -1 else 1) sig' x ∧ sig' ≤ 2 ^ 53 ∧ -22 ≤ x ∧ x ≤ 22 ∧
          (sig' : ℚ) * 10 ^ x = (sig : ℚ) * 10 ^ exp) := by
  obtain ⟨t, i, fd, e, h1, h2, h3, h4, h5, h6⟩ := toChars_text true fmt neg sig exp h0 (by simpa using hs)
    (real_exp_bound (dbl := true) h0 (by simpa using hs) (by simpa using he)).1
  obtain ⟨out, g1, g2⟩ := C59_precise_partial located cfg hp hm h2 (by omega) hc (fun h => absurd h hne)
    (by rw [hzt, hck]; simp)
  refine ⟨t, out, h1, g1, ?_⟩
  rw [h3] at g2
  exact g2

/-- **C61** (scientific format) What the library writes in scientific format is read back, in every policy, as the same
decimal significand × 10^exponent. -/
theorem C61_scientific_partial (dbl located : Bool) (cfg : RCfg) (hp : cfg.precise = false)
    (hm : cfg.maxDig = if dbl then 18 else 10) (neg : Bool) (sig : Nat) (exp : Int) (h0 : 0 < sig)
    (hs : sig < if dbl then 10 ^ 17 else 10 ^ 9)
    (he : if dbl then -900 ≤ exp ∧ exp ≤ 900 else -90 ≤ exp ∧ exp ≤ 90) {c : Bytes} (hc : AfterValue c)
    (hr : c = [] → cfg.zt = true ∧ cfg.checked = true) :
    ∃ t sig' x, toChars dbl .scientific neg sig exp = .ok t ∧
      readReal located cfg (t ++ c) = .ok (.calc (if neg then -1 else 1) sig' x, c) ∧ (sig' : ℚ) * 10 ^ x = (sig : ℚ) * 10 ^ exp := by
  have hb := real_exp_bound h0 hs he
  obtain ⟨t, i, fd, e, h1, h2, h3, h4, h5, h6⟩ := toChars_text dbl .scientific neg sig exp h0 hs hb.1
  obtain ⟨sig', x, g1, g2⟩ := C58_exact located cfg hp (by rw [hm]; split <;> omega) (by rw [hm]; split <;> omega)
    h2 (by have := h4 rfl; have := hb.2; rw [hm]; split at this <;> split <;> omega) (by omega) hc hr
  exact ⟨t, sig', x, h1, g1, by rw [g2, h3]⟩

/-- 1.2345678901234567e-4 in scientific format. -/
example : toChars true .scientific false 12345678901234567 (-20) = .ok [0x31, 0x2E, 0x32, 0x33, 0x34, 0x35, 0x36, 0x37, 0x38, 0x39, 0x30, 0x31, 0x32, 0x33, 0x34, 0x35, 0x36, 0x37, 0x65, 0x2D, 0x34] ∧
    readReal false exRCfg [0x31, 0x2E, 0x32, 0x33, 0x34, 0x35, 0x36, 0x37, 0x38, 0x39, 0x30, 0x31, 0x32, 0x33, 0x34, 0x35, 0x36, 0x37, 0x65, 0x2D, 0x34, 0x2C] = .ok (.calc 1 12345678901234567 (-20), [0x2C]) := by
  decide +kernel

/-- **C61 is false of the code** in default mode and automatic format: 1.2345678901234567e-4 is written as
`0.00012345678901234567` and read back as 1234567890123 × 10^-16 from a `string_view`, and from a `std::string` (zero
terminated) as a number a thousand times too large if it was located before. -/
theorem C61_auto_false :
    toChars true .auto false 12345678901234567 (-20) = .ok [0x30, 0x2E, 0x30, 0x30, 0x30, 0x31, 0x32, 0x33, 0x34, 0x35, 0x36, 0x37, 0x38, 0x39, 0x30, 0x31, 0x32, 0x33, 0x34, 0x35, 0x36, 0x37] ∧
    readReal false exRCfg [0x30, 0x2E, 0x30, 0x30, 0x30, 0x31, 0x32, 0x33, 0x34, 0x35, 0x36, 0x37, 0x38, 0x39, 0x30, 0x31, 0x32, 0x33, 0x34, 0x35, 0x36, 0x37, 0x2C] = .ok (.calc 1 1234567890123 (-16), [0x2C]) ∧
    readReal true { exRCfg with zt := true } [0x30, 0x2E, 0x30, 0x30, 0x30, 0x31, 0x32, 0x33, 0x34, 0x35, 0x36, 0x37, 0x38, 0x39, 0x30, 0x31, 0x32, 0x33, 0x34, 0x35, 0x36, 0x37, 0x2C] =
      .ok (.calc 1 12345678901234567 (-17), [0x2C]) := by
  decide +kernel

end Verif
