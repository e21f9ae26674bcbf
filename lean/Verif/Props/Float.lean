import Verif.Proof.FloatPow
import Verif.Props.Real
import Verif.Spec.Ascii

/-!
# Properties C98, C99, C100: the `double` a number is read as

C58 to C61 are about the significand and the exponent from which a real is computed; here the computation itself is followed.
-/

namespace Verif

open Spec

set_option exponentiation.threshold 3000

/-- What `std::from_chars` says of a text in front of which stands the number of this sign and magnitude: the nearest number of the format;
`errc::result_out_of_range` if that is infinity.  If a number that is not zero is rounded to zero, the standard leaves it open which of
the two (it is out of range for libstdc++). -/
def Spec.CharsGives (F : FFmt) (fc : Bytes → CharsRes) (t : Bytes) (neg : Bool) (x : ℚ) : Prop :=
  ∀ v, Rounds F neg x v → (v = .inf neg → fc t = .outOfRange) ∧
    ∀ m, v = .fin neg m → (m ≠ 0 ∨ x = 0 → fc t = .val v) ∧ (fc t = .val v ∨ fc t = .outOfRange)

/-- Every number is rounded to exactly one datum of the format. -/
theorem rounds_exists_unique (F : FFmt) (hp : 2 ≤ F.prec) (neg : Bool) (x : ℚ) (hx : 0 ≤ x) : ∃ v, Rounds F neg x v ∧ ∀ w, Rounds F neg x w → w = v := by
  obtain ⟨v, hv⟩ := rounds_exists F hp neg hx
  exact ⟨v, hv, fun w hw => rounds_unique hw hv⟩

theorem numText_head {txt : Bytes} {neg : Bool} {i fd : Bytes} {e : Int} (ht : NumText txt neg i fd e) : ∃ d t, txt = d :: t ∧ (d == chMinus) = neg := by
  obtain ⟨f, x, hi, -, -, rfl⟩ := ht
  obtain ⟨d, t, rfl, hd⟩ := isDigits_head (isInt_digits hi)
  cases neg
  · refine ⟨d, t ++ (f ++ x), rfl, ?_⟩
    cases hb : d == chMinus
    · rfl
    · rw [eq_of_beq hb] at hd
      revert hd
      unfold IsDig
      decide
  · exact ⟨0x2D, d :: t ++ (f ++ x), rfl, rfl⟩

theorem numAbs_nonneg (i fd : Bytes) (e : Int) : 0 ≤ numAbs i fd e := by
  unfold numAbs
  positivity

/-- A number above half of the smallest `double` is not rounded to zero. -/
theorem rounds_pos {neg : Bool} {x : ℚ} {m : Nat} (h : Rounds f64 neg x (.fin neg m)) (hx : 1 / 2 ^ 1075 < x) : m ≠ 0 := by
  rintro rfl
  obtain ⟨q, hq, h⟩ := h
  rcases h with ⟨-, m, h1, h2⟩ | ⟨-, h1⟩
  · cases h1
    have hq0 := isNum_units h2
    rw [Nat.cast_zero, zero_div] at hq0
    subst hq0
    have hf : IsFloat f64 (1 / 2 ^ 1074) := ⟨1, -1074, by decide, by decide, by rw [zpow_neg]; norm_cast⟩
    have := hq.2.1 _ hf
    have h0 : 0 < x := lt_trans (by positivity) hx
    rw [sub_zero, abs_of_pos h0] at this
    have h2 : (1 : ℚ) / 2 ^ 1074 = 2 * (1 / 2 ^ 1075) := by norm_num
    rw [h2] at this
    have h3 : (0 : ℚ) < 1 / 2 ^ 1075 := by positivity
    generalize (1 : ℚ) / 2 ^ 1075 = d at *
    rcases le_abs.1 this with h | h <;> linarith
  · cases h1

/-- `parse_with_strtod` gives the nearest `double`. -/
theorem parseWithStrtod_rounds {fc : Bytes → CharsRes} {t : Bytes} {neg : Bool} {x : ℚ} (hx0 : 0 ≤ x) (hfc : CharsGives f64 fc t neg x)
    (hh : ∃ d s, t = d :: s ∧ (d == chMinus) = neg) (hx : ∀ m, Rounds f64 neg x (.fin neg m) → m ≠ 0 ∨ x = 0) :
    ∃ v, parseWithStrtod fc t = .ok v ∧ Rounds f64 neg x v := by
  obtain ⟨v, hv⟩ := rounds_exists f64 (by decide) neg hx0
  refine ⟨v, ?_, hv⟩
  obtain ⟨h1, h2⟩ := hfc v hv
  obtain ⟨q, hq, h | h⟩ := id hv
  · obtain ⟨-, m, rfl, -⟩ := h
    have := (h2 m rfl).1 (hx m hv)
    unfold parseWithStrtod
    rw [this]
  · obtain ⟨-, rfl⟩ := h
    obtain ⟨d, s, rfl, hd⟩ := hh
    unfold parseWithStrtod
    rw [h1 rfl]
    simp [deref, hd]

/-- The computation from a significand of at most 53 bits and a power of ten of at most 22 gives the nearest `double`. -/
theorem calc_rounds64 (neg : Bool) (sig : Nat) (x : Int) (hs : sig ≤ 2 ^ 53) (h1 : -22 ≤ x) (h2 : x ≤ 22) :
    Rounds f64 neg ((sig : ℚ) * 10 ^ x) (mulF f64 (signF f64 (if neg then -1 else 1)) (power10 f64 (ofNatF f64 sig) x)) := by
  have hp : 2 ≤ f64.prec := by decide
  have := signF_mul hp (if neg then -1 else 1) (power10_exact hp (ofNatF_exact hp (by decide) sig hs) 22 (by decide)
    (fun i hi => pow10_exact64 i hi) x h1 h2)
  cases neg <;> exact this

/-- The same for `float`: 24 bits and powers of ten up to 10. -/
theorem calc_rounds32 (neg : Bool) (sig : Nat) (x : Int) (hs : sig ≤ 2 ^ 24) (h1 : -10 ≤ x) (h2 : x ≤ 10) :
    Rounds f32 neg ((sig : ℚ) * 10 ^ x) (mulF f32 (signF f32 (if neg then -1 else 1)) (power10 f32 (ofNatF f32 sig) x)) := by
  have hp : 2 ≤ f32.prec := by decide
  have := signF_mul hp (if neg then -1 else 1) (power10_exact hp (ofNatF_exact hp (by decide) sig hs) 10 (by decide)
    (fun i hi => pow10_exact32 i hi) x h1 h2)
  cases neg <;> exact this

theorem readFloat_ok {F : FFmt} {fc : Bytes → CharsRes} {located : Bool} {cfg : RCfg} {bs c : Bytes} {o : RealOut} {v : FVal}
    (h : readReal located cfg bs = .ok (o, c)) (hv : realValue F fc o = .ok v) : readFloat F fc located cfg bs = .ok (v, c) := by
  unfold readFloat
  rw [h, Res.ok_bind]
  dsimp only
  rw [hv, Res.ok_bind]

/-! ## C98: precise mode -/

/-- `C98_nearest_partial`, in front of anything that does not continue the number. -/
theorem readFloat_precise (located : Bool) (cfg : RCfg) (hp : cfg.precise = true) (hm : cfg.maxDig = 18)
    {txt : Bytes} {neg : Bool} {i fd : Bytes} {e : Int} (ht : NumText txt neg i fd e)
    (he : e.natAbs + (i ++ fd).length < 2 ^ 62) {c : Bytes} (hc : NumEnd c)
    (hr : c = [] → cfg.zt = true ∧ cfg.checked = true)
    (hl : located = false → (cfg.zt = true ∨ cfg.checked = false) → (i ++ fd).length ≤ 19)
    (fc : Bytes → CharsRes) (hfc : ∀ t, t = txt ∨ t = txt ++ c → CharsGives f64 fc t neg (numAbs i fd e))
    (hx : numAbs i fd e = 0 ∨ 1 / 2 ^ 1075 < numAbs i fd e) :
    ∃ v, readFloat f64 fc located cfg (txt ++ c) = .ok (v, c) ∧ Rounds f64 neg (numAbs i fd e) v := by
  obtain ⟨out, h1, h2⟩ := real_precise located cfg hp hm ht he hc hr hl
  obtain ⟨d, s, hd, hd'⟩ := numText_head ht
  have hpos : ∀ m, Rounds f64 neg (numAbs i fd e) (.fin neg m) → m ≠ 0 ∨ numAbs i fd e = 0 := by
    intro m hm
    rcases hx with hx | hx
    · exact Or.inr hx
    · exact Or.inl (rounds_pos hm hx)
  rcases h2 with (rfl | rfl) | ⟨sig, x, rfl, g1, g2, g3, g4⟩
  · obtain ⟨v, hv, hr⟩ := parseWithStrtod_rounds (numAbs_nonneg i fd e) (hfc _ (Or.inl rfl)) ⟨d, s, hd, hd'⟩ hpos
    exact ⟨v, readFloat_ok h1 hv, hr⟩
  · obtain ⟨v, hv, hr⟩ := parseWithStrtod_rounds (numAbs_nonneg i fd e) (hfc _ (Or.inr rfl)) ⟨d, s ++ c, by rw [hd]; rfl, hd'⟩ hpos
    exact ⟨v, readFloat_ok h1 hv, hr⟩
  · refine ⟨_, readFloat_ok h1 rfl, ?_⟩
    rw [← g4]
    exact calc_rounds64 neg sig x g1 g2 g3

/-- **C98** With `IEEE754Precise::yes` every JSON number is read as the nearest `double`, ties to even, or infinity if it is too large,
whether it is read in place or from a range found before.  Missing: numbers that are not zero but too small for a `double`, see
`C98_false_for_underflow`; numbers of more than 19 digits read in place from zero terminated or unchecked input, see
`C59_zero_terminated_false`; exponents that do not fit, see `C59_exponent_false`; `float`, see `C98_false_for_float`. -/
theorem C98_nearest_partial (located : Bool) (cfg : RCfg) (hp : cfg.precise = true) (hm : cfg.maxDig = 18)
    {txt : Bytes} {neg : Bool} {i fd : Bytes} {e : Int} (ht : NumText txt neg i fd e)
    (he : e.natAbs + (i ++ fd).length < 2 ^ 62) {c : Bytes} (hc : AfterValue c)
    (hr : c = [] → cfg.zt = true ∧ cfg.checked = true)
    (hl : located = false → (cfg.zt = true ∨ cfg.checked = false) → (i ++ fd).length ≤ 19)
    (fc : Bytes → CharsRes) (hfc : ∀ t, t = txt ∨ t = txt ++ c → CharsGives f64 fc t neg (numAbs i fd e))
    (hx : numAbs i fd e = 0 ∨ 1 / 2 ^ 1075 < numAbs i fd e) :
    ∃ v, readFloat f64 fc located cfg (txt ++ c) = .ok (v, c) ∧ Rounds f64 neg (numAbs i fd e) v :=
  readFloat_precise located cfg hp hm ht he (numEnd_after hc) hr hl fc hfc hx

theorem exReal_abs : numAbs [0x31] [0x32, 0x35] 3 = ((1250 : ℕ) : ℚ) := by
  unfold numAbs
  rw [show decVal ([0x31] ++ [0x32, 0x35]) = 125 by decide]
  norm_num

/-- A `from_chars` that gives the nearest `double` for -1250. -/
theorem exChars (t : Bytes) : CharsGives f64 (fun _ => .val (mulF f64 (signF f64 (-1)) (ofNatF f64 1250))) t true (numAbs [0x31] [0x32, 0x35] 3) := by
  intro v hv
  rw [exReal_abs] at hv
  have hr := signF_mul (by decide) (-1) (ofNatF_rounds (F := f64) (by decide) 1250)
  rw [rounds_unique hv hr]
  have hne : mulF f64 (signF f64 (-1)) (ofNatF f64 1250) ≠ .inf true := by decide +kernel
  exact ⟨fun h => absurd h hne, fun m _ => ⟨fun _ => rfl, Or.inl rfl⟩⟩

/-- The hypotheses are met by `-1.25e+3,`. -/
example (located : Bool) := C98_nearest_partial located { exRCfg with precise := true } rfl rfl exRealText (by decide)
  (c := [0x2C]) ⟨[], [0x2C], by simp [IsWs], rfl, Or.inr ⟨_, _, rfl, by simp⟩⟩ (by simp) (fun _ _ => by decide) _ (fun t _ => exChars t)
  (Or.inr (by rw [exReal_abs]; norm_num))

/-- The result for `-1.25e+3`. -/
example : readFloat f64 (fun _ => .invalid) false { exRCfg with precise := true } asc! "-1.25e+3," = .ok (.fin true (1250 * 2 ^ 1074), asc! ",") := by
  decide +kernel

/-- **C98 is false of the code** for numbers that are too small, if `from_chars` says that they are out of range (as that of libstdc++): they
are read as infinity.  `1e-400`, as an example, and `-1e-400`. -/
theorem C98_false_for_underflow (fc : Bytes → CharsRes) (hfc : ∀ t, fc t = .outOfRange) :
    readFloat f64 fc false { exRCfg with precise := true } asc! "1e-400," = .ok (.inf false, asc! ",") ∧
    readFloat f64 fc true { exRCfg with precise := true } asc! "-1e-400," = .ok (.inf true, asc! ",") := by
  have h1 : readReal false { exRCfg with precise := true } asc! "1e-400," = .ok (.strtod asc! "1e-400,", asc! ",") := by decide +kernel
  have h2 : readReal true { exRCfg with precise := true } asc! "-1e-400," = .ok (.strtod asc! "-1e-400", asc! ",") := by decide +kernel
  refine ⟨readFloat_ok h1 ?_, readFloat_ok h2 ?_⟩
  · simp only [realValue, parseWithStrtod, hfc]
    decide
  · simp only [realValue, parseWithStrtod, hfc]
    decide

/-- `float`, in either mode: a number of fewer than 10 digits in total, with a significand of at most 2^24 and an exponent between -10 and 10, is
read as the nearest `float`. -/
theorem C98_float_partial (located : Bool) (cfg : RCfg) (hp : cfg.precise = false) (hm : cfg.maxDig = 10)
    {txt : Bytes} {neg : Bool} {i fd : Bytes} {e : Int} (ht : NumText txt neg i fd e) (hT : (i ++ fd).length < 10)
    (hs : decVal (i ++ fd) ≤ 2 ^ 24) (h1 : -10 ≤ e - (fd.length : Int)) (h2 : e - (fd.length : Int) ≤ 10) {c : Bytes} (hc : AfterValue c)
    (hr : c = [] → cfg.zt = true ∧ cfg.checked = true) (fc : Bytes → CharsRes) :
    ∃ v, readFloat f32 fc located cfg (txt ++ c) = .ok (v, c) ∧ Rounds f32 neg (numAbs i fd e) v := by
  have hTl : (i ++ fd).length = i.length + fd.length := List.length_append
  have h := real_digits located cfg hp (by omega) (by omega) ht (by omega) (by omega) (numEnd_after hc) hr
  exact ⟨_, readFloat_ok h rfl, calc_rounds32 neg _ _ hs h1 h2⟩

/-- **C98 is false of the code** for `float`: the limits for the direct computation are those of `double`.  `909605708e3` is computed as
909605696 × 1000, the `float` next to the nearest one. -/
theorem C98_false_for_float :
    readFloat f32 (fun _ => .invalid) false { exRCfg with precise := true, maxDig := 10 } asc! "909605708e3," ≠
      .ok (roundTo f32 false (909605708000 * 2 ^ 149) 1, asc! ",") ∧
    ∃ m, readFloat f32 (fun _ => .invalid) false { exRCfg with precise := true, maxDig := 10 } asc! "909605708e3," =
      .ok (.fin false m, asc! ",") := by
  constructor
  · decide +kernel
  · exact ⟨909605666816 * 2 ^ 149, by decide +kernel⟩

/-! ## C99: default mode -/

/-- `C99_nearest_partial`, in front of anything that does not continue the number. -/
theorem readFloat_default (located : Bool) (cfg : RCfg) (hp : cfg.precise = false) (hm : cfg.maxDig = 18)
    {txt : Bytes} {neg : Bool} {i fd : Bytes} {e : Int} (ht : NumText txt neg i fd e) (hT : (i ++ fd).length < 18)
    (hs : decVal (i ++ fd) ≤ 2 ^ 53) (h1 : -22 ≤ e - (fd.length : Int)) (h2 : e - (fd.length : Int) ≤ 22) {c : Bytes} (hc : NumEnd c)
    (hr : c = [] → cfg.zt = true ∧ cfg.checked = true) (fc : Bytes → CharsRes) :
    ∃ v, readFloat f64 fc located cfg (txt ++ c) = .ok (v, c) ∧ Rounds f64 neg (numAbs i fd e) v := by
  have hTl : (i ++ fd).length = i.length + fd.length := List.length_append
  have h := real_digits located cfg hp (by omega) (by omega) ht (by omega) (by omega) hc hr
  exact ⟨_, readFloat_ok h rfl, calc_rounds64 neg _ _ hs h1 h2⟩

/-- **C99** (up to 53 bits) In default mode too a number with a significand of at most 2^53 and an exponent between -22 and 22, counted without
the point, is read as the nearest `double`; so is every number of up to 15 digits that is written without exponent. -/
theorem C99_nearest_partial (located : Bool) (cfg : RCfg) (hp : cfg.precise = false) (hm : cfg.maxDig = 18)
    {txt : Bytes} {neg : Bool} {i fd : Bytes} {e : Int} (ht : NumText txt neg i fd e) (hT : (i ++ fd).length < 18)
    (hs : decVal (i ++ fd) ≤ 2 ^ 53) (h1 : -22 ≤ e - (fd.length : Int)) (h2 : e - (fd.length : Int) ≤ 22) {c : Bytes} (hc : AfterValue c)
    (hr : c = [] → cfg.zt = true ∧ cfg.checked = true) (fc : Bytes → CharsRes) :
    ∃ v, readFloat f64 fc located cfg (txt ++ c) = .ok (v, c) ∧ Rounds f64 neg (numAbs i fd e) v :=
  readFloat_default located cfg hp hm ht hT hs h1 h2 (numEnd_after hc) hr fc

/-- A finite number with a sign in front. -/
theorem signF_num {F : FFmt} (hp : 2 ≤ F.prec) {neg : Bool} {v : FVal} {x q : ℚ} (hv : Rounds F false x v) (hq : IsNum F v false q) :
    IsNum F (mulF F (signF F (if neg then -1 else 1)) v) neg q := by
  have := signF_mul hp (if neg then -1 else 1) hv
  obtain ⟨m, rfl, h2⟩ := hq
  obtain ⟨r, hr, h⟩ := this
  obtain ⟨r', hr', h'⟩ := hv
  obtain rfl := nearest_unique hr hr'
  rcases h' with ⟨g1, m', g2, g3⟩ | ⟨-, g2⟩
  · cases g2
    rcases h with ⟨-, n, k1, k2⟩ | ⟨k1, -⟩
    · refine ⟨n, ?_, ?_⟩
      · rw [k1]
        cases neg <;> rfl
      · rw [k2, ← g3, h2]
    · linarith
  · cases g2

/-- The computation from a significand of at most 64 bits and an exponent within the table, for a normal result. -/
theorem calc_error64 (neg : Bool) (sig : Nat) (hs : sig < 2 ^ 64) (x : Int) (h1 : -308 ≤ x) (h2 : x ≤ 308)
    (hlo : 1 / 2 ^ 1021 ≤ (sig : ℚ) * 10 ^ x) (hhi : (sig : ℚ) * 10 ^ x ≤ 2 ^ 1023) :
    ∃ q, IsNum f64 (mulF f64 (signF f64 (if neg then -1 else 1)) (power10 f64 (ofNatF f64 sig) x)) neg q ∧
      |q - (sig : ℚ) * 10 ^ x| ≤ (sig : ℚ) * 10 ^ x / 2 ^ 51 := by
  have h0 : 0 < sig := by
    rcases Nat.eq_zero_or_pos sig with rfl | h
    · rw [Nat.cast_zero, zero_mul] at hlo
      have : (0 : ℚ) < 1 / 2 ^ 1021 := by positivity
      linarith
    · exact h
  obtain ⟨q, y, g1, g2, g3⟩ := power10_rel sig h0 hs x h1 h2 hlo hhi
  exact ⟨q, signF_num (by decide) g1 g2, g3⟩

/-- **C99** (up to 17 digits) In default mode, whatever the policy: a number of up to 17 digits that is neither too small nor too large, with an
exponent of at least -308 (counted without the point), is read with a relative error of at most 2^-51. -/
theorem C99_error_partial (located : Bool) (cfg : RCfg) (hp : cfg.precise = false) (hm : cfg.maxDig = 18)
    {txt : Bytes} {neg : Bool} {i fd : Bytes} {e : Int} (ht : NumText txt neg i fd e) (hT : (i ++ fd).length < 18)
    (h1 : -308 ≤ e - (fd.length : Int)) (h2 : e - (fd.length : Int) ≤ 308) (hlo : 1 / 2 ^ 1021 ≤ numAbs i fd e) (hhi : numAbs i fd e ≤ 2 ^ 1023)
    {c : Bytes} (hc : AfterValue c) (hr : c = [] → cfg.zt = true ∧ cfg.checked = true) (fc : Bytes → CharsRes) :
    ∃ v q, readFloat f64 fc located cfg (txt ++ c) = .ok (v, c) ∧ IsNum f64 v neg q ∧ |q - numAbs i fd e| ≤ numAbs i fd e / 2 ^ 51 := by
  have hTl : (i ++ fd).length = i.length + fd.length := List.length_append
  have h := real_digits located cfg hp (by omega) (by omega) ht (by omega) (by omega) (numEnd_after hc) hr
  have hd := (numText_digits ht).2
  have hs := decVal_take_lt hd (i ++ fd).length (by omega)
  rw [List.take_length] at hs
  obtain ⟨q, g1, g2⟩ := calc_error64 neg (decVal (i ++ fd)) hs _ h1 h2 hlo hhi
  exact ⟨_, q, readFloat_ok h rfl, g1, g2⟩

/-- **C99** (any number of digits) In default mode, for checked input that is not zero terminated: a number whose integer part is not 0, and that
is neither too small nor too large, is read with a relative error of at most 2^-51 + 10^-16.  Missing: numbers that begin with `0.`, see
`C60_leading_zeros_false`; zero terminated and unchecked input, see `C58_zero_terminated_false`; numbers near the smallest ones. -/
theorem C99_error_any_partial (located : Bool) (cfg : RCfg) (hp : cfg.precise = false) (hck : cfg.checked = true)
    (hzt : cfg.zt = false) (hm : cfg.maxDig = 18) {txt : Bytes} {neg : Bool} {i fd : Bytes} {e : Int} (ht : NumText txt neg i fd e)
    (hi0 : i ≠ [0x30]) (he : e.natAbs + (i ++ fd).length < 2 ^ 31) (hlo : 1 / 10 ^ 289 ≤ numAbs i fd e) (hhi : numAbs i fd e ≤ 2 ^ 1023)
    {c : Bytes} (hc : AfterValue c) (hne : c ≠ []) (fc : Bytes → CharsRes) :
    ∃ v q, readFloat f64 fc located cfg (txt ++ c) = .ok (v, c) ∧ IsNum f64 v neg q ∧
      |q - numAbs i fd e| ≤ numAbs i fd e * (1 / 2 ^ 51 + 1 / 10 ^ 16) := by
  obtain ⟨sig, x, h1, h2, h3, h4⟩ := C60_precision_partial located cfg hp hck hzt (by omega) (by omega) ht hi0 he hc hne
  rw [hm] at h4
  have h0 := numAbs_nonneg i fd e
  generalize numAbs i fd e = X at *
  have h4' : X - (sig : ℚ) * 10 ^ x ≤ X * (1 / 10 ^ 16) := by
    rw [mul_one_div, le_div_iff₀ (by positivity)]
    exact h4
  have hs2 : (sig : ℚ) < 2 ^ 64 := by exact_mod_cast h2
  have hsx : 0 ≤ (sig : ℚ) * 10 ^ x := by positivity
  have hlow : 99 / 100 * (1 / 10 ^ 289) ≤ (sig : ℚ) * 10 ^ x := by
    have h5 : X * (1 / 10 ^ 16) ≤ X * (1 / 100) := mul_le_mul_of_nonneg_left (by norm_num) h0
    have h6 : X - (sig : ℚ) * 10 ^ x ≤ X * (1 / 100) := h4'.trans h5
    clear h4' h5 h4 h3 hhi
    generalize (1 : ℚ) / 10 ^ 289 = L at *
    linarith
  have hpos : (0 : ℚ) < (sig : ℚ) * 10 ^ x := lt_of_lt_of_le (by norm_num) hlow
  have hsig : (1 : ℚ) ≤ sig := by
    have : sig ≠ 0 := by
      rintro rfl
      simp at hpos
    exact_mod_cast Nat.one_le_iff_ne_zero.2 this
  have hx10 : (0 : ℚ) < 10 ^ x := zpow_pos (by norm_num) _
  have hx1 : -308 ≤ x := by
    by_contra hc
    have hle : (10 : ℚ) ^ x ≤ 10 ^ (-309 : ℤ) := zpow_le_zpow_right₀ (by norm_num) (by omega)
    have h6 : (sig : ℚ) * 10 ^ x ≤ 2 ^ 64 * 10 ^ (-309 : ℤ) := mul_le_mul hs2.le hle hx10.le (by positivity)
    have h7 : (2 : ℚ) ^ 64 * 10 ^ (-309 : ℤ) < 99 / 100 * (1 / 10 ^ 289) := by norm_num
    exact absurd (lt_of_le_of_lt (hlow.trans h6) h7) (lt_irrefl _)
  have hx2 : x ≤ 308 := by
    by_contra hc
    have hle : (10 : ℚ) ^ (309 : ℤ) ≤ 10 ^ x := zpow_le_zpow_right₀ (by norm_num) (by omega)
    have h6 : (1 : ℚ) * 10 ^ (309 : ℤ) ≤ (sig : ℚ) * 10 ^ x := mul_le_mul hsig hle (by positivity) (by linarith)
    have h7 : (2 : ℚ) ^ 1023 < 1 * 10 ^ (309 : ℤ) := by norm_num
    linarith
  obtain ⟨q, g1, g2⟩ := calc_error64 neg sig h2 x hx1 hx2 (by
    have : (1 : ℚ) / 2 ^ 1021 ≤ 99 / 100 * (1 / 10 ^ 289) := by norm_num
    linarith) (by linarith)
  refine ⟨_, q, readFloat_ok h1 rfl, g1, ?_⟩
  have h8 : q - X = (q - (sig : ℚ) * 10 ^ x) + ((sig : ℚ) * 10 ^ x - X) := by ring
  rw [h8]
  refine (abs_add_le _ _).trans ?_
  rw [abs_sub_comm ((sig : ℚ) * 10 ^ x) X, abs_of_nonneg (by linarith : 0 ≤ X - (sig : ℚ) * 10 ^ x)]
  have h9 : (sig : ℚ) * 10 ^ x / 2 ^ 51 ≤ X * (1 / 2 ^ 51) := by
    rw [mul_one_div]
    exact div_le_div_of_nonneg_right h3 (by positivity)
  linarith

/-- The computation from a significand of at most 64 bits and any exponent, for a normal result. -/
theorem calc_error64_any (neg : Bool) (sig : Nat) (hs : sig < 2 ^ 64) (x : Int)
    (hlo : 1 / 2 ^ 1021 ≤ (sig : ℚ) * 10 ^ x) (hhi : (sig : ℚ) * 10 ^ x ≤ 2 ^ 1023) :
    ∃ q, IsNum f64 (mulF f64 (signF f64 (if neg then -1 else 1)) (power10 f64 (ofNatF f64 sig) x)) neg q ∧
      |q - (sig : ℚ) * 10 ^ x| ≤ (sig : ℚ) * 10 ^ x / 2 ^ 50 := by
  have h0 : 0 < sig := by
    rcases Nat.eq_zero_or_pos sig with rfl | h
    · rw [Nat.cast_zero, zero_mul] at hlo
      have : (0 : ℚ) < 1 / 2 ^ 1021 := by positivity
      linarith
    · exact h
  by_cases hx : x < -308
  · obtain ⟨q, y, g1, g2, g3⟩ := power10_rel_low sig h0 hs x hx hlo
    exact ⟨q, signF_num (by decide) g1 g2, g3⟩
  · have hx2 : x ≤ 308 := by
      by_contra hc
      have hsig : (1 : ℚ) ≤ sig := by exact_mod_cast h0
      have hle : (10 : ℚ) ^ (309 : ℤ) ≤ 10 ^ x := zpow_le_zpow_right₀ (by norm_num) (by omega)
      have h6 : (1 : ℚ) * 10 ^ (309 : ℤ) ≤ (sig : ℚ) * 10 ^ x := mul_le_mul hsig hle (by positivity) (by linarith)
      have h7 : (2 : ℚ) ^ 1023 < 1 * 10 ^ (309 : ℤ) := by norm_num
      exact absurd (lt_of_lt_of_le h7 (h6.trans hhi)) (lt_irrefl _)
    obtain ⟨q, g1, g2⟩ := calc_error64 neg sig hs x (by omega) hx2 hlo hhi
    refine ⟨q, g1, g2.trans ?_⟩
    have : (0 : ℚ) ≤ (sig : ℚ) * 10 ^ x := by positivity
    rw [div_eq_mul_one_div, div_eq_mul_one_div (_ * _)]
    exact mul_le_mul_of_nonneg_left (by norm_num) this

/-- **C99** (up to 17 digits, any exponent) In default mode, whatever the policy: a number of up to 17 digits that is neither too small nor too large
is read with a relative error of at most 2^-50, whatever its exponent. -/
theorem C99_error_small_partial (located : Bool) (cfg : RCfg) (hp : cfg.precise = false) (hm : cfg.maxDig = 18)
    {txt : Bytes} {neg : Bool} {i fd : Bytes} {e : Int} (ht : NumText txt neg i fd e) (hT : (i ++ fd).length < 18)
    (he : e.natAbs + (i ++ fd).length < 2 ^ 31) (hlo : 1 / 2 ^ 1021 ≤ numAbs i fd e) (hhi : numAbs i fd e ≤ 2 ^ 1023)
    {c : Bytes} (hc : AfterValue c) (hr : c = [] → cfg.zt = true ∧ cfg.checked = true) (fc : Bytes → CharsRes) :
    ∃ v q, readFloat f64 fc located cfg (txt ++ c) = .ok (v, c) ∧ IsNum f64 v neg q ∧ |q - numAbs i fd e| ≤ numAbs i fd e / 2 ^ 50 := by
  have hTl : (i ++ fd).length = i.length + fd.length := List.length_append
  have h := real_digits located cfg hp (by omega) (by omega) ht (by omega) (by omega) (numEnd_after hc) hr
  have hd := (numText_digits ht).2
  have hs := decVal_take_lt hd (i ++ fd).length (by omega)
  rw [List.take_length] at hs
  obtain ⟨q, g1, g2⟩ := calc_error64_any neg (decVal (i ++ fd)) hs _ hlo hhi
  exact ⟨_, q, readFloat_ok h rfl, g1, g2⟩

/-- **C99** (any number of digits, any exponent) As `C99_error_any_partial`, down to the smallest normal numbers, with a relative error of at most
2^-50 + 10^-16. -/
theorem C99_error_any_small_partial (located : Bool) (cfg : RCfg) (hp : cfg.precise = false) (hck : cfg.checked = true)
    (hzt : cfg.zt = false) (hm : cfg.maxDig = 18) {txt : Bytes} {neg : Bool} {i fd : Bytes} {e : Int} (ht : NumText txt neg i fd e)
    (hi0 : i ≠ [0x30]) (he : e.natAbs + (i ++ fd).length < 2 ^ 31) (hlo : 1 / 2 ^ 1020 ≤ numAbs i fd e) (hhi : numAbs i fd e ≤ 2 ^ 1023)
    {c : Bytes} (hc : AfterValue c) (hne : c ≠ []) (fc : Bytes → CharsRes) :
    ∃ v q, readFloat f64 fc located cfg (txt ++ c) = .ok (v, c) ∧ IsNum f64 v neg q ∧
      |q - numAbs i fd e| ≤ numAbs i fd e * (1 / 2 ^ 50 + 1 / 10 ^ 16) := by
  obtain ⟨sig, x, h1, h2, h3, h4⟩ := C60_precision_partial located cfg hp hck hzt (by omega) (by omega) ht hi0 he hc hne
  rw [hm] at h4
  have h0 := numAbs_nonneg i fd e
  generalize numAbs i fd e = X at *
  have h4' : X - (sig : ℚ) * 10 ^ x ≤ X * (1 / 10 ^ 16) := by
    rw [mul_one_div, le_div_iff₀ (by positivity)]
    exact h4
  have hlow : 1 / 2 ^ 1021 ≤ (sig : ℚ) * 10 ^ x := by
    have h5 : X * (1 / 10 ^ 16) ≤ X * (1 / 100) := mul_le_mul_of_nonneg_left (by norm_num) h0
    have h6 : X * (99 / 100) ≤ (sig : ℚ) * 10 ^ x := by linarith
    have h7 : 1 / 2 ^ 1020 * (99 / 100) ≤ X * (99 / 100) := mul_le_mul_of_nonneg_right hlo (by norm_num)
    have h8 : (1 : ℚ) / 2 ^ 1021 ≤ 1 / 2 ^ 1020 * (99 / 100) := by norm_num
    exact h8.trans (h7.trans h6)
  obtain ⟨q, g1, g2⟩ := calc_error64_any neg sig h2 x hlow (by linarith)
  refine ⟨_, q, readFloat_ok h1 rfl, g1, ?_⟩
  have h8 : q - X = (q - (sig : ℚ) * 10 ^ x) + ((sig : ℚ) * 10 ^ x - X) := by ring
  rw [h8]
  refine (abs_add_le _ _).trans ?_
  rw [abs_sub_comm ((sig : ℚ) * 10 ^ x) X, abs_of_nonneg (by linarith : 0 ≤ X - (sig : ℚ) * 10 ^ x)]
  have h9 : (sig : ℚ) * 10 ^ x / 2 ^ 50 ≤ X * (1 / 2 ^ 50) := by
    rw [mul_one_div]
    exact div_le_div_of_nonneg_right h3 (by positivity)
  linarith

/-- `1234567e-313`, below the table, meets the hypotheses. -/
theorem exSmallText : NumText asc! "1234567e-313" false asc! "1234567" [] (-313) :=
  ⟨[], asc! "e-313", Or.inr ⟨⟨by simp, by unfold IsDig; decide⟩, by decide⟩, Or.inl ⟨rfl, rfl⟩,
    Or.inr ⟨0x65, asc! "313", Or.inl rfl, ⟨by simp, by unfold IsDig; decide⟩, Or.inr (Or.inr ⟨rfl, by decide⟩)⟩, rfl⟩

theorem exSmall_abs : numAbs asc! "1234567" [] (-313) = 1234567 * 10 ^ (-313 : ℤ) := by
  have h : decVal (asc! "1234567" ++ []) = 1234567 := by decide
  unfold numAbs
  rw [h]
  norm_num

example (located : Bool) (fc : Bytes → CharsRes) := C99_error_any_small_partial located exRCfg rfl rfl rfl rfl exSmallText (by decide) (by decide)
  (by rw [exSmall_abs]; norm_num) (by rw [exSmall_abs]; norm_num)
  (c := [0x2C]) ⟨[], [0x2C], by simp [IsWs], rfl, Or.inr ⟨_, _, rfl, by simp⟩⟩ (by simp) fc

example (located : Bool) (fc : Bytes → CharsRes) := C99_error_small_partial located exRCfg rfl rfl exSmallText (by decide) (by decide)
  (by rw [exSmall_abs]; norm_num) (by rw [exSmall_abs]; norm_num)
  (c := [0x2C]) ⟨[], [0x2C], by simp [IsWs], rfl, Or.inr ⟨_, _, rfl, by simp⟩⟩ (by simp) fc

/-- The hypotheses are met by `-1.25e+3,`. -/
example (located : Bool) (fc : Bytes → CharsRes) := C99_error_any_partial located exRCfg rfl rfl rfl rfl exRealText (by decide) (by decide)
  (by rw [exReal_abs]; norm_num) (by rw [exReal_abs]; norm_num)
  (c := [0x2C]) ⟨[], [0x2C], by simp [IsWs], rfl, Or.inr ⟨_, _, rfl, by simp⟩⟩ (by simp) fc

example (located : Bool) (fc : Bytes → CharsRes) := C99_error_partial located exRCfg rfl rfl exRealText (by decide) (by decide) (by decide)
  (by rw [exReal_abs]; norm_num) (by rw [exReal_abs]; norm_num)
  (c := [0x2C]) ⟨[], [0x2C], by simp [IsWs], rfl, Or.inr ⟨_, _, rfl, by simp⟩⟩ (by simp) fc

example (located : Bool) (fc : Bytes → CharsRes) := C99_nearest_partial located exRCfg rfl rfl exRealText (by decide) (by decide) (by decide)
  (by decide) (c := [0x2C]) ⟨[], [0x2C], by simp [IsWs], rfl, Or.inr ⟨_, _, rfl, by simp⟩⟩ (by simp) fc

example (located : Bool) (fc : Bytes → CharsRes) := C98_float_partial located { exRCfg with maxDig := 10 } rfl rfl exRealText (by decide) (by decide)
  (by decide) (by decide) (c := [0x2C]) ⟨[], [0x2C], by simp [IsWs], rfl, Or.inr ⟨_, _, rfl, by simp⟩⟩ (by simp) fc

/-- **C99** (too large) In default mode a number of up to 17 digits that is not zero, with an exponent above 308 (counted without the point), is
read as infinity, as it has to be. -/
theorem C99_infinity_partial (located : Bool) (cfg : RCfg) (hp : cfg.precise = false) (hm : cfg.maxDig = 18)
    {txt : Bytes} {neg : Bool} {i fd : Bytes} {e : Int} (ht : NumText txt neg i fd e) (hT : (i ++ fd).length < 18)
    (h0 : decVal (i ++ fd) ≠ 0) (h1 : 308 < e - (fd.length : Int)) (he : e < 2 ^ 31 - 18)
    {c : Bytes} (hc : AfterValue c) (hr : c = [] → cfg.zt = true ∧ cfg.checked = true) (fc : Bytes → CharsRes) :
    readFloat f64 fc located cfg (txt ++ c) = .ok (.inf neg, c) ∧ Rounds f64 neg (numAbs i fd e) (.inf neg) := by
  have hTl : (i ++ fd).length = i.length + fd.length := List.length_append
  have h := real_digits located cfg hp (by omega) (by omega) ht (by omega) (by omega) (numEnd_after hc) hr
  refine ⟨readFloat_ok h ?_, ?_⟩
  · simp only [realValue]
    rw [power10_over _ (by omega) _ h1]
    have : (2 ^ f64.emin : ℕ) ≠ 0 := by positivity
    cases neg <;> simp [mulF, signF]
  · obtain ⟨v, hv⟩ := rounds_exists f64 (by decide) neg (numAbs_nonneg i fd e)
    have hbig : (2 : ℚ) ^ 1025 ≤ numAbs i fd e := by
      have hle : (10 : ℚ) ^ (309 : ℤ) ≤ 10 ^ (e - (fd.length : Int)) := zpow_le_zpow_right₀ (by norm_num) (by omega)
      have hs1 : (1 : ℚ) ≤ decVal (i ++ fd) := by exact_mod_cast Nat.one_le_iff_ne_zero.2 h0
      have h6 : (1 : ℚ) * 10 ^ (309 : ℤ) ≤ (decVal (i ++ fd) : ℚ) * 10 ^ (e - (fd.length : Int)) := mul_le_mul hs1 hle (by positivity) (by linarith)
      have h7 : (2 : ℚ) ^ 1025 ≤ 1 * 10 ^ (309 : ℤ) := by norm_num
      unfold numAbs
      linarith
    obtain ⟨q, hq, h⟩ := id hv
    have hvf : Rounds f64 false (numAbs i fd e) (match v with | .fin _ m => .fin false m | _ => .inf false) := by
      rcases h with ⟨g1, m, rfl, g2⟩ | ⟨g1, rfl⟩
      · exact ⟨q, hq, Or.inl ⟨g1, m, rfl, g2⟩⟩
      · exact ⟨q, hq, Or.inr ⟨g1, rfl⟩⟩
    have := rounds_over hvf hbig
    rcases h with ⟨g1, m, rfl, g2⟩ | ⟨g1, rfl⟩
    · cases this
    · exact hv

/-- `12e400` is met by the hypotheses. -/
example : NumText asc! "12e400" false asc! "12" [] 400 ∧ decVal (asc! "12" ++ []) ≠ 0 ∧ (308 : Int) < 400 - (([] : Bytes).length : Int) :=
  ⟨⟨[], asc! "e400", Or.inr ⟨⟨by simp, by unfold IsDig; decide⟩, by decide⟩, Or.inl ⟨rfl, rfl⟩,
    Or.inr ⟨0x65, asc! "400", Or.inl rfl, ⟨by simp, by unfold IsDig; decide⟩, Or.inl ⟨rfl, by decide⟩⟩, rfl⟩, by decide, by decide⟩

/-- **C99 is false of the code** for zero with a large exponent: `0e309` is read as not-a-number, and `0e1025` as infinity. -/
theorem C99_false_for_zero :
    readFloat f64 (fun _ => .invalid) false exRCfg asc! "0e309," = .ok (.nan, asc! ",") ∧
    readFloat f64 (fun _ => .invalid) false exRCfg asc! "0e1025," = .ok (.inf false, asc! ",") := by
  constructor <;> decide +kernel

/-- **C99 is false of the code**: a number may be read with an error of more than two units in the last place.  `18345999727625678e-165` is read as
8451796095928413 × 2^-547, more than two units of 2^-547 above it. -/
theorem C99_false_two_ulp :
    readFloat f64 (fun _ => .invalid) false exRCfg asc! "18345999727625678e-165," = .ok (.fin false (8451796095928413 * 2 ^ 527), asc! ",") ∧
    ((18345999727625678 : ℚ) / 10 ^ 165 + 2 * (1 / 2 ^ 547) < 8451796095928413 / 2 ^ 547) ∧ 2 ^ 52 ≤ 8451796095928413 ∧ 8451796095928413 < 2 ^ 53 := by
  refine ⟨by decide +kernel, by norm_num, by decide, by decide⟩

/-! ## C100: doubles survive -/

/-- Zero is written as `0`, and read back as zero in every mode; the sign of a negative zero is lost. -/
theorem C100_zero (located : Bool) (cfg : RCfg) (hm : cfg.maxDig = 18) (fmt : FPFmt) (neg : Bool) (exp : Int) {c : Bytes} (hc : AfterValue c) (hr : c = [] → cfg.zt = true ∧ cfg.checked = true)
    (fc : Bytes → CharsRes) (hfc : ∀ t, t = asc! "0" ∨ t = asc! "0" ++ c → fc t = .val (.fin false 0)) :
    toChars true fmt neg 0 exp = .ok asc! "0" ∧ readFloat f64 fc located cfg (asc! "0" ++ c) = .ok (.fin false 0, c) := by
  refine ⟨rfl, ?_⟩
  have ht : NumText asc! "0" false asc! "0" [] 0 := ⟨[], [], Or.inl rfl, Or.inl ⟨rfl, rfl⟩, Or.inl ⟨rfl, rfl⟩, rfl⟩
  have h0 : numAbs asc! "0" [] 0 = 0 := by
    unfold numAbs
    rw [show decVal (asc! "0" ++ []) = 0 by decide]
    norm_num
  have hz : Rounds f64 false 0 (.fin false 0) := by
    have := ofNatF_rounds (F := f64) (by decide) 0
    rw [show ofNatF f64 0 = .fin false 0 by decide +kernel, Nat.cast_zero] at this
    exact this
  cases hp : cfg.precise
  · obtain ⟨v, h1, h2⟩ := C99_nearest_partial located cfg hp hm ht (by decide) (by decide) (by decide) (by decide) hc hr fc
    rw [h0] at h2
    rw [h1, rounds_unique h2 hz]
  · obtain ⟨v, h1, h2⟩ := C98_nearest_partial located cfg hp hm ht (by decide) hc hr (fun _ _ => by decide) fc (by
      intro t ht v hv
      rw [h0] at hv
      rw [rounds_unique hv hz, hfc t ht]
      exact ⟨fun h => FVal.noConfusion h, fun m _ => ⟨fun _ => rfl, Or.inl rfl⟩⟩) (Or.inl h0)
    rw [h0] at h2
    rw [h1, rounds_unique h2 hz]

/-- **C100** A `double` that is written, in any format, from a decimal significand and exponent whose nearest `double` it is (as the shortest
such decimal is), is read back in precise mode as the same `double`. -/
theorem C100_round_trip_partial (located : Bool) (cfg : RCfg) (hp : cfg.precise = true) (hm : cfg.maxDig = 18) (hck : cfg.checked = true)
    (hzt : cfg.zt = false) (fmt : FPFmt) (neg : Bool) (m : Nat) (hm0 : m ≠ 0) (sig : Nat) (exp : Int) (h0 : 0 < sig) (hs : sig < 10 ^ 17)
    (he : -900 ≤ exp ∧ exp ≤ 900) (hd : Rounds f64 neg ((sig : ℚ) * 10 ^ exp) (.fin neg m)) {c : Bytes} (hc : AfterValue c) (hne : c ≠ [])
    (fc : Bytes → CharsRes) (hfc : ∀ t, toChars true fmt neg sig exp = .ok t → ∀ t', t' = t ∨ t' = t ++ c → CharsGives f64 fc t' neg ((sig : ℚ) * 10 ^ exp)) :
    ∃ t, toChars true fmt neg sig exp = .ok t ∧ readFloat f64 fc located cfg (t ++ c) = .ok (.fin neg m, c) := by
  obtain ⟨t, out, h1, h2, h3⟩ := C61_precise_partial located cfg hp hm hck hzt fmt neg sig exp h0 hs he hc hne
  refine ⟨t, h1, ?_⟩
  have hstr : ∀ t', t' = t ∨ t' = t ++ c → parseWithStrtod fc t' = .ok (.fin neg m) := by
    intro t' ht'
    have := (((hfc t h1 t' ht') _ hd).2 m rfl).1 (Or.inl hm0)
    unfold parseWithStrtod
    rw [this]
  rcases h3 with (rfl | rfl) | ⟨sig', x, rfl, g1, g2, g3, g4⟩
  · exact readFloat_ok h2 (hstr _ (Or.inl rfl))
  · exact readFloat_ok h2 (hstr _ (Or.inr rfl))
  · have hr := calc_rounds64 neg sig' x g1 g2 g3
    rw [g4] at hr
    rw [readFloat_ok h2 rfl, rounds_unique hr hd]

/-- The `double` a decimal with a negative exponent is rounded to. -/
theorem rounds_decimal (neg : Bool) (a k : Nat) : Rounds f64 neg ((a : ℚ) * 10 ^ (-(k : ℤ))) (roundTo f64 neg (a * 2 ^ f64.emin) (10 ^ k)) := by
  have h := roundTo_rounds f64 (by decide) neg (a * 2 ^ f64.emin) (10 ^ k) (by positivity)
  have hx : (((a * 2 ^ f64.emin : ℕ) : ℚ) / ((10 ^ k : ℕ) : ℚ) / 2 ^ f64.emin) = (a : ℚ) * 10 ^ (-(k : ℤ)) := by
    have : (2 : ℚ) ^ f64.emin ≠ 0 := pow_ne_zero _ (by norm_num)
    generalize f64.emin = E at *
    rw [zpow_neg, zpow_natCast]
    push_cast
    field_simp
  rwa [hx] at h

/-- The double nearest to 1.7280283235977703. -/
theorem exDouble : Rounds f64 false (((17280283235977703 : ℕ) : ℚ) * 10 ^ (-16 : ℤ)) (.fin false (7782347714240581 * 2 ^ 1022)) := by
  have h := rounds_decimal false 17280283235977703 16
  have hv : roundTo f64 false (17280283235977703 * 2 ^ f64.emin) (10 ^ 16) = .fin false (7782347714240581 * 2 ^ 1022) := by decide +kernel
  rw [hv] at h
  exact h

/-- The hypotheses are met by this double. -/
example (located : Bool) (fmt : FPFmt) := C100_round_trip_partial located { exRCfg with precise := true } rfl rfl rfl rfl fmt false
  (7782347714240581 * 2 ^ 1022) (by decide +kernel) 17280283235977703 (-16) (by decide) (by decide) (by decide) exDouble
  (c := [0x2C]) ⟨[], [0x2C], by simp [IsWs], rfl, Or.inr ⟨_, _, rfl, by simp⟩⟩ (by simp) (fun _ => .val (.fin false (7782347714240581 * 2 ^ 1022)))
  (fun t _ t' _ v hv => by
    rw [rounds_unique hv exDouble]
    exact ⟨fun h => FVal.noConfusion h, fun m hm => ⟨fun _ => rfl, Or.inl rfl⟩⟩)

/-- **C100 is false of the code** in default mode: 1.7280283235977703 is written with enough digits, and is read back as the next larger
`double`. -/
theorem C100_false_by_default :
    Rounds f64 false (((17280283235977703 : ℕ) : ℚ) * 10 ^ (-16 : ℤ)) (.fin false (7782347714240581 * 2 ^ 1022)) ∧
    toChars true .auto false 17280283235977703 (-16) = .ok asc! "1.7280283235977703" ∧
    readFloat f64 (fun _ => .invalid) false exRCfg asc! "1.7280283235977703," = .ok (.fin false (7782347714240582 * 2 ^ 1022), asc! ",") :=
  ⟨exDouble, by decide +kernel, by decide +kernel⟩

/-- **C100** (default mode) A `double` that is written in scientific format from a decimal of up to 15 digits and a small exponent, whose
nearest `double` it is, is read back in every policy as the same `double`. -/
theorem C100_default_partial (located : Bool) (cfg : RCfg) (hp : cfg.precise = false) (hm : cfg.maxDig = 18) (neg : Bool) (v : FVal)
    (sig : Nat) (exp : Int) (h0 : 0 < sig) (hs : sig < 10 ^ 15) (he : -8 ≤ exp ∧ exp ≤ 8) (hd : Rounds f64 neg ((sig : ℚ) * 10 ^ exp) v)
    {c : Bytes} (hc : AfterValue c) (hr : c = [] → cfg.zt = true ∧ cfg.checked = true) (fc : Bytes → CharsRes) :
    ∃ t, toChars true .scientific neg sig exp = .ok t ∧ readFloat f64 fc located cfg (t ++ c) = .ok (v, c) := by
  have hs' : sig < if true then 10 ^ 17 else 10 ^ 9 := by rw [if_pos rfl]; omega
  have he' : if true then -900 ≤ exp ∧ exp ≤ 900 else -90 ≤ exp ∧ exp ≤ 90 := by rw [if_pos rfl]; omega
  have hb := real_exp_bound h0 hs' he'
  obtain ⟨t, i, fd, e, h1, h2, h3, h4, h5, h6⟩ := toChars_text true .scientific neg sig exp h0 hs' hb.1
  have hd15 : decimalLength true sig ≤ 15 := by
    have := (decimalLength_spec true sig h0 hs').1.2.1
    by_contra hc
    have : 10 ^ 15 ≤ 10 ^ (decimalLength true sig - 1) := Nat.pow_le_pow_right (by decide) (by omega)
    omega
  have hl := h4 rfl
  have hdig := (numText_digits h2).2
  have hdv : decVal (i ++ fd) < 10 ^ 15 := by
    have := decVal_lt hdig
    exact lt_of_lt_of_le this (Nat.pow_le_pow_right (by decide) (by omega))
  have hx : -22 ≤ e - (fd.length : Int) ∧ e - (fd.length : Int) ≤ 22 := by
    have h7 : (decVal (i ++ fd) : ℚ) * 10 ^ (e - (fd.length : Int)) = (sig : ℚ) * 10 ^ exp := h3
    have hs1 : (1 : ℚ) ≤ sig := by exact_mod_cast h0
    have hs2 : (sig : ℚ) < 10 ^ (15 : ℤ) := by exact_mod_cast hs
    have hv2 : (decVal (i ++ fd) : ℚ) < 10 ^ (15 : ℤ) := by exact_mod_cast hdv
    have hp1 : (0 : ℚ) < 10 ^ exp := zpow_pos (by norm_num) _
    have hp2 : (0 : ℚ) < 10 ^ (e - (fd.length : Int)) := zpow_pos (by norm_num) _
    have hv1 : (1 : ℚ) ≤ decVal (i ++ fd) := by
      have : decVal (i ++ fd) ≠ 0 := by
        intro h
        rw [h, Nat.cast_zero, zero_mul] at h7
        have : (0 : ℚ) < (sig : ℚ) * 10 ^ exp := by positivity
        linarith
      exact_mod_cast Nat.one_le_iff_ne_zero.2 this
    constructor
    · have h8 : (10 : ℚ) ^ exp < 10 ^ (15 + (e - (fd.length : Int))) := by
        rw [zpow_add₀ (by norm_num)]
        calc (10 : ℚ) ^ exp ≤ (sig : ℚ) * 10 ^ exp := le_mul_of_one_le_left hp1.le hs1
          _ = (decVal (i ++ fd) : ℚ) * 10 ^ (e - (fd.length : Int)) := h7.symm
          _ < 10 ^ (15 : ℤ) * 10 ^ (e - (fd.length : Int)) := mul_lt_mul_of_pos_right hv2 hp2
      have := (zpow_lt_zpow_iff_right₀ (by norm_num : (1 : ℚ) < 10)).1 h8
      omega
    · have h8 : (10 : ℚ) ^ (e - (fd.length : Int)) < 10 ^ (15 + exp) := by
        rw [zpow_add₀ (by norm_num)]
        calc (10 : ℚ) ^ (e - (fd.length : Int)) ≤ (decVal (i ++ fd) : ℚ) * 10 ^ (e - (fd.length : Int)) := le_mul_of_one_le_left hp2.le hv1
          _ = (sig : ℚ) * 10 ^ exp := h7
          _ < 10 ^ (15 : ℤ) * 10 ^ exp := mul_lt_mul_of_pos_right hs2 hp1
      have := (zpow_lt_zpow_iff_right₀ (by norm_num : (1 : ℚ) < 10)).1 h8
      omega
  obtain ⟨w, g1, g2⟩ := C99_nearest_partial located cfg hp hm h2 (by omega) (by
    have : (10 : ℕ) ^ 15 ≤ 2 ^ 53 := by decide
    omega) hx.1 hx.2 hc hr fc
  rw [h3] at g2
  exact ⟨t, h1, by rw [g1, rounds_unique g2 hd]⟩

/-- The hypotheses are met by the `double` nearest to -1.25 × 10^3. -/
example (located : Bool) (fc : Bytes → CharsRes) := C100_default_partial located exRCfg rfl rfl true (mulF f64 (signF f64 (-1)) (ofNatF f64 1250)) 1250 0
  (by decide) (by decide) (by decide) (by
    rw [zpow_zero, mul_one]
    exact signF_mul (by decide) (-1) (ofNatF_rounds (F := f64) (by decide) 1250))
  (c := [0x2C]) ⟨[], [0x2C], by simp [IsWs], rfl, Or.inr ⟨_, _, rfl, by simp⟩⟩ (by simp) fc

end Verif
