import Verif.Model.RealLit
import Verif.Props.Float
import Verif.Proof.Literal

/-!
# Property C101: reals stored as strings, infinities and NaN
-/

namespace Verif

open Spec

/-- The strings that stand for values that are not numbers. -/
inductive Spec.SpecialText : FVal → Bytes → Prop where
  | nan : SpecialText .nan asc! "NaN"
  | inf : SpecialText (.inf false) asc! "Infinity"
  | ninf : SpecialText (.inf true) asc! "-Infinity"
  | infShort : SpecialText (.inf false) asc! "Inf"
  | ninfShort : SpecialText (.inf true) asc! "-Inf"

/-- The values that a type with these options may hold. -/
def Spec.Allowed (ne : NumErrs) : FVal → Prop
  | .nan => ne.nan = true
  | .inf _ => ne.inf = true
  | .fin .. => True

theorem skipQuote_bare (cfg : Cfg) {b : Bytes} {c : UInt8} {cs : Bytes} (h : b = c :: cs) (hc : c ≠ chQuote) : skipQuote cfg false b = .ok b := by
  subst h
  unfold skipQuote
  cases hk : cfg.checked <;> simp [assertWeak, ensure, hc]

/-- **C101** (special values) Where they are allowed, and whatever the policy, the strings `"NaN"`, `"Infinity"`, `"-Infinity"` and the short
forms are read in place as what they stand for. -/
theorem C101_special_partial (F : FFmt) (fc : Bytes → CharsRes) (cfg : RCfg) (always : Bool) (ne : NumErrs) {v : FVal} {b : Bytes}
    (hb : SpecialText v b) (ha : Allowed ne v) {c : Bytes} (hc : AfterValue c) :
    parseRealQ F fc cfg always ne (chQuote :: (b ++ chQuote :: c)) = .ok (v, c) := by
  have he := (endOfItem_after hc).1
  unfold parseRealQ
  rw [skipQuote_quote, Res.ok_bind]
  obtain ⟨nan, inf⟩ := ne
  have hw : ∀ e, assertWeak cfg.checked (endOfItem c) e = .ok () := by
    intro e
    rw [he]
    cases cfg.checked <;> rfl
  cases hb with
  | nan =>
    cases (ha : nan = true)
    have h1 : (if inf = true then infAt cfg false (derefZ cfg.zt (asc! "NaN" ++ chQuote :: c)) (asc! "NaN" ++ chQuote :: c) else .ok none) = .ok none := by
      cases inf
      · rfl
      · rfl
    dsimp only
    rw [h1]
    have h2 : nanAt cfg (asc! "NaN" ++ chQuote :: c) = .ok (some (.nan, c)) := by
      unfold nanAt
      rw [if_pos (show startsWith txtNaN _ = true from rfl)]
      have : nextQuote cfg (asc! "NaN" ++ chQuote :: c) = .ok (chQuote :: c) := rfl
      rw [this, Res.ok_bind, List.tail_cons, hw, Res.ok_bind]
    rw [if_pos rfl, h2]
    rfl
  | inf =>
    cases (ha : inf = true)
    have h2 : infAt cfg false (derefZ cfg.zt (asc! "Infinity" ++ chQuote :: c)) (asc! "Infinity" ++ chQuote :: c) = .ok (some (.inf false, c)) := by
      unfold infAt
      change infBody cfg false false (asc! "Infinity" ++ chQuote :: c) = _
      unfold infBody
      rw [if_pos ⟨by simp, rfl⟩]
      change (assertWeak cfg.checked (endOfItem c) .invalidEndOfValue >>= fun _ => Res.ok (some (FVal.inf false, c))) = _
      rw [hw, Res.ok_bind]
    dsimp only
    rw [if_pos rfl, h2]
    rfl
  | ninf =>
    cases (ha : inf = true)
    have h2 : infAt cfg false (derefZ cfg.zt (asc! "-Infinity" ++ chQuote :: c)) (asc! "-Infinity" ++ chQuote :: c) = .ok (some (.inf true, c)) := by
      unfold infAt
      change infBody cfg false true (asc! "Infinity" ++ chQuote :: c) = _
      unfold infBody
      rw [if_pos ⟨by simp, rfl⟩]
      change (assertWeak cfg.checked (endOfItem c) .invalidEndOfValue >>= fun _ => Res.ok (some (FVal.inf true, c))) = _
      rw [hw, Res.ok_bind]
    dsimp only
    rw [if_pos rfl, h2]
    rfl
  | infShort =>
    cases (ha : inf = true)
    have h2 : infAt cfg false (derefZ cfg.zt (asc! "Inf" ++ chQuote :: c)) (asc! "Inf" ++ chQuote :: c) = .ok (some (.inf false, c)) := by
      unfold infAt
      change infBody cfg false false (asc! "Inf" ++ chQuote :: c) = _
      unfold infBody
      rw [if_pos ⟨by simp, rfl⟩]
      change (assertWeak cfg.checked (endOfItem c) .invalidEndOfValue >>= fun _ => Res.ok (some (FVal.inf false, c))) = _
      rw [hw, Res.ok_bind]
    dsimp only
    rw [if_pos rfl, h2]
    rfl
  | ninfShort =>
    cases (ha : inf = true)
    have h2 : infAt cfg false (derefZ cfg.zt (asc! "-Inf" ++ chQuote :: c)) (asc! "-Inf" ++ chQuote :: c) = .ok (some (.inf true, c)) := by
      unfold infAt
      change infBody cfg false true (asc! "Inf" ++ chQuote :: c) = _
      unfold infBody
      rw [if_pos ⟨by simp, rfl⟩]
      change (assertWeak cfg.checked (endOfItem c) .invalidEndOfValue >>= fun _ => Res.ok (some (FVal.inf true, c))) = _
      rw [hw, Res.ok_bind]
    dsimp only
    rw [if_pos rfl, h2]
    rfl

theorem afterComma : AfterValue asc! "," := ⟨[], asc! ",", by simp [IsWs], rfl, Or.inr ⟨_, _, rfl, by simp⟩⟩

/-- The hypotheses are met by `"-Infinity",`. -/
example (cfg : RCfg) (fc : Bytes → CharsRes) : parseRealQ f64 fc cfg true ⟨true, true⟩ (asc! "\"-Infinity\",") = .ok (.inf true, asc! ",") :=
  C101_special_partial f64 fc cfg true ⟨true, true⟩ .ninf rfl afterComma

/-- Neither `NaN` nor `Inf` begins like a number. -/
theorem num_not_special {txt : Bytes} {neg : Bool} {i fd : Bytes} {e : Int} (ht : NumText txt neg i fd e) (cfg : RCfg) (known : Bool) (k : Bytes)
    (front : Res UInt8) (hf : front = deref (txt ++ k)) :
    infAt cfg known front (txt ++ k) = .ok none ∧ startsWith txtNaN (txt ++ k) = false ∧ ∃ d s, txt = d :: s ∧ d ≠ chQuote := by
  obtain ⟨f, x, hi, -, -, rfl⟩ := ht
  obtain ⟨d, t, rfl, hd⟩ := isDigits_head (isInt_digits hi)
  have hI : (0x49 == d) = false := by
    cases h : (0x49 : UInt8) == d
    · rfl
    · rw [← eq_of_beq h] at hd
      revert hd
      unfold IsDig
      decide
  have hN : (0x4E == d) = false := by
    cases h : (0x4E : UInt8) == d
    · rfl
    · rw [← eq_of_beq h] at hd
      revert hd
      unfold IsDig
      decide
  have hm : d ≠ chMinus ∧ d ≠ chQuote := by
    constructor <;> rintro rfl <;> revert hd <;> unfold IsDig <;> decide
  subst hf
  cases neg
  · refine ⟨?_, ?_, d, _, rfl, hm.2⟩
    · simp [infAt, infBody, hm.1, startsWith, txtInf, List.isPrefixOf, hI]
    · simp [startsWith, txtNaN, List.isPrefixOf, hN]
  · refine ⟨?_, ?_, 0x2D, _, rfl, by decide⟩
    · simp [infAt, infBody, startsWith, txtInf, List.isPrefixOf, hI]
    · simp [startsWith, txtNaN, List.isPrefixOf]

theorem derefZ_eq (zt : Bool) {b : Bytes} (h : b ≠ []) : derefZ zt b = deref b := by
  cases b with
  | nil => exact absurd rfl h
  | cons => rfl

/-- Reading a quoted or bare number comes down to reading the number. -/
theorem parseRealQ_number {F : FFmt} {fc : Bytes → CharsRes} {cfg : RCfg} {always : Bool} {ne : NumErrs} {txt : Bytes} {neg : Bool} {i fd : Bytes} {e : Int}
    (ht : NumText txt neg i fd e) {v : FVal} {c : Bytes} (hc : AfterValue c) :
    (readFloat F fc false cfg (txt ++ chQuote :: c) = .ok (v, chQuote :: c) →
      parseRealQ F fc cfg always ne (chQuote :: (txt ++ chQuote :: c)) = .ok (v, c)) ∧
    (always = false → c ≠ [] → readFloat F fc false cfg (txt ++ c) = .ok (v, c) → parseRealQ F fc cfg always ne (txt ++ c) = .ok (v, c)) := by
  have he := (endOfItem_after hc).1
  have hw : ∀ e, assertWeak cfg.checked (endOfItem c) e = .ok () := by
    intro e
    rw [he]
    cases cfg.checked <;> rfl
  have key : ∀ k : Bytes, readFloat F fc false cfg (txt ++ k) = .ok (v, k) → skipQuote cfg.base always k = .ok c →
      orElse (if ne.inf = true then infAt cfg false (derefZ cfg.zt (txt ++ k)) (txt ++ k) else .ok none)
        (orElse (if ne.nan = true then nanAt cfg (txt ++ k) else .ok none) (quotedNumber F fc cfg always (txt ++ k))) = .ok (v, c) := by
    intro k h1 h2
    obtain ⟨-, -, d, s, hd, -⟩ := num_not_special ht cfg false k (deref (txt ++ k)) rfl
    obtain ⟨g1, g2, -⟩ := num_not_special ht cfg false k (derefZ cfg.zt (txt ++ k)) (derefZ_eq _ (by rw [hd]; simp))
    have h3 : (if ne.inf = true then infAt cfg false (derefZ cfg.zt (txt ++ k)) (txt ++ k) else .ok none) = .ok none := by
      rw [g1, ite_self]
    have h4 : (if ne.nan = true then nanAt cfg (txt ++ k) else .ok none) = .ok none := by
      unfold nanAt
      simp [g2]
    rw [h3, h4]
    change quotedNumber F fc cfg always (txt ++ k) = _
    unfold quotedNumber
    rw [h1, Res.ok_bind]
    dsimp only
    rw [h2, Res.ok_bind, hw, Res.ok_bind]
  constructor
  · intro h
    unfold parseRealQ
    rw [skipQuote_quote, Res.ok_bind]
    exact key _ h (skipQuote_quote _ _ _)
  · rintro rfl hne h
    obtain ⟨-, -, d, s, hd, hq⟩ := num_not_special ht cfg false c (deref (txt ++ c)) rfl
    unfold parseRealQ
    rw [skipQuote_bare cfg.base (c := d) (cs := s ++ c) (by rw [hd]; rfl) hq, Res.ok_bind]
    refine key _ h ?_
    cases c with
    | nil => exact absurd rfl hne
    | cons x xs =>
      refine skipQuote_bare cfg.base rfl ?_
      rintro rfl
      exact absurd (show endOfItem [chQuote] = true from he) (by decide)

theorem numEnd_quote (c : Bytes) : NumEnd (chQuote :: c) := by
  intro x hx
  cases hx
  refine ⟨by unfold IsDig; decide, by decide, by decide, by decide⟩

/-- **C101** (numbers, precise mode) A number between quotes is read in place as the nearest `double`; so is a bare number where quotes are optional and
something follows.  Missing: the exceptions of C98. -/
theorem C101_number_partial (cfg : RCfg) (hp : cfg.precise = true) (hm : cfg.maxDig = 18) (always : Bool) (ne : NumErrs)
    {txt : Bytes} {neg : Bool} {i fd : Bytes} {e : Int} (ht : NumText txt neg i fd e)
    (he : e.natAbs + (i ++ fd).length < 2 ^ 62) {c : Bytes} (hc : AfterValue c)
    (hl : (cfg.zt = true ∨ cfg.checked = false) → (i ++ fd).length ≤ 19)
    (fc : Bytes → CharsRes) (hfc : ∀ t, t = txt ∨ t = txt ++ c ∨ t = txt ++ chQuote :: c → CharsGives f64 fc t neg (numAbs i fd e))
    (hx : numAbs i fd e = 0 ∨ 1 / 2 ^ 1075 < numAbs i fd e) :
    ∃ v, Rounds f64 neg (numAbs i fd e) v ∧ parseRealQ f64 fc cfg always ne (chQuote :: (txt ++ chQuote :: c)) = .ok (v, c) ∧
      (always = false → c ≠ [] → parseRealQ f64 fc cfg always ne (txt ++ c) = .ok (v, c)) := by
  obtain ⟨v, h1, h2⟩ := readFloat_precise false cfg hp hm ht he (numEnd_quote c) (by simp) (fun _ => hl) fc
    (fun t h => hfc t (by rcases h with h | h <;> simp [h])) hx
  refine ⟨v, h2, (parseRealQ_number ht hc).1 h1, fun ha hne => (parseRealQ_number ht hc).2 ha hne ?_⟩
  obtain ⟨w, h3, h4⟩ := readFloat_precise false cfg hp hm ht he (numEnd_after hc) (fun h => absurd h hne) (fun _ => hl) fc
    (fun t h => hfc t (by rcases h with h | h <;> simp [h])) hx
  rw [h3, rounds_unique h4 h2]

/-- **C101** (numbers, default mode) The same without `IEEE754Precise::yes` for up to 17 digits, a significand of at most 2^53 and an exponent between -22 and 22. -/
theorem C101_number_default_partial (cfg : RCfg) (hp : cfg.precise = false) (hm : cfg.maxDig = 18) (always : Bool) (ne : NumErrs)
    {txt : Bytes} {neg : Bool} {i fd : Bytes} {e : Int} (ht : NumText txt neg i fd e) (hT : (i ++ fd).length < 18)
    (hs : decVal (i ++ fd) ≤ 2 ^ 53) (h1 : -22 ≤ e - (fd.length : Int)) (h2 : e - (fd.length : Int) ≤ 22) {c : Bytes} (hc : AfterValue c)
    (fc : Bytes → CharsRes) :
    ∃ v, Rounds f64 neg (numAbs i fd e) v ∧ parseRealQ f64 fc cfg always ne (chQuote :: (txt ++ chQuote :: c)) = .ok (v, c) ∧
      (always = false → c ≠ [] → parseRealQ f64 fc cfg always ne (txt ++ c) = .ok (v, c)) := by
  obtain ⟨v, g1, g2⟩ := readFloat_default false cfg hp hm ht hT hs h1 h2 (numEnd_quote c) (by simp) fc
  refine ⟨v, g2, (parseRealQ_number ht hc).1 g1, fun ha hne => (parseRealQ_number ht hc).2 ha hne ?_⟩
  obtain ⟨w, h3, h4⟩ := readFloat_default false cfg hp hm ht hT hs h1 h2 (numEnd_after hc) (fun h => absurd h hne) fc
  rw [h3, rounds_unique h4 g2]

/-- The hypotheses are met by `"-1.25e+3",` and `-1.25e+3,`. -/
example (always : Bool) (ne : NumErrs) := C101_number_partial { exRCfg with precise := true } rfl rfl always ne exRealText (by decide) afterComma (fun _ => by decide) _
  (fun t _ => exChars t) (Or.inr (by rw [exReal_abs]; simp only [one_div]; exact (inv_le_one_of_one_le₀ (one_le_pow₀ (by norm_num))).trans_lt (by norm_num)))

example (always : Bool) (ne : NumErrs) (fc : Bytes → CharsRes) := C101_number_default_partial exRCfg rfl rfl always ne exRealText (by decide) (by decide) (by decide)
  (by decide) afterComma fc

/-! ## Writing -/

/-- **C101** (not allowed) A NaN or an infinity is never written where it is not allowed, nor where numbers are not strings: `to_json` throws. -/
theorem C101_not_written (dbl : Bool) (fmt : FPFmt) (lit : Option Bool) (ne : NumErrs) (v : FVal) (hv : ∀ n m, v ≠ .fin n m)
    (h : lit = none ∨ ¬ Allowed ne v) (sig : Nat) (exp : Int) : ∃ e, writeRealQ dbl fmt lit ne v sig exp = .err e := by
  cases v with
  | fin n m => exact absurd rfl (hv n m)
  | nan =>
    refine ⟨.numberIsNaN, ?_⟩
    have : lit = none ∨ ne.nan = false := h.imp_right (fun h => by simpa [Allowed] using h)
    simp [writeRealQ, this]
  | inf n =>
    refine ⟨.numberIsInf, ?_⟩
    have : lit = none ∨ ne.inf = false := h.imp_right (fun h => by simpa [Allowed] using h)
    simp [writeRealQ, this]

example : ∃ e, writeRealQ true .auto none ⟨false, false⟩ .nan 0 0 = .err e := C101_not_written _ _ _ _ _ (by simp) (Or.inl rfl) _ _

/-- What a value is: a special one, or the nearest number to the decimal that is written for it. -/
def Spec.DecimalOf (v : FVal) (sig : Nat) (exp : Int) : Prop :=
  ∀ neg m, v = .fin neg m → m ≠ 0 ∧ 0 < sig ∧ sig < 10 ^ 17 ∧ -900 ≤ exp ∧ exp ≤ 900 ∧ Rounds f64 neg ((sig : ℚ) * 10 ^ exp) v

/-- **C101** (round trip) A `double` stored as a string, or where it may be one, is written and read back in place as the same `double` in precise mode: NaN
and the infinities included. -/
theorem C101_round_trip_partial (cfg : RCfg) (hp : cfg.precise = true) (hm : cfg.maxDig = 18) (hck : cfg.checked = true)
    (hzt : cfg.zt = false) (fmt : FPFmt) (always : Bool) (ne : NumErrs) (v : FVal) (ha : Allowed ne v) (sig : Nat) (exp : Int)
    (hd : DecimalOf v sig exp) {c : Bytes} (hc : AfterValue c) (hne : c ≠ []) (fc : Bytes → CharsRes)
    (hfc : ∀ neg m, v = .fin neg m → ∀ t, toChars true fmt neg sig exp = .ok t → ∀ t', t' = t ∨ t' = t ++ c ∨ t' = t ++ chQuote :: c →
      CharsGives f64 fc t' neg ((sig : ℚ) * 10 ^ exp)) :
    ∃ t, writeRealQ true fmt (some always) ne v sig exp = .ok t ∧ parseRealQ f64 fc cfg always ne (t ++ c) = .ok (v, c) := by
  cases v with
  | nan =>
    refine ⟨asc! "\"NaN\"", ?_, C101_special_partial f64 fc cfg always ne .nan ha hc⟩
    have : ne.nan = true := ha
    simp [writeRealQ, this]
    rfl
  | inf neg =>
    have : ne.inf = true := ha
    cases neg
    · refine ⟨asc! "\"Infinity\"", ?_, C101_special_partial f64 fc cfg always ne .inf ha hc⟩
      simp [writeRealQ, this]
      rfl
    · refine ⟨asc! "\"-Infinity\"", ?_, C101_special_partial f64 fc cfg always ne .ninf ha hc⟩
      simp [writeRealQ, this]
      rfl
  | fin neg m =>
    obtain ⟨hm0, h0, hs, he1, he2, hr⟩ := hd neg m rfl
    obtain ⟨t, i, fd, e, h1, h2, h3, h4, h5, h6⟩ := toChars_text true fmt neg sig exp h0 (by simpa using hs)
      (real_exp_bound (dbl := true) h0 (by simpa using hs) (by simpa using ⟨he1, he2⟩)).1
    refine ⟨quoteIf always t, ?_, ?_⟩
    · simp only [writeRealQ, h1, Res.ok_bind]
      cases always <;> rfl
    · have hpos : ∀ k : Bytes, NumEnd k → k ≠ [] → (∀ t', t' = t ∨ t' = t ++ k → CharsGives f64 fc t' neg ((sig : ℚ) * 10 ^ exp)) →
          readFloat f64 fc false cfg (t ++ k) = .ok (.fin neg m, k) := by
        intro k hk hkne hch
        obtain ⟨out, g1, g2⟩ := real_precise false cfg hp hm h2 (by omega) hk (fun h => absurd h hkne) (by rw [hzt, hck]; simp)
        rw [h3] at g2
        have hstr : ∀ t', t' = t ∨ t' = t ++ k → parseWithStrtod fc t' = .ok (.fin neg m) := by
          intro t' ht'
          have := ((hch t' ht' _ hr).2 m rfl).1 (Or.inl hm0)
          unfold parseWithStrtod
          rw [this]
        rcases g2 with (rfl | rfl) | ⟨sig', x, rfl, g3, g4, g5, g6⟩
        · exact readFloat_ok g1 (hstr _ (Or.inl rfl))
        · exact readFloat_ok g1 (hstr _ (Or.inr rfl))
        · have hr' := calc_rounds64 neg sig' x g3 g4 g5
          rw [g6] at hr'
          rw [readFloat_ok g1 rfl, rounds_unique hr' hr]
      cases always
      · exact (parseRealQ_number h2 hc).2 rfl hne (hpos c (numEnd_after hc) hne (fun t' h => hfc neg m rfl t h1 t' (by rcases h with h | h <;> simp [h])))
      · have := (parseRealQ_number (always := true) (ne := ne) h2 hc).1 (hpos _ (numEnd_quote c) (by simp) (fun t' h => hfc neg m rfl t h1 t' (by rcases h with h | h <;> simp [h])))
        simpa [quoteIf] using this

/-- The hypotheses are met by infinity and by 1.7280283235977703. -/
example : DecimalOf (.inf true) 0 0 ∧ DecimalOf (.fin false (7782347714240581 * 2 ^ 1022)) 17280283235977703 (-16) := by
  refine ⟨fun _ _ h => FVal.noConfusion h, fun neg m h => ?_⟩
  injection h with h1 h2
  subst h1
  subst h2
  exact ⟨by decide +kernel, by decide, by decide, by decide, by decide, exDouble⟩

/-! ## Members found before their turn -/

/-- **C101** (numbers found before their turn) The text of a number, quoted or not, in a range that was found before is read as in place. -/
theorem C101_located_number {F : FFmt} {fc : Bytes → CharsRes} {cfg : RCfg} {ne : NumErrs} {txt : Bytes} {neg : Bool} {i fd : Bytes} {e : Int}
    (ht : NumText txt neg i fd e) {v : FVal} {k : Bytes} (h : readFloat F fc false cfg (txt ++ k) = .ok (v, k)) :
    parseRealQKnown F fc cfg ne txt k = .ok v := by
  obtain ⟨-, -, d, s, hd, -⟩ := num_not_special ht cfg true [] (deref (txt ++ [])) rfl
  have hfr : derefZ cfg.zt (txt ++ k) = deref (txt ++ []) := by rw [hd]; rfl
  obtain ⟨g1, g2, -⟩ := num_not_special ht cfg true [] (derefZ cfg.zt (txt ++ k)) hfr
  rw [List.append_nil] at g1 g2
  unfold parseRealQKnown
  have h3 : (if ne.inf = true then infAt cfg true (derefZ cfg.zt (txt ++ k)) txt else .ok none) = .ok none := by
    rw [g1, ite_self]
  have h4 : (if ne.nan = true then nanKnown cfg txt k else .ok none) = .ok none := by
    unfold nanKnown
    simp [g2]
  rw [h3, Res.ok_bind]
  dsimp only
  rw [h4, Res.ok_bind]
  dsimp only
  unfold knownNumber
  rw [h, Res.ok_bind]
  cases hc : cfg.checked <;> simp [assertWeak, ensure]

/-- **C101 is false of the code** for infinities found before their turn, whatever follows and whatever the policy: `"Infinity"` is rejected, since
the closing quote that is looked for is not in the range; so is `"Inf"` in checked mode, as it is taken for a number. -/
theorem C101_false_for_located_infinity (F : FFmt) (fc : Bytes → CharsRes) (cfg : RCfg) (nan : Bool) (k : Bytes) :
    parseRealQKnown F fc cfg ⟨nan, true⟩ asc! "Infinity" (chQuote :: k) = .err .invalidString ∧
    parseRealQKnown F fc cfg ⟨nan, true⟩ asc! "-Infinity" (chQuote :: k) = .err .invalidString ∧
    (cfg.checked = true → parseRealQKnown F fc cfg ⟨nan, true⟩ asc! "Inf" (chQuote :: k) = .err .invalidNumberStart) := by
  refine ⟨rfl, rfl, fun h => ?_⟩
  have hr : readFloat F fc false cfg (asc! "Inf" ++ chQuote :: k) = .err .invalidNumberStart := by
    unfold readFloat readReal realUnknown
    rw [if_neg (by decide), h]
    rfl
  have h4 : (if nan = true then nanKnown cfg asc! "Inf" (chQuote :: k) else .ok none) = .ok none := by
    cases nan <;> rfl
  unfold parseRealQKnown
  rw [if_pos rfl]
  change ((if nan = true then nanKnown cfg asc! "Inf" (chQuote :: k) else Res.ok none) >>= _) = _
  rw [h4, Res.ok_bind]
  dsimp only
  unfold knownNumber
  rw [hr, Res.err_bind]

/-- **C101 is false of the code** for NaN found before its turn, in checked input that is not zero terminated: it is rejected.  Zero terminated it is read. -/
theorem C101_false_for_located_nan (F : FFmt) (fc : Bytes → CharsRes) (cfg : RCfg) (hck : cfg.checked = true) (inf : Bool) (k : Bytes) :
    (cfg.zt = false → parseRealQKnown F fc cfg ⟨true, inf⟩ asc! "NaN" (chQuote :: k) = .err .unexpectedEndOfData) ∧
    (cfg.zt = true → parseRealQKnown F fc cfg ⟨true, inf⟩ asc! "NaN" (chQuote :: k) = .ok .nan) := by
  have h3 : (if inf = true then infAt cfg true (derefZ cfg.zt (asc! "NaN" ++ chQuote :: k)) asc! "NaN" else .ok none) = .ok none := by
    cases inf <;> rfl
  unfold parseRealQKnown
  dsimp only
  rw [h3, Res.ok_bind]
  dsimp only
  rw [if_pos rfl]
  unfold nanKnown
  rw [if_pos (show startsWith txtNaN _ = true from rfl)]
  have hse : cfg.skipEnd = cfg.zt := by simp [RCfg.skipEnd, hck]
  rw [hse]
  constructor
  · intro hz
    rw [hz, if_neg (by decide)]
    have : nextQuote cfg asc! "NaN" = .err .unexpectedEndOfData := by
      simp [nextQuote, hse, hz]
    rw [this]
    rfl
  · intro hz
    rw [hz, if_pos rfl]
    have : nextQuote cfg (asc! "NaN" ++ chQuote :: k) = .ok (chQuote :: k) := rfl
    rw [this, Res.ok_bind, hck]
    simp [assertWeak, ensure]

/-! ## Malformed documents -/

/-- **C101 is false of the code** for other strings that begin with `NaN`: they are read as NaN, up to the next quote, escaped or not. -/
theorem C101_false_for_nonsense (F : FFmt) (fc : Bytes → CharsRes) (cfg : RCfg) (always inf : Bool) :
    parseRealQ F fc cfg always ⟨true, inf⟩ asc! "\"NaNsense\"," = .ok (.nan, asc! ",") := by
  have h2 : nanAt cfg asc! "NaNsense\"," = .ok (some (.nan, asc! ",")) := by
    unfold nanAt
    rw [if_pos (show startsWith txtNaN _ = true from rfl)]
    have : nextQuote cfg asc! "NaNsense\"," = .ok asc! "\"," := rfl
    rw [this, Res.ok_bind]
    cases hc : cfg.checked <;> rfl
  unfold parseRealQ
  rw [show asc! "\"NaNsense\"," = chQuote :: asc! "NaNsense\"," from rfl, skipQuote_quote, Res.ok_bind]
  have h1 : (if inf = true then infAt cfg false (derefZ cfg.zt asc! "NaNsense\",") asc! "NaNsense\"," else .ok none) = .ok none := by
    cases inf <;> rfl
  dsimp only
  rw [h1, if_pos rfl, h2]
  rfl

/-- In checked mode the code reads outside of its input: a `string_view` that ends behind the opening quote, with infinities allowed; a `std::string` that
ends behind `NaN`, with NaN allowed. -/
theorem C101_reads_past_end (F : FFmt) (fc : Bytes → CharsRes) (cfg : RCfg) (always : Bool) (ne : NumErrs) :
    (cfg.zt = false → ne.inf = true → parseRealQ F fc cfg always ne asc! "\"" = .ub) ∧
    (cfg.zt = true → ne.nan = true → parseRealQ F fc cfg always ne asc! "\"NaN" = .ub) := by
  obtain ⟨nan, inf⟩ := ne
  constructor
  · intro hz hi
    cases (hi : inf = true)
    unfold parseRealQ
    rw [show asc! "\"" = chQuote :: [] from rfl, skipQuote_quote, Res.ok_bind, if_pos rfl, hz]
    rfl
  · intro hz hn
    cases (hn : nan = true)
    have h2 : nanAt cfg asc! "NaN" = .ub := by
      unfold nanAt
      rw [if_pos (show startsWith txtNaN _ = true from rfl)]
      have : nextQuote cfg asc! "NaN" = .ub := by
        simp [nextQuote, RCfg.skipEnd, hz]
      rw [this]
      rfl
    unfold parseRealQ
    rw [show asc! "\"NaN" = chQuote :: asc! "NaN" from rfl, skipQuote_quote, Res.ok_bind]
    have h1 : (if inf = true then infAt cfg false (derefZ cfg.zt asc! "NaN") asc! "NaN" else .ok none) = .ok none := by
      cases inf <;> rfl
    dsimp only
    rw [h1, if_pos rfl, h2]
    rfl

/-- A bare number at the very end of the document is rejected where quotes are optional: the code looks for a closing quote. -/
theorem C101_false_at_end (fc : Bytes → CharsRes) (ne : NumErrs) :
    parseRealQ f64 fc exRCfg false ne asc! "1.5" = .err .unexpectedEndOfData := by
  obtain ⟨nan, inf⟩ := ne
  have hn : quotedNumber f64 fc exRCfg false asc! "1.5" = .err .unexpectedEndOfData := by
    unfold quotedNumber readFloat
    have : readReal false exRCfg asc! "1.5" = .ok (.calc 1 15 (-1), []) := by decide +kernel
    rw [this, Res.ok_bind]
    rfl
  unfold parseRealQ
  rw [skipQuote_bare _ (c := 0x31) (cs := asc! ".5") rfl (by decide), Res.ok_bind]
  have h1 : (if inf = true then infAt exRCfg false (derefZ exRCfg.zt asc! "1.5") asc! "1.5" else .ok none) = .ok none := by
    cases inf <;> rfl
  have h2 : (if nan = true then nanAt exRCfg asc! "1.5" else .ok none) = .ok none := by
    cases nan <;> rfl
  dsimp only
  rw [h1, h2]
  exact hn

end Verif
