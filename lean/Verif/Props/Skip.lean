import Verif.Proof.SkipCount
import Verif.Spec.Sample

/-!
# Properties C01–C06: skipping values and whitespace
-/

namespace Verif

open Spec

/-! ## C01 -/

/-- **C01.**  A well-formed value followed by anything that may follow a value is consumed exactly: the
remaining text is what followed (after `true`/`false`/`null` the whitespace that follows is consumed too),
and the range reported is the value's own text. -/
theorem C01_skip_value_exact (excl kq : Bool) (v : JVal) (hv : v.WF) (hd : v.depth < 4294967296)
    (c : Bytes) (hc : AfterValue c) (hn : v = .null → c ≠ []) :
    ∃ r, skipValue { checked := true, exclSpecial := excl } kq (v.text ++ c)
        = .ok (r, if v.isLiteral then dropWs c else c) ∧
      r.text = rangeText kq v ∧ (r.null = true ↔ v = .null) ∧
      ((∀ b, v ≠ .str b) → r.counter = rangeCounter v) :=
  skipValue_exact _ kq v hv hd c hc (fun h => by simp at h) (fun _ h => by simp at h) hn

/-- Non-vacuity: the sample document followed by ` ,1`. -/
example : ∃ r, skipValue {} false (sampleDoc.text ++ [0x20, 0x2C, 0x31]) = .ok (r, [0x20, 0x2C, 0x31]) ∧
    r.text = sampleDoc.text ∧ r.counter = 2 := by
  obtain ⟨r, h1, h2, _, h4⟩ := C01_skip_value_exact false false sampleDoc sampleDoc_wf (by decide)
    [0x20, 0x2C, 0x31] ⟨[0x20], [0x2C, 0x31], by simp [IsWs, isWsByte], rfl, Or.inr ⟨_, _, rfl, Or.inl rfl⟩⟩
    (by simp [sampleDoc])
  exact ⟨r, h1, h2, h4 (by simp [sampleDoc])⟩

/-- The exclusion of a bare `null` at the very end of the text is necessary: there it is an error. -/
theorem C01_null_at_end_of_text_is_an_error :
    skipValue {} false (JVal.text .null) = .err .unexpectedEndOfData := by decide +kernel

/-- The depth bound is necessary: the counters are 32 bit.  `[` repeated 2^32+1 times followed by a single
`]` is taken for a complete array. -/
theorem C01_depth_bound_needed (c : Bytes) :
    ∃ r, skipValue {} false (chLBrack :: ((List.replicate 4294967296 chLBrack ++ [chRBrack]) ++ c))
      = .ok (r, c) := by
  have key : ∀ m, (1 + m) % 4294967296 = 1 →
      ∃ r, skipValue {} false (chLBrack :: ((List.replicate m chLBrack ++ [chRBrack]) ++ c)) = .ok (r, c) := by
    intro m hm
    have hk : IsBr arrBr := Or.inl rfl
    have h3 : brLoop arrBr 1 0 0 ((List.replicate m arrBr.primLeft ++ [chRBrack]) ++ c) = .ok (0, c) := by
      rw [List.append_assoc, brLoop_open hk m 1 0 0 _ (by decide), hm]
      have h2 := brLoop_primR hk 1 0 0 c
      simpa [arrBr, dec32] using h2
    have h4 := skipBracketed_of_loop (cfg := {}) _ c 0 h3 (fun h => by simp at h)
    refine ⟨{ text := chLBrack :: (List.replicate m chLBrack ++ [chRBrack]) }, ?_⟩
    simp only [skipValue, List.isEmpty_cons, Bool.not_false, assertWeak_checked, ensure_true, Res.ok_bind,
      deref_cons, show (chLBrack = chQuote) = False by decide, if_false, if_true]
    exact h4
  exact key 4294967296 (by decide)

/-! ## C02 -/

/-- **C02.**  Checked skipping never reads outside the range, on any byte string. -/
theorem C02_checked_skip_reads_inside (excl kq : Bool) (bs : Bytes) :
    skipValue { checked := true, exclSpecial := excl } kq bs ≠ .ub ∧
    trim { checked := true, exclSpecial := excl } bs ≠ .ub ∧
    moveNext { checked := true, exclSpecial := excl } bs ≠ .ub :=
  ⟨skipValue_ne_ub rfl kq bs, by simp [trim], by simp [moveNext]⟩

/-- Non-vacuity: a truncated document is an error, not a read past the end; the unchecked mode does read past
the end on it, so `ub` is a reachable outcome of the model. -/
example : skipValue {} false [0x5B, 0x31, 0x2C] = .err .invalidBracketing ∧
    skipValue { checked := false } false [0x5B, 0x31, 0x2C] = .ub := by decide +kernel

/-! ## C03 -/

/-- **C03.**  A successful skip moves forward by at least one byte and stays inside the text; trimming and
moving to the next member never move backwards nor outside. -/
theorem C03_cursor_forward_only (cfg : Cfg) (kq : Bool) (bs : Bytes) :
    (∀ r rest, skipValue cfg kq bs = .ok (r, rest) → ∃ consumed, consumed ≠ [] ∧ bs = consumed ++ rest) ∧
    (∀ rest, trim cfg bs = .ok rest → ∃ consumed, bs = consumed ++ rest) ∧
    (∀ rest, moveNext cfg bs = .ok rest → ∃ consumed, bs = consumed ++ rest) := by
  refine ⟨?_, ?_, ?_⟩
  · intro r rest h
    obtain ⟨⟨w, hw⟩, hl⟩ := skipValue_later h
    refine ⟨w, ?_, hw.symm⟩
    rintro rfl
    simp at hw
    simp [← hw] at hl
  · intro rest h
    obtain ⟨w, hw⟩ := trim_suffix h
    exact ⟨w, hw.symm⟩
  · intro rest h
    obtain ⟨w, hw⟩ := moveNext_suffix h
    exact ⟨w, hw.symm⟩

/-- Non-vacuity: `[1]x` is skipped to `x`; ` , 1` moves to `1`. -/
example : skipValue {} false [0x5B, 0x31, 0x5D, 0x78] = .ok ({ text := [0x5B, 0x31, 0x5D] }, [0x78]) ∧
    moveNext {} [0x20, 0x2C, 0x20, 0x31] = .ok [0x31] := by decide +kernel

/-! ## C04 -/

/-- **C04.**  Whenever the checked mode skips a value and at least one byte is left, the unchecked mode returns
the same range and the same position; in particular it does not read past the end.  (No well-formedness is
needed.) -/
theorem C04_unchecked_agrees (excl kq : Bool) (bs : Bytes) (r : Range) (x : UInt8) (rest : Bytes)
    (h : skipValue { checked := true, exclSpecial := excl } kq bs = .ok (r, x :: rest)) :
    skipValue { checked := false, exclSpecial := excl } kq bs = .ok (r, x :: rest) :=
  skipValue_unchecked (cfg := { checked := true, exclSpecial := excl }) rfl h

/-- **C04** on well-formed values: followed by at least one byte (after a literal: one that is not
whitespace), both modes succeed with the same result. -/
theorem C04_unchecked_agrees_on_values (excl kq : Bool) (v : JVal) (hv : v.WF) (hd : v.depth < 4294967296)
    (c : Bytes) (hc : AfterValue c) (hne : if v.isLiteral then dropWs c ≠ [] else c ≠ []) :
    ∃ r, skipValue { checked := true, exclSpecial := excl } kq (v.text ++ c)
        = .ok (r, if v.isLiteral then dropWs c else c) ∧
      skipValue { checked := false, exclSpecial := excl } kq (v.text ++ c)
        = .ok (r, if v.isLiteral then dropWs c else c) := by
  have hn : v = .null → c ≠ [] := by
    rintro rfl rfl
    simp [JVal.isLiteral, dropWs] at hne
  obtain ⟨r, h, _⟩ := C01_skip_value_exact excl kq v hv hd c hc hn
  refine ⟨r, h, ?_⟩
  cases hx : (if v.isLiteral then dropWs c else c) with
  | nil => cases hl : v.isLiteral <;> simp_all
  | cons x rest => rw [hx] at h; exact C04_unchecked_agrees excl kq _ r x rest h

/-- Non-vacuity. -/
example : ∃ r, skipValue { checked := false } false (sampleDoc.text ++ [0x20]) = .ok (r, [0x20]) := by
  obtain ⟨r, _, h⟩ := C04_unchecked_agrees_on_values false false sampleDoc sampleDoc_wf (by decide) [0x20]
    ⟨[0x20], [], by simp [IsWs, isWsByte], rfl, Or.inl rfl⟩ (by simp [sampleDoc, JVal.isLiteral])
  exact ⟨r, h⟩

/-- The condition on literals is necessary: `true` followed only by whitespace makes the unchecked mode read
past the end. -/
theorem C04_literal_then_space_reads_past_end :
    skipValue { checked := true } false (JVal.text .tru ++ [0x20]) = .ok ({ text := JVal.text .tru, counter := 1 }, []) ∧
    skipValue { checked := false } false (JVal.text .tru ++ [0x20]) = .ub := by decide +kernel

/-! ## C05 -/

/-- **C05.**  Leading JSON whitespace is skipped entirely and the first other byte is where the cursor stops;
whitespace in front of a token does not change what is seen, in both modes.  (The code also skips the other
control characters 0x01–0x1F, hence "a byte above 0x20".) -/
theorem C05_whitespace_immaterial (cfg : Cfg) (w : Bytes) (hw : IsWs w) (x : UInt8) (hx : 0x20 < x) (t : Bytes) :
    trim cfg (w ++ x :: t) = .ok (x :: t) ∧ trim cfg (x :: t) = .ok (x :: t) ∧
    (cfg.checked = true → trim cfg w = .ok []) := by
  have hns : isSpace x = false := by
    cases h : isSpace x
    · rfl
    · rw [isSpace_iff] at h
      rw [UInt8.lt_iff_toNat_lt] at hx
      simp at hx; omega
  refine ⟨?_, ?_, ?_⟩
  · unfold trim
    split
    · rw [trimChecked_ws _ _ hw, trimChecked_cons_of_not _ hns]
    · rw [trimUnchecked_ws _ _ hw, trimUnchecked_cons_of_not _ hns]
  · unfold trim
    split
    · rw [trimChecked_cons_of_not _ hns]
    · rw [trimUnchecked_cons_of_not _ hns]
  · intro hc
    have := trimChecked_ws w [] hw
    simp [trimChecked] at this
    simp [trim, hc, this]

/-- **C05**, for any text: skipping whitespace stops at the first byte that is not whitespace; two texts
that differ only in leading whitespace are seen alike. -/
theorem C05_trim_absorbs_whitespace (cfg : Cfg) (w bs : Bytes) (hw : IsWs w) :
    trim cfg (w ++ bs) = trim cfg bs := by
  unfold trim
  split
  · rw [trimChecked_ws _ _ hw]
  · rw [trimUnchecked_ws _ _ hw]

/-- Non-vacuity. -/
example : trim {} ([0x20, 0x09, 0x0D, 0x0A] ++ 0x7B :: [0x7D]) = .ok [0x7B, 0x7D] :=
  (C05_whitespace_immaterial {} [0x20, 0x09, 0x0D, 0x0A] (by simp [IsWs, isWsByte]) 0x7B (by decide) [0x7D]).1

/-! ## C06 -/

/-- Are the brackets of a text properly nested?  `open_` is the stack of brackets still open. -/
def Spec.nested : (open_ : List UInt8) → Bytes → Bool
  | st, [] => st.isEmpty
  | st, c :: cs =>
    if c = 0x5B ∨ c = 0x7B then nested (c :: st) cs
    else if c = 0x5D then
      match st with
      | 0x5B :: st' => nested st' cs
      | _ => false
    else if c = 0x7D then
      match st with
      | 0x7B :: st' => nested st' cs
      | _ => false
    else nested st cs

/-- **C06 is false of the code**: `[}{]` is skipped as one complete array. -/
theorem C06_mismatched_brackets_accepted :
    ¬ ∀ (bs : Bytes) (r : Range) (rest : Bytes), skipValue {} false bs = .ok (r, rest) →
      (bs.head? = some 0x5B ∨ bs.head? = some 0x7B) → nested [] (outside false r.text) = true := by
  intro h
  have := h [0x5B, 0x7D, 0x7B, 0x5D] { text := [0x5B, 0x7D, 0x7B, 0x5D] } [] (by decide +kernel) (Or.inl rfl)
  revert this
  decide +kernel

/-- **C06, partial.**  What does hold: in the text of a skipped container the number of `[` equals the number
of `]` and the number of `{` equals the number of `}` (outside strings), modulo 2^32.  Missing: that they are
properly nested, which is false. -/
theorem C06_bracket_counts_partial (excl kq : Bool) (bs : Bytes) (r : Range) (rest : Bytes)
    (hb : bs.head? = some 0x5B ∨ bs.head? = some 0x7B)
    (h : skipValue { checked := true, exclSpecial := excl } kq bs = .ok (r, rest)) :
    bs = r.text ++ rest ∧
    (outside false r.text).count 0x5B % 4294967296 = (outside false r.text).count 0x5D % 4294967296 ∧
    (outside false r.text).count 0x7B % 4294967296 = (outside false r.text).count 0x7D % 4294967296 := by
  cases bs with
  | nil => simp at hb
  | cons c cs =>
    simp only [List.head?_cons, Option.some.injEq] at hb
    simp only [skipValue, List.isEmpty_cons, Bool.not_false, assertWeak_checked, ensure_true, Res.ok_bind,
      deref_cons, skipBracketed, if_true] at h
    rcases hb with rfl | rfl
    · simp at h
      exact skipBracketed_counts (k := arrBr) (Or.inl rfl) h
    · simp at h
      obtain ⟨h1, h2, h3⟩ := skipBracketed_counts (k := objBr) (Or.inr rfl) h
      exact ⟨h1, h3, h2⟩

/-- Non-vacuity: `{"]":[1]}` is skipped and counted (the bracket in the string is not). -/
example : skipValue {} false [0x7B, 0x22, 0x5D, 0x22, 0x3A, 0x5B, 0x31, 0x5D, 0x7D]
      = .ok ({ text := [0x7B, 0x22, 0x5D, 0x22, 0x3A, 0x5B, 0x31, 0x5D, 0x7D] }, []) ∧
    (outside false [0x7B, 0x22, 0x5D, 0x22, 0x3A, 0x5B, 0x31, 0x5D, 0x7D]).count 0x5D = 1 := by
  decide +kernel

end Verif
