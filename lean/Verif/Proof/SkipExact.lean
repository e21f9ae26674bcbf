import Verif.Proof.SkipBracket

/-!
# `skip_value` on well-formed values
-/

namespace Verif

open Spec

theorem dropWs_ws (w t : Bytes) (h : IsWs w) : dropWs (w ++ t) = dropWs t := by
  induction w with
  | nil => rfl
  | cons c cs ih =>
    have hc := h c (by simp)
    unfold isWsByte at hc
    rw [List.cons_append, dropWs, if_pos hc]
    exact ih (fun d hd => h d (by simp [hd]))

theorem dropWs_token {x : UInt8} {t : Bytes} (h : x = 0x2C ∨ x = 0x5D ∨ x = 0x7D) :
    dropWs (x :: t) = x :: t := by
  rcases h with rfl | rfl | rfl <;> simp [dropWs]

theorem trimChecked_after {c : Bytes} (h : AfterValue c) : trimChecked c = dropWs c := by
  obtain ⟨w, t, hw, rfl, ht⟩ := h
  rw [trimChecked_ws w t hw, dropWs_ws w t hw]
  rcases ht with rfl | ⟨x, t', rfl, hx⟩
  · rfl
  · rw [dropWs_token hx]
    refine trimChecked_cons_of_not _ ?_
    rcases hx with rfl | rfl | rfl <;> decide

theorem dropWs_after {c : Bytes} (h : AfterValue c) :
    dropWs c = [] ∨ ∃ x t, dropWs c = x :: t ∧ isTokenAfterValue x = true := by
  obtain ⟨w, t, hw, rfl, ht⟩ := h
  rw [dropWs_ws w t hw]
  rcases ht with rfl | ⟨x, t', rfl, hx⟩
  · exact Or.inl rfl
  · refine Or.inr ⟨x, t', dropWs_token hx, ?_⟩
    rcases hx with rfl | rfl | rfl <;> decide

theorem numEnd_after {c : Bytes} (h : AfterValue c) : NumEnd c := by
  obtain ⟨w, t, hw, rfl, ht⟩ := h
  intro x hx
  cases w with
  | nil =>
    rcases ht with rfl | ⟨y, t', rfl, hy⟩
    · simp at hx
    · simp at hx
      subst hx
      rcases hy with rfl | rfl | rfl <;> simp [IsDig, UInt8.le_iff_toNat_le]
  | cons d w =>
    simp at hx
    subst hx
    rcases hw d (by simp) with rfl | rfl | rfl | rfl <;> simp [IsDig, UInt8.le_iff_toNat_le]

/-- In unchecked mode something other than whitespace must follow. -/
def Room' (cfg : Cfg) (c : Bytes) : Prop := cfg.checked = false → dropWs c ≠ []

theorem Room'.room {cfg : Cfg} {c : Bytes} (h : Room' cfg c) : Room cfg c := by
  intro hc hn
  subst hn
  exact h hc rfl

theorem trim_after {cfg : Cfg} {c : Bytes} (h : AfterValue c) (hr : Room' cfg c) :
    trim cfg c = .ok (dropWs c) := by
  unfold trim
  split
  · rw [trimChecked_after h]
  · rename_i hc
    have hne := hr (by simpa using hc)
    have := trimChecked_after h
    cases hd : dropWs c with
    | nil => exact absurd hd hne
    | cons x t =>
      rw [hd] at this
      exact trimUnchecked_of_checked this

theorem endOfLiteral_after {cfg : Cfg} {c : Bytes} (e : Err) (h : AfterValue c) (hr : Room' cfg c) :
    endOfLiteral cfg e c = .ok (dropWs c) := by
  unfold endOfLiteral
  rw [trim_after h hr]
  simp only [Res.ok_bind]
  rcases dropWs_after h with hd | ⟨x, t, hd, hx⟩
  · rw [hd]; cases cfg.checked <;> simp
  · rw [hd]; cases cfg.checked <;> simp [hx]

theorem eatLiteral_ok (cfg : Cfg) (e : Err) (x : UInt8) (tl c : Bytes) :
    eatLiteral cfg e tl (x :: (tl ++ c)) = .ok c := by
  unfold eatLiteral
  split
  · simp
  · simp

theorem brLoopUnchecked_of_checked {k : Brackets} {p s cnt n : Nat} {bs rest : Bytes} {x : UInt8}
    (h : brLoop k p s cnt bs = .ok (n, x :: rest)) :
    brLoopUnchecked k p s cnt bs = .ok (n, x :: rest) := by
  fun_induction brLoop k p s cnt bs with
  | case1 p s cnt => cases hh : (p == 0 && s == 0) <;> simp [hh] at h
  | case2 p s cnt cs ih =>
    rw [brLoopUnchecked.eq_def]
    cases cs with
    | nil =>
      rw [List.drop_nil, brLoop] at h
      cases hh : (p == 0 && s == 0) <;> simp [hh] at h
    | cons d ds => simpa using ih h
  | case3 => simp at h
  | case4 p s cnt cs hd cs' hm _ ih =>
    rw [brLoopUnchecked.eq_def]
    simp only [show (0x22 : UInt8) ≠ 0x5C by decide, if_false, if_true]
    have hm := memSkipStrUnchecked_of_checked hm
    split
    · rename_i h2; rw [hm] at h2; simp at h2; rw [← h2.2]; exact ih h
    · rename_i h2; exact absurd hm (h2 _ _)
  | case5 p s cnt cs _ _ ih =>
    rw [brLoopUnchecked.eq_def]
    simpa using ih h
  | case6 p s cnt cs h1 h2 h3 ih =>
    rw [brLoopUnchecked.eq_def]
    simpa [h1, h2, h3] using ih h
  | case7 p s cnt cs h1 h2 h3 h4 h5 =>
    rw [brLoopUnchecked.eq_def]
    cases hs : s == 0 <;> simp_all
  | case8 p s cnt cs h1 h2 h3 h4 h5 ih =>
    rw [brLoopUnchecked.eq_def]
    simpa [h1, h2, h3, h4, h5] using ih h
  | case9 p s cnt cs h1 h2 h3 h4 h5 ih =>
    rw [brLoopUnchecked.eq_def]
    simpa [h1, h2, h3, h4, h5] using ih h
  | case10 p s cnt cs h1 h2 h3 h4 h5 h6 ih =>
    rw [brLoopUnchecked.eq_def]
    simpa [h1, h2, h3, h4, h5, h6] using ih h
  | case11 p s cnt c cs h1 h2 h3 h4 h5 h6 h7 ih =>
    rw [brLoopUnchecked.eq_def]
    simpa [h1, h2, h3, h4, h5, h6, h7] using ih h

/-- From the loop to `skip_bracketed_item`. -/
theorem skipBracketed_of_loop {cfg : Cfg} {k : Brackets} (body c : Bytes) (n : Nat)
    (h : brLoop k 1 0 0 (body ++ c) = .ok (n, c)) (hr : Room cfg c) :
    skipBracketed cfg k (k.primLeft :: (body ++ c))
      = .ok ({ text := k.primLeft :: body, counter := n }, c) := by
  have hlen : (k.primLeft :: (body ++ c)).take ((k.primLeft :: (body ++ c)).length - c.length)
      = k.primLeft :: body := by
    have : (k.primLeft :: (body ++ c)).length - c.length = (k.primLeft :: body).length := by
      simp; omega
    rw [this, show k.primLeft :: (body ++ c) = (k.primLeft :: body) ++ c by rfl, List.take_left]
  unfold skipBracketed
  split
  · simp only [skipBracketedChecked, if_true, h, Res.ok_bind, hlen]
  · rename_i hc
    cases c with
    | nil => exact absurd rfl (hr (by simpa using hc))
    | cons x t =>
      have := brLoopUnchecked_of_checked h
      simp only [skipBracketedUnchecked, if_true, this, Res.ok_bind, hlen]

/-- Main lemma: skipping a well-formed value.  What may follow depends on the value: strings and containers end by
themselves, a number must not be continued, a literal needs the end of an element. -/
theorem skipValue_before (cfg : Cfg) (kq : Bool) {tc : Bool} (v : JVal) (hv : v.WFt tc) (hd : v.depth < 4294967296)
    (c : Bytes) (hc : v.isLiteral = true → AfterValue c)
    (hnum : ∀ t, v = .num t → NumEnd c) (hr : Room cfg c) (hl : v.isLiteral = true → Room' cfg c)
    (hn : v = .null → c ≠ []) :
    ∃ r, skipValue cfg kq (v.text ++ c) = .ok (r, if v.isLiteral then dropWs c else c) ∧
      r.text = rangeText kq v ∧ (r.null = true ↔ v = .null) ∧
      ((∀ b, v ≠ .str b) → r.counter = rangeCounter v) := by
  have aw : ∀ e, assertWeak cfg.checked true e = .ok () := by intro e; cases cfg.checked <;> rfl
  match v with
  | .null =>
    refine ⟨{ text := [], null := true }, ?_, by simp [rangeText, rangeCounter]⟩
    have hce : (!c.isEmpty) = true := by have := hn rfl; simpa using this
    have e1 := eatLiteral_ok cfg .invalidNull chN txtUll c
    simp [skipValue, JVal.text, aw, skipNull, JVal.isLiteral]
    simp at e1
    rw [e1]
    simp [hce, aw, endOfLiteral_after _ (hc rfl) (hl rfl)]
  | .tru =>
    refine ⟨{ text := JVal.text .tru, counter := 1 }, ?_, by simp [rangeText, rangeCounter]⟩
    have e1 := eatLiteral_ok cfg .invalidTrue chT txtRue c
    simp [skipValue, JVal.text, aw, skipTrue, JVal.isLiteral]
    simp at e1
    rw [e1]
    simp [endOfLiteral_after _ (hc rfl) (hl rfl)]
  | .fls =>
    refine ⟨{ text := JVal.text .fls, counter := 0 }, ?_, by simp [rangeText, rangeCounter]⟩
    have e1 := eatLiteral_ok cfg .invalidFalse chF txtAlse c
    simp [skipValue, JVal.text, aw, skipFalse, JVal.isLiteral]
    simp at e1
    rw [e1]
    simp [endOfLiteral_after _ (hc rfl) (hl rfl)]
  | .num t =>
    have ht : IsNumber t := by simpa [JVal.WFt] using hv
    obtain ⟨d, e, h⟩ := skipNumber_spec cfg t c ht (hnum t rfl) hr
    refine ⟨{ text := t, dec := d, exp := e }, ?_, rfl, by simp, by simp [rangeCounter]⟩
    · simp only [JVal.text, JVal.isLiteral]
      obtain ⟨x, t', rfl, hx⟩ : ∃ x t', t = x :: t' ∧ (x = chMinus ∨ IsDig x) := by
        obtain ⟨m, i, f, e, hm, hi, _, _, rfl⟩ := ht
        obtain ⟨y, i', rfl, hy⟩ := isDigits_head (isInt_digits hi)
        rcases hm with rfl | rfl
        · exact ⟨y, _, rfl, Or.inr hy⟩
        · exact ⟨_, _, rfl, Or.inl rfl⟩
      rw [← isDigit_iff] at hx
      have hne : x ≠ chQuote ∧ x ≠ chLBrack ∧ x ≠ chLBrace ∧ x ≠ chT ∧ x ≠ chF ∧ x ≠ chN := by
        rcases hx with rfl | hx
        · decide
        · refine ⟨?_, ?_, ?_, ?_, ?_, ?_⟩ <;> rintro rfl <;> revert hx <;> decide
      simp only [List.cons_append] at h
      simp [skipValue, aw, hne, hx, h]
  | .str b =>
    have hb : IsStrBody b := by simpa [JVal.WFt] using hv
    obtain ⟨sl, h⟩ := parseNq_body cfg hb c
    refine ⟨{ text := rangeText kq (.str b), counter := sl }, ?_, rfl, by simp, by simp⟩
    have hemp : (!(b ++ 0x22 :: c).isEmpty) = true := by simp
    simp only [skipValue, JVal.text, List.cons_append, List.isEmpty_cons, Bool.not_false, aw,
      Res.ok_bind, deref_cons, if_true, List.append_assoc, List.nil_append, skipString, hemp,
      beq_self_eq_true, ensure_true, skipStringNq, h, JVal.isLiteral]
    cases kq <;> simp [rangeText]
  | .arr w .nil =>
    have hw : IsTail tc w := by simp only [JVal.WFt] at hv; exact hv.1
    have hl : brLoop arrBr 1 0 0 ((w ++ [0x5D]) ++ c) = .ok (w.count chComma, c) := by
      rw [List.append_assoc, brLoop_tail (Or.inl rfl) hw]
      have := brLoop_primR (Or.inl rfl : IsBr arrBr) 1 0 (w.count chComma) c
      simpa [arrBr, dec32] using this
    have := skipBracketed_of_loop (cfg := cfg) _ c _ hl hr
    refine ⟨{ text := JVal.text (.arr w .nil), counter := w.count chComma }, ?_, rfl, by simp,
      by simp [rangeCounter]⟩
    simp [arrBr] at this
    simp [skipValue, JVal.text, aw, JVal.isLiteral]
    exact this
  | .obj w .nil =>
    have hw : IsTail tc w := by simp only [JVal.WFt] at hv; exact hv.1
    have hl : brLoop objBr 1 0 0 ((w ++ [0x7D]) ++ c) = .ok (w.count chComma, c) := by
      rw [List.append_assoc, brLoop_tail (Or.inr rfl) hw]
      have := brLoop_primR (Or.inr rfl : IsBr objBr) 1 0 (w.count chComma) c
      simpa [objBr, dec32] using this
    have := skipBracketed_of_loop (cfg := cfg) _ c _ hl hr
    refine ⟨{ text := JVal.text (.obj w .nil), counter := w.count chComma }, ?_, rfl, by simp,
      by simp [rangeCounter]⟩
    simp [objBr] at this
    simp [skipValue, JVal.text, aw, JVal.isLiteral]
    exact this
  | .arr w (.cons pre x post tl) =>
    simp only [JVal.WFt, JElems.WFt] at hv
    simp only [JVal.depth, JElems.depth] at hd
    have hl : brLoop arrBr 1 0 0 ((pre ++ (x.text ++ (post ++ (tl.text ++ (w ++ [0x5D]))))) ++ c)
        = .ok (tl.length + w.count chComma, c) := by
      have hk : IsBr arrBr := Or.inl rfl
      simp only [List.append_assoc]
      rw [brLoop_neutral hk _ _ _ _ _ (ws_neutral hv.2.1),
        brLoop_val hk x hv.2.2.1 _ _ _ _ (by omega) (by omega) (by omega),
        brLoop_neutral hk _ _ _ _ _ (ws_neutral hv.2.2.2.1),
        brLoop_elems hk tl hv.2.2.2.2 _ _ _ _ (by omega) (by omega) (by omega), brLoop_tail hk hv.1]
      have := brLoop_primR hk 1 0 (tl.length + w.count chComma) c
      simpa [arrBr, dec32] using this
    have := skipBracketed_of_loop (cfg := cfg) _ c _ hl hr
    refine ⟨{ text := JVal.text (.arr w (.cons pre x post tl)), counter := tl.length + w.count chComma }, ?_, rfl,
      by simp, by simp [rangeCounter]⟩
    simp [arrBr] at this
    simp [skipValue, JVal.text, aw, JVal.isLiteral]
    exact this
  | .obj w (.cons pre n pc qc x post tl) =>
    simp only [JVal.WFt, JMems.WFt] at hv
    obtain ⟨hw, hpre, hn', hpc, hqc, hx, hpost, htl⟩ := hv
    simp only [JVal.depth, JMems.depth] at hd
    have hl : brLoop objBr 1 0 0 ((pre ++ (0x22 :: (n ++ (0x22 :: (pc ++ (0x3A :: (qc ++ (x.text ++ (post ++
        (tl.text ++ (w ++ [0x7D]))))))))))) ++ c)
        = .ok (tl.length + w.count chComma, c) := by
      have hk : IsBr objBr := Or.inr rfl
      simp only [List.append_assoc, List.cons_append]
      rw [brLoop_neutral hk _ _ _ _ _ (ws_neutral hpre),
        brLoop_string _ _ _ hn',
        brLoop_neutral hk _ _ _ _ _ (ws_neutral hpc),
        brLoop_neutral1 hk _ _ _ _ (by simp [Neutral]),
        brLoop_neutral hk _ _ _ _ _ (ws_neutral hqc),
        brLoop_val hk x hx _ _ _ _ (by omega) (by omega) (by omega),
        brLoop_neutral hk _ _ _ _ _ (ws_neutral hpost),
        brLoop_mems hk tl htl _ _ _ _ (by omega) (by omega) (by omega), brLoop_tail hk hw]
      have := brLoop_primR hk 1 0 (tl.length + w.count chComma) c
      simpa [objBr, dec32] using this
    have := skipBracketed_of_loop (cfg := cfg) _ c _ hl hr
    refine ⟨{ text := JVal.text (.obj w (.cons pre n pc qc x post tl)), counter := tl.length + w.count chComma }, ?_, rfl,
      by simp, by simp [rangeCounter]⟩
    simp [objBr] at this
    simp [skipValue, JVal.text, aw, JVal.isLiteral]
    exact this

/-- Skipping a well-formed value inside a document. -/
theorem skipValue_exact (cfg : Cfg) (kq : Bool) {tc : Bool} (v : JVal) (hv : v.WFt tc) (hd : v.depth < 4294967296)
    (c : Bytes) (hc : AfterValue c) (hr : Room cfg c) (hl : v.isLiteral = true → Room' cfg c)
    (hn : v = .null → c ≠ []) :
    ∃ r, skipValue cfg kq (v.text ++ c) = .ok (r, if v.isLiteral then dropWs c else c) ∧
      r.text = rangeText kq v ∧ (r.null = true ↔ v = .null) ∧
      ((∀ b, v ≠ .str b) → r.counter = rangeCounter v) :=
  skipValue_before cfg kq v hv hd c (fun _ => hc) (fun _ _ => numEnd_after hc) hr hl hn

end Verif
