import Verif.Model.Skip
import Verif.Spec.Json

/-!
# Lemmas about whitespace, strings and the bracket loop
-/

namespace Verif

open Spec

/-! ## Whitespace -/

theorem isSpace_iff (c : UInt8) : isSpace c = true ↔ 1 ≤ c.toNat ∧ c.toNat ≤ 32 := by
  have := c.toNat_lt
  simp only [isSpace, decide_eq_true_eq]
  omega

theorem isSpace_of_ws {c : UInt8} (h : isWsByte c) : isSpace c = true := by
  rcases h with rfl | rfl | rfl | rfl <;> decide

theorem trimChecked_ws (w bs : Bytes) (h : IsWs w) : trimChecked (w ++ bs) = trimChecked bs := by
  induction w with
  | nil => rfl
  | cons c cs ih =>
    have hc := isSpace_of_ws (h c (by simp))
    simp only [List.cons_append, trimChecked, hc, if_true]
    exact ih (fun d hd => h d (by simp [hd]))

theorem trimChecked_cons_of_not {c : UInt8} (cs : Bytes) (h : isSpace c = false) :
    trimChecked (c :: cs) = c :: cs := by
  simp [trimChecked, h]

theorem trimUnchecked_ws (w bs : Bytes) (h : IsWs w) : trimUnchecked (w ++ bs) = trimUnchecked bs := by
  induction w with
  | nil => rfl
  | cons c cs ih =>
    have hc := isSpace_of_ws (h c (by simp))
    simp only [List.cons_append, trimUnchecked, hc, if_true]
    exact ih (fun d hd => h d (by simp [hd]))

theorem trimUnchecked_cons_of_not {c : UInt8} (cs : Bytes) (h : isSpace c = false) :
    trimUnchecked (c :: cs) = .ok (c :: cs) := by
  simp [trimUnchecked, h]

theorem trimChecked_suffix (bs : Bytes) : trimChecked bs <:+ bs := by
  induction bs with
  | nil => simp [trimChecked]
  | cons c cs ih =>
    simp only [trimChecked]
    split
    · exact ih.trans (List.suffix_cons c cs)
    · exact List.suffix_refl _

theorem trimChecked_idem (bs : Bytes) : trimChecked (trimChecked bs) = trimChecked bs := by
  induction bs with
  | nil => rfl
  | cons c cs ih =>
    by_cases h : isSpace c = true
    · simp [trimChecked, h, ih]
    · simp [trimChecked, h]

theorem trimUnchecked_eq_ok {bs r : Bytes} (h : trimUnchecked bs = .ok r) : trimChecked bs = r := by
  induction bs with
  | nil => simp [trimUnchecked] at h
  | cons c cs ih =>
    simp only [trimUnchecked] at h
    simp only [trimChecked]
    split at h <;> simp_all

theorem trimUnchecked_of_checked {bs : Bytes} {c : UInt8} {cs : Bytes} (h : trimChecked bs = c :: cs) :
    trimUnchecked bs = .ok (c :: cs) := by
  induction bs with
  | nil => simp [trimChecked] at h
  | cons d ds ih =>
    simp only [trimChecked] at h
    simp only [trimUnchecked]
    split at h <;> simp_all

theorem trimUnchecked_ub_iff (bs : Bytes) : trimUnchecked bs = .ub ↔ trimChecked bs = [] := by
  induction bs with
  | nil => simp [trimUnchecked, trimChecked]
  | cons d ds ih =>
    simp only [trimUnchecked, trimChecked]
    split <;> simp_all

/-- The first byte kept by `trim` is not a space. -/
theorem trimChecked_head {bs : Bytes} {c : UInt8} {cs : Bytes} (h : trimChecked bs = c :: cs) :
    isSpace c = false := by
  induction bs with
  | nil => simp [trimChecked] at h
  | cons d ds ih =>
    simp only [trimChecked] at h
    split at h
    · exact ih h
    · simp_all

/-! ## Strings -/

theorem nqScan_cons_plain {c : UInt8} (off slow : Nat) (cs : Bytes) (h₁ : c ≠ chQuote) (h₂ : c ≠ chBslash) :
    nqScan off slow (c :: cs) = nqScan (off + 1) slow cs := by
  rw [nqScan.eq_def]; simp [h₁, h₂]

theorem nqScan_cons_quote (off slow : Nat) (cs : Bytes) :
    nqScan off slow (chQuote :: cs) = some (slow, off) := by
  rw [nqScan.eq_def]; simp

theorem nqScan_cons_esc (d : UInt8) (off slow : Nat) (cs : Bytes) :
    nqScan off slow (chBslash :: d :: cs) = nqScan (off + 2) (if slow = npos then off else slow) cs := by
  rw [nqScan.eq_def]; simp

theorem nqScanUnchecked_cons_plain {c : UInt8} (off slow : Nat) (cs : Bytes) (h₁ : c ≠ chQuote)
    (h₂ : c ≠ chBslash) : nqScanUnchecked off slow (c :: cs) = nqScanUnchecked (off + 1) slow cs := by
  rw [nqScanUnchecked.eq_def]; simp [h₁, h₂]

theorem memSkipStr_cons_plain {c : UInt8} (cs : Bytes) (h₁ : c ≠ chQuote) (h₂ : c ≠ chBslash) :
    memSkipStr (c :: cs) = memSkipStr cs := by
  rw [memSkipStr.eq_def]; simp [h₁, h₂]

theorem memSkipStr_cons_quote (cs : Bytes) : memSkipStr (chQuote :: cs) = chQuote :: cs := by
  rw [memSkipStr.eq_def]; simp

theorem memSkipStr_cons_esc (d : UInt8) (cs : Bytes) :
    memSkipStr (chBslash :: d :: cs) = memSkipStr cs := by
  rw [memSkipStr.eq_def]; simp

theorem blockStops_false {l : Bytes} (h : blockStops l = false) :
    ∀ c ∈ l, c ≠ chQuote ∧ c ≠ chBslash := by
  intro c hc
  simp only [blockStops, List.any_eq_false] at h
  have := h c hc
  simp at this
  exact this

theorem nqScan_plain (off slow : Nat) (l bs : Bytes) (h : ∀ c ∈ l, c ≠ chQuote ∧ c ≠ chBslash) :
    nqScan off slow (l ++ bs) = nqScan (off + l.length) slow bs := by
  induction l generalizing off with
  | nil => simp
  | cons c cs ih =>
    have hc := h c (by simp)
    rw [List.cons_append, nqScan_cons_plain _ _ _ hc.1 hc.2]
    rw [ih _ (fun d hd => h d (by simp [hd]))]
    simp only [List.length_cons]; congr 1; omega

theorem nqScanUnchecked_plain (off slow : Nat) (l bs : Bytes)
    (h : ∀ c ∈ l, c ≠ chQuote ∧ c ≠ chBslash) :
    nqScanUnchecked off slow (l ++ bs) = nqScanUnchecked (off + l.length) slow bs := by
  induction l generalizing off with
  | nil => simp
  | cons c cs ih =>
    have hc := h c (by simp)
    rw [List.cons_append, nqScanUnchecked_cons_plain _ _ _ hc.1 hc.2]
    rw [ih _ (fun d hd => h d (by simp [hd]))]
    simp only [List.length_cons]; congr 1; omega

/-- The blocks passed over contain neither quote nor backslash. -/
theorem skipBlocks_spec (k off : Nat) (bs : Bytes) :
    ∃ n, skipBlocks k off bs = off + n ∧ n ≤ bs.length ∧
      ∀ c ∈ bs.take n, c ≠ chQuote ∧ c ≠ chBslash := by
  fun_induction skipBlocks k off bs with
  | case1 off bs h ih =>
    obtain ⟨n, h₁, h₂, h₃⟩ := ih
    refine ⟨k + n, by omega, by simp at h₂; omega, ?_⟩
    intro c hc
    rw [List.take_add] at hc
    rcases List.mem_append.1 hc with hc | hc
    · exact blockStops_false h.2.2 c hc
    · exact h₃ c hc
  | case2 off bs h => exact ⟨0, by simp, by omega, by simp⟩

theorem preSkip_spec (bs : Bytes) :
    preSkip bs ≤ bs.length ∧ ∀ c ∈ bs.take (preSkip bs), c ≠ chQuote ∧ c ≠ chBslash := by
  unfold preSkip
  split
  · obtain ⟨n, h₁, h₂, h₃⟩ := skipBlocks_spec 8 0 bs
    simp only [Nat.zero_add] at h₁
    rw [h₁]; exact ⟨h₂, h₃⟩
  · split
    · obtain ⟨n, h₁, h₂, h₃⟩ := skipBlocks_spec 4 0 bs
      simp only [Nat.zero_add] at h₁
      rw [h₁]; exact ⟨h₂, h₃⟩
    · simp

/-- The block pre-skip does not change the result of the scan. -/
theorem nqScan_preSkip (slow : Nat) (bs : Bytes) :
    nqScan (preSkip bs) slow (bs.drop (preSkip bs)) = nqScan 0 slow bs := by
  obtain ⟨h₁, h₂⟩ := preSkip_spec bs
  have := nqScan_plain 0 slow (bs.take (preSkip bs)) (bs.drop (preSkip bs)) h₂
  rw [List.take_append_drop] at this
  rw [this]
  simp [Nat.min_eq_left h₁]

theorem nqScanUnchecked_preSkip (slow : Nat) (bs : Bytes) :
    nqScanUnchecked (preSkip bs) slow (bs.drop (preSkip bs)) = nqScanUnchecked 0 slow bs := by
  obtain ⟨h₁, h₂⟩ := preSkip_spec bs
  have := nqScanUnchecked_plain 0 slow (bs.take (preSkip bs)) (bs.drop (preSkip bs)) h₂
  rw [List.take_append_drop] at this
  rw [this]
  simp [Nat.min_eq_left h₁]

theorem parseNqCheck_false (bs : Bytes) :
    parseNqCheck false bs = match nqScan 0 npos bs with
      | some r => .ok r
      | none => .err .invalidString := by
  simp only [parseNqCheck, nqScan_preSkip]
  cases nqScan 0 npos bs <;> rfl

theorem parseNqUncheck_eq (bs : Bytes) : parseNqUncheck bs = nqScanUnchecked 0 npos bs := by
  simp only [parseNqUncheck, nqScanUnchecked_preSkip]

/-- Unchecked scanning agrees with checked scanning when the end is found. -/
theorem nqScanUnchecked_of_some {off slow : Nat} {bs : Bytes} {r : Nat × Nat}
    (h : nqScan off slow bs = some r) : nqScanUnchecked off slow bs = .ok r := by
  fun_induction nqScan off slow bs <;> rw [nqScanUnchecked.eq_def] <;> simp_all

theorem hex_ne_quote_bslash {c : UInt8} (h : IsHex c) : c ≠ chQuote ∧ c ≠ chBslash := by
  have : 0x30 ≤ c.toNat ∧ (c.toNat ≤ 0x46 ∨ 0x61 ≤ c.toNat) := by
    simp only [IsHex, IsDig, UInt8.le_iff_toNat_le] at h
    simp at h
    omega
  constructor <;> intro hc <;> subst hc <;> simp at this

/-- On a string body followed by a quote, the scan stops at that quote. -/
theorem nqScan_body {b : Bytes} (h : IsStrBody b) (off slow : Nat) (c : Bytes) :
    ∃ sl, nqScan off slow (b ++ chQuote :: c) = some (sl, off + b.length) := by
  induction h generalizing off slow with
  | nil => exact ⟨slow, by simp [nqScan_cons_quote]⟩
  | plain h₁ h₂ h₃ _ ih =>
    obtain ⟨sl, hs⟩ := ih (off + 1) slow
    exact ⟨sl, by rw [List.cons_append, nqScan_cons_plain _ _ _ h₂ h₃, hs]; simp; omega⟩
  | esc h₁ _ ih =>
    obtain ⟨sl, hs⟩ := ih (off + 2) (if slow = npos then off else slow)
    refine ⟨sl, ?_⟩
    rw [List.cons_append, List.cons_append, nqScan_cons_esc, hs]
    simp; omega
  | @uni x y z w cs hx hy hz hw _ ih =>
    obtain ⟨sl, hs⟩ := ih (off + 6) (if slow = npos then off else slow)
    refine ⟨sl, ?_⟩
    have hx := hex_ne_quote_bslash hx
    have hy := hex_ne_quote_bslash hy
    have hz := hex_ne_quote_bslash hz
    have hw := hex_ne_quote_bslash hw
    simp only [List.cons_append]
    rw [nqScan_cons_esc]
    rw [show x :: y :: z :: w :: (cs ++ chQuote :: c) = [x, y, z, w] ++ (cs ++ chQuote :: c) by rfl]
    rw [nqScan_plain _ _ _ _ (by simp [hx, hy, hz, hw])]
    simp only [List.length_cons, List.length_nil]
    rw [show off + 2 + (0 + 1 + 1 + 1 + 1) = off + 6 by omega, hs]
    simp; omega

theorem isStdEscape_of_simple {c : UInt8} (h : isSimpleEsc c) : isStdEscape c = true := by
  rcases h with rfl | rfl | rfl | rfl | rfl | rfl | rfl | rfl <;> decide

theorem nqScanExcl_body {b : Bytes} (h : IsStrBody b) (off slow : Nat) (c : Bytes) :
    ∃ sl, nqScanExcl off slow (b ++ chQuote :: c) = .ok (sl, off + b.length) := by
  have plain : ∀ (x : UInt8) (off slow : Nat) (cs : Bytes), 0x20 ≤ x.toNat → x ≠ chQuote →
      x ≠ chBslash → nqScanExcl off slow (x :: cs) = nqScanExcl (off + 1) slow cs := by
    intro x off slow cs h₁ h₂ h₃
    rw [nqScanExcl.eq_def]
    simp [show ¬ x.toNat < 32 by omega, h₂, h₃]
  have hexP : ∀ (x : UInt8) (off slow : Nat) (cs : Bytes), IsHex x →
      nqScanExcl off slow (x :: cs) = nqScanExcl (off + 1) slow cs := by
    intro x off slow cs hx
    refine plain x off slow cs ?_ (hex_ne_quote_bslash hx).1 (hex_ne_quote_bslash hx).2
    simp only [IsHex, IsDig, UInt8.le_iff_toNat_le] at hx
    simp at hx
    omega
  induction h generalizing off slow with
  | nil => exact ⟨slow, by rw [List.nil_append, nqScanExcl.eq_def]; simp⟩
  | @plain x cs h₁ h₂ h₃ _ ih =>
    obtain ⟨sl, hs⟩ := ih (off + 1) slow
    refine ⟨sl, ?_⟩
    simp only [List.cons_append]
    rw [plain _ _ _ _ (by simpa [UInt8.le_iff_toNat_le] using h₁) h₂ h₃, hs]
    simp; omega
  | @esc x cs h₁ _ ih =>
    obtain ⟨sl, hs⟩ := ih (off + 2) (if slow = npos then off else slow)
    refine ⟨sl, ?_⟩
    simp only [List.cons_append]
    rw [nqScanExcl]
    simp [isStdEscape_of_simple h₁, hs]; omega
  | @uni x y z w cs hx hy hz hw _ ih =>
    obtain ⟨sl, hs⟩ := ih (off + 6) (if slow = npos then off else slow)
    refine ⟨sl, ?_⟩
    simp only [List.cons_append]
    rw [nqScanExcl]
    simp only [show isStdEscape 0x75 = true by decide]
    simp
    rw [hexP _ _ _ _ hx, hexP _ _ _ _ hy, hexP _ _ _ _ hz, hexP _ _ _ _ hw]
    rw [show off + 2 + 1 + 1 + 1 + 1 = off + 6 by omega, hs]
    simp; omega

/-- `parse_nq` finds the closing quote of a well-formed string body, in every configuration. -/
theorem parseNq_body (cfg : Cfg) {b : Bytes} (h : IsStrBody b) (c : Bytes) :
    ∃ sl, parseNq cfg (b ++ chQuote :: c) = .ok (sl, b.length) := by
  obtain ⟨sl, hs⟩ := nqScan_body h 0 npos c
  obtain ⟨sl', hs'⟩ := nqScanExcl_body h 0 npos c
  simp only [Nat.zero_add] at hs hs'
  unfold parseNq
  split
  · cases hx : cfg.exclSpecial
    · exact ⟨sl, by rw [parseNqCheck_false, hs]⟩
    · exact ⟨sl', by simp [parseNqCheck, hs']⟩
  · exact ⟨sl, by rw [parseNqUncheck_eq, nqScanUnchecked_of_some hs]⟩

theorem memSkipStr_plain (l bs : Bytes) (h : ∀ c ∈ l, c ≠ chQuote ∧ c ≠ chBslash) :
    memSkipStr (l ++ bs) = memSkipStr bs := by
  induction l with
  | nil => rfl
  | cons c cs ih =>
    have hc := h c (by simp)
    rw [List.cons_append, memSkipStr_cons_plain _ hc.1 hc.2]
    exact ih (fun d hd => h d (by simp [hd]))

theorem memSkipStr_body {b : Bytes} (h : IsStrBody b) (c : Bytes) :
    memSkipStr (b ++ chQuote :: c) = chQuote :: c := by
  induction h with
  | nil => simp [memSkipStr_cons_quote]
  | plain h₁ h₂ h₃ _ ih => rw [List.cons_append, memSkipStr_cons_plain _ h₂ h₃, ih]
  | esc h₁ _ ih => rw [List.cons_append, List.cons_append, memSkipStr_cons_esc, ih]
  | @uni x y z w cs hx hy hz hw _ ih =>
    have hx := hex_ne_quote_bslash hx
    have hy := hex_ne_quote_bslash hy
    have hz := hex_ne_quote_bslash hz
    have hw := hex_ne_quote_bslash hw
    simp only [List.cons_append]
    rw [memSkipStr_cons_esc]
    rw [show x :: y :: z :: w :: (cs ++ chQuote :: c) = [x, y, z, w] ++ (cs ++ chQuote :: c) by rfl]
    rw [memSkipStr_plain _ _ (by simp [hx, hy, hz, hw]), ih]

theorem memSkipStrUnchecked_of_checked {bs : Bytes} {c : UInt8} {cs : Bytes}
    (h : memSkipStr bs = c :: cs) : memSkipStrUnchecked bs = .ok (c :: cs) := by
  fun_induction memSkipStr bs <;> rw [memSkipStrUnchecked.eq_def] <;> simp_all

end Verif
