import Verif.Proof.StrAny
import Verif.Proof.TypedBasic
import Verif.Spec.Bounds

/-!
# What the range of a skipped value looks like, for any text
-/

namespace Verif

open Spec

/-- The last byte is neither whitespace nor an opening bracket nor a colon. -/
def Closed (text : Bytes) : Prop := ∃ x z, text = x ++ [z] ∧ isSpace z = false ∧ z ≠ chLBrack ∧ z ≠ chColon

theorem Closed.not_endsIn {text : Bytes} (h : Closed text) {c : UInt8} (hc : c = chLBrack ∨ c = chColon) : ¬ EndsIn c text := by
  rintro ⟨p, w, hw, hs⟩
  obtain ⟨x, z, rfl, h1, h2, h3⟩ := h
  have hl := congrArg List.getLast? hw
  rw [List.getLast?_append] at hl
  cases w with
  | nil =>
    simp at hl
    subst hl
    rcases hc with rfl | rfl
    · exact h2 rfl
    · exact h3 rfl
  | cons y w =>
    have : z ∈ y :: w := by
      rw [List.getLast?_append, List.getLast?_cons_cons] at hl
      cases hg : (y :: w).getLast? with
      | none => simp at hg
      | some q =>
        rw [hg] at hl
        simp at hl
        subst hl
        exact List.mem_of_getLast? hg
    rw [hs z this] at h1
    cases h1

theorem Spec.EndsIn.of_suffix {c : UInt8} {r s : Bytes} (h : EndsIn c r) (hr : r <:+ s) : EndsIn c s := by
  obtain ⟨t, rfl⟩ := hr
  obtain ⟨p, w, rfl, hw⟩ := h
  exact ⟨t ++ p, w, by simp, hw⟩

theorem trimChecked_split (s : Bytes) : ∃ w, s = w ++ trimChecked s ∧ ∀ x ∈ w, isSpace x = true := by
  induction s with
  | nil => exact ⟨[], rfl, by simp⟩
  | cons c s ih =>
    unfold trimChecked
    split
    · rename_i h
      obtain ⟨w, h1, h2⟩ := ih
      refine ⟨c :: w, by rw [List.cons_append, ← h1], fun x hx => ?_⟩
      rcases List.mem_cons.1 hx with rfl | hx
      · exact h
      · exact h2 x hx
    · exact ⟨[], rfl, by simp⟩

theorem isSpace_not_stop {x : UInt8} (h : isSpace x = true) : ¬ (x = chQuote ∨ x = chBslash) := by
  rintro (rfl | rfl) <;> exact absurd h (by decide)

theorem moveNext_quoteAhead {w b : Bytes} (hw : ∀ x ∈ w, isSpace x = true)
    (h : headIs (· == chQuote) (moveNextChecked b) = true) : QuoteAhead (w ++ b) := by
  have hq : ∀ {s : Bytes}, headIs (· == chQuote) s = true → ∃ t, s = chQuote :: t := by
    intro s hs
    cases s with
    | nil => simp [headIs] at hs
    | cons c s => exact ⟨s, by simp [headIs] at hs; rw [hs]⟩
  obtain ⟨v, hv, hvs⟩ := trimChecked_split b
  unfold moveNextChecked at h
  split at h
  · simp [headIs] at h
  · rename_i c cs he
    rw [he] at hv
    split at h
    · rename_i hc
      obtain ⟨u, hu, hus⟩ := trimChecked_split cs
      obtain ⟨t, ht⟩ := hq h
      rw [ht] at hu
      refine ⟨w ++ v ++ c :: u, t, by rw [hv, hu]; simp, fun x hx => ?_⟩
      simp only [List.mem_append, List.mem_cons] at hx
      rcases hx with (hx | hx) | rfl | hx
      · exact isSpace_not_stop (hw x hx)
      · exact isSpace_not_stop (hvs x hx)
      · rw [hc]; decide
      · exact isSpace_not_stop (hus x hx)
    · obtain ⟨t, ht⟩ := hq h
      simp only [List.cons.injEq] at ht
      refine ⟨w ++ v, t, by rw [hv, ht.1, ht.2]; simp, fun x hx => ?_⟩
      rcases List.mem_append.1 hx with hx | hx
      · exact isSpace_not_stop (hw x hx)
      · exact isSpace_not_stop (hvs x hx)

theorem memSkipStr_suffix (bs : Bytes) : memSkipStr bs <:+ bs := by
  fun_induction memSkipStr bs with
  | case1 => exact List.suffix_refl _
  | case2 => exact List.suffix_refl _
  | case3 => exact List.nil_suffix
  | case4 _ _ _ ih => exact ih.trans ((List.suffix_cons _ _).trans (List.suffix_cons _ _))
  | case5 _ _ _ _ ih => exact ih.trans (List.suffix_cons _ _)

/-- The skipped text ends with the closing bracket, unless everything was skipped; the comma count is not more than its length. -/
theorem brLoop_end {k : Brackets} {p s cnt n : Nat} {bs r : Bytes} (h : brLoop k p s cnt bs = .ok (n, r)) :
    n + r.length ≤ cnt + bs.length ∧ (r = [] ∨ (k.primRight :: r) <:+ bs) := by
  have sh : ∀ {c : UInt8} {bs cs : Bytes} {cnt cnt' : Nat}, cs <:+ bs → cnt' ≤ cnt + 1 →
      (n + r.length ≤ cnt' + cs.length ∧ (r = [] ∨ (k.primRight :: r) <:+ cs)) →
      n + r.length ≤ cnt + (c :: bs).length ∧ (r = [] ∨ (k.primRight :: r) <:+ c :: bs) := by
    intro c bs cs cnt cnt' hs hc h
    have := hs.length_le
    refine ⟨by simp only [List.length_cons]; omega, h.2.imp id fun h => (h.trans hs).trans (List.suffix_cons _ _)⟩
  fun_induction brLoop k p s cnt bs with
  | case1 p s cnt =>
    rw [Res.bind_eq_ok] at h
    obtain ⟨_, _, h⟩ := h
    simp at h; obtain ⟨rfl, rfl⟩ := h
    exact ⟨by simp, Or.inl rfl⟩
  | case2 p s cnt cs ih => exact sh (List.drop_suffix _ _) (by omega) (ih h)
  | case3 => simp at h
  | case4 p s cnt cs hd cs' hm _ ih =>
    have := memSkipStr_suffix cs
    rw [hm] at this
    exact sh ((List.suffix_cons _ _).trans this) (by omega) (ih h)
  | case5 p s cnt cs _ _ ih => exact sh List.suffix_rfl (by split <;> omega) (ih h)
  | case6 p s cnt cs h1 h2 h3 ih => exact sh List.suffix_rfl (by omega) (ih h)
  | case7 p s cnt cs h1 h2 h3 h4 h5 =>
    rw [Res.bind_eq_ok] at h
    obtain ⟨_, _, h⟩ := h
    simp at h; obtain ⟨rfl, rfl⟩ := h
    exact ⟨by simp, Or.inr List.suffix_rfl⟩
  | case8 p s cnt cs h1 h2 h3 h4 h5 ih => exact sh List.suffix_rfl (by omega) (ih h)
  | case9 p s cnt cs h1 h2 h3 h4 h5 ih => exact sh List.suffix_rfl (by omega) (ih h)
  | case10 p s cnt cs h1 h2 h3 h4 h5 h6 ih => exact sh List.suffix_rfl (by omega) (ih h)
  | case11 p s cnt c cs h1 h2 h3 h4 h5 h6 h7 ih => exact sh List.suffix_rfl (by omega) (ih h)

/-- What `skip_value` returns for a value that is not a string and not `null`. -/
def Skipped (b : Bytes) (r : Range) (rest : Bytes) : Prop :=
  r.text ≠ [] ∧ r.counter ≤ r.text.length ∧ ∃ w, b = r.text ++ (w ++ rest) ∧ (∀ x ∈ w, isSpace x = true) ∧
    ((rest = [] ∧ w = []) ∨ Closed r.text)

theorem take_of_suffix {x r : Bytes} : (x ++ r).take ((x ++ r).length - r.length) = x := by
  rw [List.length_append, Nat.add_sub_cancel, List.take_left]

theorem skipBracketed_skipped {cfg : Cfg} (hc : cfg.checked = true) {k : Brackets} (hr : Closed [k.primRight]) {cs : Bytes} {r : Range}
    {rest : Bytes} (h : skipBracketed cfg k (k.primLeft :: cs) = .ok (r, rest)) : r.null = false ∧ Skipped (k.primLeft :: cs) r rest := by
  unfold skipBracketed at h
  rw [if_pos hc] at h
  simp only [skipBracketedChecked, if_true, Res.bind_eq_ok] at h
  obtain ⟨⟨n, b⟩, hb, h⟩ := h
  simp only [Res.ok.injEq, Prod.mk.injEq] at h
  obtain ⟨rfl, rfl⟩ := h
  refine ⟨rfl, ?_⟩
  obtain ⟨hn, he⟩ := brLoop_end hb
  obtain ⟨x, rfl⟩ := brLoop_suffix hb
  have ht : (k.primLeft :: (x ++ b)).take ((k.primLeft :: (x ++ b)).length - b.length) = k.primLeft :: x :=
    take_of_suffix (x := k.primLeft :: x)
  unfold Skipped
  dsimp only
  rw [ht]
  refine ⟨by simp, ?_, [], by simp, by simp, ?_⟩
  · simp only [List.length_append, List.length_cons] at hn ⊢; omega
  · rcases he with he | ⟨y, hy⟩
    · exact Or.inl ⟨he, rfl⟩
    · right
      have : y ++ [k.primRight] = x := by
        have : (y ++ [k.primRight]) ++ b = x ++ b := by rw [← hy]; simp
        exact List.append_cancel_right this
      obtain ⟨x', z, h1, h2⟩ := hr
      have hx : x' = [] ∧ k.primRight = z := by
        cases x' with
        | nil => simpa using h1
        | cons _ _ => simp at h1
      exact ⟨k.primLeft :: y, k.primRight, by rw [← this]; simp, by rw [hx.2]; exact h2⟩

theorem eatLiteral_split {cfg : Cfg} (hc : cfg.checked = true) {e : Err} {tl cs b : Bytes} {c : UInt8}
    (h : eatLiteral cfg e tl (c :: cs) = .ok b) : cs = tl ++ b := by
  unfold eatLiteral at h
  rw [if_pos hc] at h
  split at h
  · rename_i hp
    simp at h; subst h
    obtain ⟨t, ht⟩ := List.isPrefixOf_iff_prefix.1 hp
    simp only [List.tail_cons] at ht
    rw [← ht]; simp
  · simp at h

theorem endOfLiteral_split {cfg : Cfg} (hc : cfg.checked = true) {e : Err} {b r : Bytes} (h : endOfLiteral cfg e b = .ok r) :
    ∃ w, b = w ++ r ∧ ∀ x ∈ w, isSpace x = true := by
  simp only [endOfLiteral, trim, hc, if_true, Res.ok_bind, Res.bind_eq_ok] at h
  obtain ⟨_, _, h⟩ := h
  simp at h; subst h
  exact trimChecked_split b

/-- Characters of numbers. -/
def NumCh (c : UInt8) : Prop := isDigit c = true ∨ c = chMinus ∨ c = chPlus ∨ c = chDot ∨ c = chLe ∨ c = chUe

theorem NumCh.fine {c : UInt8} (h : NumCh c) : isSpace c = false ∧ c ≠ chLBrack ∧ c ≠ chColon := by
  have : ∀ c : UInt8, (isDigit c = true ∨ c = chMinus ∨ c = chPlus ∨ c = chDot ∨ c = chLe ∨ c = chUe) →
      isSpace c = false ∧ c ≠ chLBrack ∧ c ≠ chColon := by
    have h : ∀ n : Fin 256, (isDigit (UInt8.ofNat n) = true ∨ (UInt8.ofNat n) = chMinus ∨ (UInt8.ofNat n) = chPlus ∨
      (UInt8.ofNat n) = chDot ∨ (UInt8.ofNat n) = chLe ∨ (UInt8.ofNat n) = chUe) →
      isSpace (UInt8.ofNat n) = false ∧ (UInt8.ofNat n) ≠ chLBrack ∧ (UInt8.ofNat n) ≠ chColon := by decide +kernel
    intro c
    have := h ⟨c.toNat, c.toNat_lt⟩
    simpa only [UInt8.ofNat_toNat] using this
  exact this c h

theorem skipDigits_split (b : Bytes) : ∃ x, b = x ++ skipDigits b ∧ ∀ c ∈ x, NumCh c := by
  induction b with
  | nil => exact ⟨[], rfl, by simp⟩
  | cons c b ih =>
    unfold skipDigits
    split
    · rename_i h
      obtain ⟨x, h1, h2⟩ := ih
      refine ⟨c :: x, by rw [List.cons_append, ← h1], fun y hy => ?_⟩
      rcases List.mem_cons.1 hy with rfl | hy
      · exact Or.inl h
      · exact h2 y hy
    · exact ⟨[], rfl, by simp⟩

theorem skipDigitsIf_split {cfg : Cfg} (hc : cfg.checked = true) {b r : Bytes} (h : skipDigitsIf cfg b = .ok r) :
    ∃ x, b = x ++ r ∧ ∀ c ∈ x, NumCh c := by
  unfold skipDigitsIf at h
  split at h
  · simp at h; subst h; exact ⟨[], rfl, by simp⟩
  · simp at h; subst h
    exact skipDigits_split b

theorem skipFrac_split {cfg : Cfg} (hc : cfg.checked = true) {b : Bytes} {r : Bytes × Bool} (h : skipFrac cfg b = .ok r) :
    ∃ x, b = x ++ r.1 ∧ ∀ c ∈ x, NumCh c := by
  unfold skipFrac at h
  split at h
  · rw [if_pos hc] at h
    simp at h; subst h; exact ⟨[], rfl, by simp⟩
  · split at h
    · rename_i hd
      rw [Res.bind_eq_ok] at h
      obtain ⟨b', hb, h⟩ := h
      simp at h; subst h
      obtain ⟨x, rfl, hx⟩ := skipDigitsIf_split hc hb
      refine ⟨_ :: x, rfl, fun y hy => ?_⟩
      rcases List.mem_cons.1 hy with rfl | hy
      · exact Or.inr (Or.inr (Or.inr (Or.inl hd)))
      · exact hx y hy
    · simp at h; subst h; exact ⟨[], rfl, by simp⟩

theorem skipExp_split {cfg : Cfg} (hc : cfg.checked = true) {b : Bytes} {r : Bytes × Bool} (h : skipExp cfg b = .ok r) :
    ∃ x, b = x ++ r.1 ∧ ∀ c ∈ x, NumCh c := by
  unfold skipExp at h
  split at h
  · simp at h; subst h; exact ⟨[], rfl, by simp⟩
  · rename_i c cs
    split at h
    · rename_i hd
      simp only [Res.bind_eq_ok] at h
      obtain ⟨_, _, s, hs, _, _, b', hb, h⟩ := h
      simp at h; subst h
      have hce : NumCh c := Or.inr (Or.inr (Or.inr (Or.inr hd)))
      obtain ⟨x, hx, hxs⟩ := skipDigitsIf_split hc hb
      split at hx
      · rename_i hsg
        cases cs with
        | nil => simp at hs
        | cons d ds =>
          simp at hs; subst hs
          simp only [List.tail_cons] at hx
          refine ⟨c :: d :: x, by rw [hx]; rfl, fun y hy => ?_⟩
          rcases List.mem_cons.1 hy with rfl | hy
          · exact hce
          rcases List.mem_cons.1 hy with rfl | hy
          · rcases hsg with h | h
            · exact Or.inr (Or.inr (Or.inl h))
            · exact Or.inr (Or.inl h)
          · exact hxs y hy
      · refine ⟨c :: x, by rw [hx]; rfl, fun y hy => ?_⟩
        rcases List.mem_cons.1 hy with rfl | hy
        · exact hce
        · exact hxs y hy
    · simp at h; subst h; exact ⟨[], rfl, by simp⟩

theorem closed_of_all {x : Bytes} (hx : x ≠ []) (h : ∀ c ∈ x, NumCh c) : Closed x :=
  ⟨x.dropLast, x.getLast hx, (List.dropLast_concat_getLast hx).symm, (h _ (List.getLast_mem hx)).fine⟩

theorem skipNumber_skipped {cfg : Cfg} (hck : cfg.checked = true) {c : UInt8} {cs : Bytes} {r : Range} {rest : Bytes}
    (hc : c = chMinus ∨ isDigit c = true) (h : skipNumber cfg (c :: cs) = .ok (r, rest)) :
    r.null = false ∧ Skipped (c :: cs) r rest := by
  have hl := skipNumber_later hc h
  simp only [skipNumber, Res.bind_eq_ok, deref_cons] at h
  obtain ⟨_, _, c', hc', b₂, h2, ⟨b₃, d⟩, h3, ⟨b₄, e⟩, h4, h⟩ := h
  simp at hc'; subst hc'
  simp only [Res.ok.injEq, Prod.mk.injEq] at h
  obtain ⟨rfl, rfl⟩ := h
  obtain ⟨x4, e4, n4⟩ := skipExp_split hck h4
  obtain ⟨x3, e3, n3⟩ := skipFrac_split hck h3
  obtain ⟨x2, e2, n2⟩ := skipDigitsIf_split hck h2
  have : ∃ x, c :: cs = x ++ b₄ ∧ ∀ y ∈ x, NumCh y := by
    have hx : ∀ y ∈ x2 ++ (x3 ++ x4), NumCh y := by
      intro y hy
      simp only [List.mem_append] at hy
      rcases hy with hy | hy | hy
      · exact n2 y hy
      · exact n3 y hy
      · exact n4 y hy
    split at e2
    · rename_i hm
      simp only [List.tail_cons] at e2
      refine ⟨c :: (x2 ++ (x3 ++ x4)), by rw [e2, e3, e4]; simp, fun y hy => ?_⟩
      rcases List.mem_cons.1 hy with rfl | hy
      · exact Or.inr (Or.inl hm)
      · exact hx y hy
    · exact ⟨x2 ++ (x3 ++ x4), by rw [e2, e3, e4]; simp, hx⟩
  obtain ⟨x, hx, hn⟩ := this
  refine ⟨rfl, ?_⟩
  have hne : x ≠ [] := by
    rintro rfl
    rw [hx] at hl
    exact absurd hl.2 (by simp)
  unfold Skipped
  dsimp only
  rw [hx, take_of_suffix]
  exact ⟨hne, by simp, [], by simp, by simp, Or.inr (closed_of_all hne hn)⟩

theorem skipValue_skipped {cfg : Cfg} (hck : cfg.checked = true) {b : Bytes} {r : Range} {rest : Bytes}
    (h : skipValue cfg false b = .ok (r, rest)) :
    (headIs (· == chQuote) b = true ∧ b = chQuote :: (r.text ++ chQuote :: rest) ∧ (r.counter < 2 ^ 63 → r.counter ≤ r.text.length)) ∨
    (headIs (· == chQuote) b = false ∧ (r.null = true ∨ Skipped b r rest)) := by
  unfold skipValue at h
  rw [Res.bind_eq_ok] at h
  obtain ⟨_, _, h⟩ := h
  cases b with
  | nil => simp at h
  | cons c cs =>
    simp only [deref_cons, Res.ok_bind] at h
    split at h
    · rename_i hq
      left
      refine ⟨by simp [headIs, hq], ?_⟩
      unfold skipString skipStringNq at h
      simp only [Res.bind_eq_ok] at h
      obtain ⟨_, -, _, -, ⟨r', rest'⟩, ⟨⟨sl, n⟩, h1, h2⟩, h3⟩ := h
      simp at h2 h3
      obtain ⟨rfl, rfl⟩ := h2
      obtain ⟨rfl, rfl⟩ := h3
      obtain ⟨-, h4, h5⟩ := nqScan_result (parseNq_result hck h1)
      rw [Nat.sub_zero] at h4
      obtain ⟨h6, h7, h8⟩ := split_at_quote h4
      refine ⟨?_, fun hk => ?_⟩
      · rw [hq]
        congr 1
        rw [← h8, List.take_append_drop]
      · dsimp only at hk ⊢
        rw [h7]
        rcases h5 with rfl | h5
        · exact absurd hk (by decide)
        · omega
    · rename_i hq
      right
      refine ⟨by simp [headIs, hq], ?_⟩
      split at h
      · rename_i hc; subst hc
        exact Or.inr (skipBracketed_skipped (k := arrBr) hck ⟨[], _, rfl, by decide, by decide, by decide⟩ h).2
      split at h
      · rename_i hc; subst hc
        exact Or.inr (skipBracketed_skipped (k := objBr) hck ⟨[], _, rfl, by decide, by decide, by decide⟩ h).2
      split at h
      · rename_i hc; subst hc
        right
        simp only [skipTrue, Res.bind_eq_ok] at h
        obtain ⟨b, hb, d, hd, h⟩ := h
        simp only [Res.ok.injEq, Prod.mk.injEq] at h
        obtain ⟨rfl, rfl⟩ := h
        obtain rfl := eatLiteral_split hck hb
        obtain ⟨w, rfl, hw⟩ := endOfLiteral_split hck hd
        exact ⟨by simp, by simp, w, by simp, hw, Or.inr ⟨[chT, 0x72, 0x75], 0x65, by simp, by decide, by decide, by decide⟩⟩
      split at h
      · rename_i hc; subst hc
        right
        simp only [skipFalse, Res.bind_eq_ok] at h
        obtain ⟨b, hb, d, hd, h⟩ := h
        simp only [Res.ok.injEq, Prod.mk.injEq] at h
        obtain ⟨rfl, rfl⟩ := h
        obtain rfl := eatLiteral_split hck hb
        obtain ⟨w, rfl, hw⟩ := endOfLiteral_split hck hd
        exact ⟨by simp, by simp, w, by simp, hw, Or.inr ⟨[chF, 0x61, 0x6C, 0x73], 0x65, by simp, by decide, by decide, by decide⟩⟩
      split at h
      · left
        simp only [skipNull, Res.bind_eq_ok] at h
        obtain ⟨b, hb, _, _, d, hd, h⟩ := h
        simp only [Res.ok.injEq, Prod.mk.injEq] at h
        obtain ⟨rfl, rfl⟩ := h
        rfl
      split at h
      · rename_i hc
        exact Or.inr (skipNumber_skipped hck hc h).2
      · simp at h

end Verif
