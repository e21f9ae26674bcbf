import Verif.Proof.SkipExact

/-!
# Skipping: no read outside the buffer, forward progress
-/

namespace Verif

theorem ensure_ne_ub (c : Bool) (e : Err) : ensure c e ≠ .ub := by cases c <;> simp

theorem assertWeak_ne_ub (k c : Bool) (e : Err) : assertWeak k c e ≠ .ub := by
  cases k <;> cases c <;> simp

theorem ensure_eq_ok {c : Bool} {e : Err} {u : Unit} : ensure c e = .ok u ↔ c = true := by
  cases c <;> simp

theorem assertWeak_eq_ok {k c : Bool} {e : Err} {u : Unit} :
    assertWeak k c e = .ok u ↔ (k = true → c = true) := by
  cases k <;> cases c <;> simp

theorem nqScanExcl_ne_ub (off slow : Nat) (bs : Bytes) : nqScanExcl off slow bs ≠ .ub := by
  fun_induction nqScanExcl off slow bs <;> simp_all

theorem parseNq_ne_ub {cfg : Cfg} (hc : cfg.checked = true) (bs : Bytes) : parseNq cfg bs ≠ .ub := by
  unfold parseNq parseNqCheck
  simp only [hc, if_true]
  split
  · exact nqScanExcl_ne_ub _ _ _
  · split <;> simp

theorem skipString_ne_ub {cfg : Cfg} (hc : cfg.checked = true) (kq : Bool) (bs : Bytes) :
    skipString cfg kq bs ≠ .ub := by
  unfold skipString
  split
  · simp
  · refine Res.bind_ne_ub (ensure_ne_ub _ _) fun _ _ => Res.bind_ne_ub (assertWeak_ne_ub _ _ _) fun _ _ => ?_
    refine Res.bind_ne_ub ?_ fun a _ => ?_
    · exact Res.bind_ne_ub (parseNq_ne_ub hc _) fun _ _ => by simp
    · dsimp only; split <;> simp

theorem brLoop_ne_ub (k : Brackets) (p s cnt : Nat) (bs : Bytes) : brLoop k p s cnt bs ≠ .ub := by
  fun_induction brLoop k p s cnt bs <;> first
    | assumption
    | (exact Res.bind_ne_ub (ensure_ne_ub _ _) fun _ _ => by simp)
    | simp

theorem skipBracketed_ne_ub {cfg : Cfg} (hc : cfg.checked = true) (k : Brackets) (bs : Bytes) :
    skipBracketed cfg k bs ≠ .ub := by
  unfold skipBracketed skipBracketedChecked
  simp only [hc, if_true]
  split
  · simp
  · exact Res.bind_ne_ub (brLoop_ne_ub _ _ _ _ _) fun _ _ => by simp

theorem endOfLiteral_ne_ub {cfg : Cfg} (hc : cfg.checked = true) (e : Err) (bs : Bytes) :
    endOfLiteral cfg e bs ≠ .ub := by
  unfold endOfLiteral trim
  simp only [hc, if_true, Res.ok_bind]
  exact Res.bind_ne_ub (assertWeak_ne_ub _ _ _) fun _ _ => by simp

theorem eatLiteral_ne_ub {cfg : Cfg} (hc : cfg.checked = true) (e : Err) (tl bs : Bytes) :
    eatLiteral cfg e tl bs ≠ .ub := by
  unfold eatLiteral
  simp only [hc, if_true]
  split <;> simp

theorem skipTrue_ne_ub {cfg : Cfg} (hc : cfg.checked = true) (bs : Bytes) : skipTrue cfg bs ≠ .ub :=
  Res.bind_ne_ub (eatLiteral_ne_ub hc _ _ _) fun _ _ =>
    Res.bind_ne_ub (endOfLiteral_ne_ub hc _ _) fun _ _ => by simp

theorem skipFalse_ne_ub {cfg : Cfg} (hc : cfg.checked = true) (bs : Bytes) : skipFalse cfg bs ≠ .ub :=
  Res.bind_ne_ub (eatLiteral_ne_ub hc _ _ _) fun _ _ =>
    Res.bind_ne_ub (endOfLiteral_ne_ub hc _ _) fun _ _ => by simp

theorem skipNull_ne_ub {cfg : Cfg} (hc : cfg.checked = true) (bs : Bytes) : skipNull cfg bs ≠ .ub :=
  Res.bind_ne_ub (eatLiteral_ne_ub hc _ _ _) fun _ _ =>
    Res.bind_ne_ub (assertWeak_ne_ub _ _ _) fun _ _ =>
      Res.bind_ne_ub (endOfLiteral_ne_ub hc _ _) fun _ _ => by simp

theorem skipDigitsIf_ne_ub {cfg : Cfg} (hc : cfg.checked = true) (bs : Bytes) :
    skipDigitsIf cfg bs ≠ .ub := by
  unfold skipDigitsIf
  simp only [hc, if_true]
  split <;> simp

theorem skipFrac_ne_ub {cfg : Cfg} (hc : cfg.checked = true) (bs : Bytes) : skipFrac cfg bs ≠ .ub := by
  unfold skipFrac
  split
  · simp [hc]
  · split
    · exact Res.bind_ne_ub (skipDigitsIf_ne_ub hc _) fun _ _ => by simp
    · simp

theorem skipExp_ne_ub {cfg : Cfg} (hc : cfg.checked = true) (bs : Bytes) : skipExp cfg bs ≠ .ub := by
  unfold skipExp
  split
  · simp
  · split
    · refine Res.bind_ne_ub (assertWeak_ne_ub _ _ _) fun _ h => ?_
      rw [assertWeak_eq_ok] at h
      rename_i cs _ _
      cases cs with
      | nil => simp [hc] at h
      | cons d ds =>
        simp only [deref_cons, Res.ok_bind]
        exact Res.bind_ne_ub (assertWeak_ne_ub _ _ _) fun _ _ =>
          Res.bind_ne_ub (skipDigitsIf_ne_ub hc _) fun _ _ => by simp
    · simp

theorem skipNumber_ne_ub {cfg : Cfg} (hc : cfg.checked = true) (bs : Bytes) : skipNumber cfg bs ≠ .ub := by
  unfold skipNumber
  refine Res.bind_ne_ub (assertWeak_ne_ub _ _ _) fun _ h => ?_
  rw [assertWeak_eq_ok] at h
  cases bs with
  | nil => simp [hc] at h
  | cons c cs =>
    simp only [deref_cons, Res.ok_bind]
    exact Res.bind_ne_ub (skipDigitsIf_ne_ub hc _) fun _ _ =>
      Res.bind_ne_ub (skipFrac_ne_ub hc _) fun _ _ =>
        Res.bind_ne_ub (skipExp_ne_ub hc _) fun _ _ => by simp

theorem skipValue_ne_ub {cfg : Cfg} (hc : cfg.checked = true) (kq : Bool) (bs : Bytes) :
    skipValue cfg kq bs ≠ .ub := by
  unfold skipValue
  refine Res.bind_ne_ub (assertWeak_ne_ub _ _ _) fun _ h => ?_
  rw [assertWeak_eq_ok] at h
  cases bs with
  | nil => simp [hc] at h
  | cons c cs =>
    simp only [deref_cons, Res.ok_bind, hc, if_true]
    split; · exact skipString_ne_ub hc _ _
    split; · exact skipBracketed_ne_ub hc _ _
    split; · exact skipBracketed_ne_ub hc _ _
    split; · exact skipTrue_ne_ub hc _
    split; · exact skipFalse_ne_ub hc _
    split; · exact skipNull_ne_ub hc _
    split; · exact skipNumber_ne_ub hc _
    simp

/-! ## Progress -/

theorem trimUnchecked_suffix {bs r : Bytes} (h : trimUnchecked bs = .ok r) : r <:+ bs := by
  induction bs with
  | nil => simp [trimUnchecked] at h
  | cons c cs ih =>
    rw [trimUnchecked] at h
    split at h
    · exact (ih h).trans (List.suffix_cons _ _)
    · simp at h; subst h; exact List.suffix_refl _

theorem trim_suffix {cfg : Cfg} {bs r : Bytes} (h : trim cfg bs = .ok r) : r <:+ bs := by
  unfold trim at h
  split at h
  · simp at h; subst h; exact trimChecked_suffix _
  · exact trimUnchecked_suffix h

theorem moveNextChecked_suffix (bs : Bytes) : moveNextChecked bs <:+ bs := by
  unfold moveNextChecked
  have := trimChecked_suffix bs
  split
  · exact List.nil_suffix
  · rename_i c cs he
    rw [he] at this
    split
    · exact (trimChecked_suffix cs).trans ((List.suffix_cons _ _).trans this)
    · exact this

theorem moveNext_suffix {cfg : Cfg} {bs r : Bytes} (h : moveNext cfg bs = .ok r) : r <:+ bs := by
  unfold moveNext at h
  split at h
  · simp at h; subst h; exact moveNextChecked_suffix _
  · unfold moveNextUnchecked at h
    rw [Res.bind_eq_ok] at h
    obtain ⟨b, hb, h⟩ := h
    rw [Res.bind_eq_ok] at h
    obtain ⟨c, hc, h⟩ := h
    have hs := trimUnchecked_suffix hb
    split at h
    · exact (trimUnchecked_suffix h).trans ((List.tail_suffix _).trans hs)
    · simp at h; subst h; exact hs

theorem brLoop_suffix {k : Brackets} {p s cnt n : Nat} {bs r : Bytes}
    (h : brLoop k p s cnt bs = .ok (n, r)) : r <:+ bs := by
  fun_induction brLoop k p s cnt bs with
  | case1 p s cnt =>
    rw [Res.bind_eq_ok] at h
    obtain ⟨_, _, h⟩ := h
    simp at h; rw [← h.2]
    exact List.suffix_refl _
  | case2 p s cnt cs ih => exact (ih h).trans ((List.drop_suffix _ _).trans (List.suffix_cons _ _))
  | case3 => simp at h
  | case4 p s cnt cs hd cs' hm _ ih =>
    have h2 : ∀ bs : Bytes, memSkipStr bs <:+ bs := by
      intro bs
      fun_induction memSkipStr bs with
      | case1 => exact List.suffix_refl _
      | case2 => exact List.suffix_refl _
      | case3 => exact List.nil_suffix
      | case4 _ _ _ ih => exact ih.trans ((List.suffix_cons _ _).trans (List.suffix_cons _ _))
      | case5 _ _ _ _ ih => exact ih.trans (List.suffix_cons _ _)
    have := h2 cs
    rw [hm] at this
    exact (ih h).trans ((List.suffix_cons _ _).trans (this.trans (List.suffix_cons _ _)))
  | case5 p s cnt cs _ _ ih => exact (ih h).trans (List.suffix_cons _ _)
  | case6 p s cnt cs h1 h2 h3 ih => exact (ih h).trans (List.suffix_cons _ _)
  | case7 p s cnt cs h1 h2 h3 h4 h5 =>
    rw [Res.bind_eq_ok] at h
    obtain ⟨_, _, h⟩ := h
    simp at h; rw [← h.2]
    exact (List.suffix_cons _ _)
  | case8 p s cnt cs h1 h2 h3 h4 h5 ih => exact (ih h).trans (List.suffix_cons _ _)
  | case9 p s cnt cs h1 h2 h3 h4 h5 ih => exact (ih h).trans (List.suffix_cons _ _)
  | case10 p s cnt cs h1 h2 h3 h4 h5 h6 ih => exact (ih h).trans (List.suffix_cons _ _)
  | case11 p s cnt c cs h1 h2 h3 h4 h5 h6 h7 ih => exact (ih h).trans (List.suffix_cons _ _)

theorem memSkipStrUnchecked_suffix {bs r : Bytes} (h : memSkipStrUnchecked bs = .ok r) : r <:+ bs := by
  fun_induction memSkipStrUnchecked bs with
  | case1 => simp at h
  | case2 => simp at h; subst h; exact List.suffix_refl _
  | case3 => simp at h
  | case4 _ _ _ ih => exact (ih h).trans ((List.suffix_cons _ _).trans (List.suffix_cons _ _))
  | case5 _ _ _ _ ih => exact (ih h).trans (List.suffix_cons _ _)

theorem brLoopUnchecked_suffix {k : Brackets} {p s cnt n : Nat} {bs r : Bytes}
    (h : brLoopUnchecked k p s cnt bs = .ok (n, r)) : r <:+ bs := by
  fun_induction brLoopUnchecked k p s cnt bs <;> first
    | (simp at h; done)
    | (simp at h; rw [← h.2]; exact List.suffix_cons _ _)
    | (rename_i ih; exact (ih h).trans (List.suffix_cons _ _))
    | (rename_i ih; exact (ih h).trans ((List.suffix_cons _ _).trans (List.suffix_cons _ _)))
    | (rename_i hm _ ih
       exact (ih h).trans ((List.suffix_cons _ _).trans
        ((memSkipStrUnchecked_suffix hm).trans (List.suffix_cons _ _))))

/-- `rest` is strictly after `bs` and inside it. -/
def Later (rest bs : Bytes) : Prop := rest <:+ bs ∧ rest.length < bs.length

theorem Later.of_tail {c : UInt8} {cs r : Bytes} (h : r <:+ cs) : Later r (c :: cs) :=
  ⟨h.trans (List.suffix_cons _ _), by have := h.length_le; simp; omega⟩

theorem skipBracketed_later {cfg : Cfg} {k : Brackets} {c : UInt8} {cs : Bytes} {r : Range × Bytes}
    (hk : c = k.primLeft) (h : skipBracketed cfg k (c :: cs) = .ok r) : Later r.2 (c :: cs) := by
  unfold skipBracketed at h
  split at h
  · simp only [skipBracketedChecked, hk, if_true] at h
    rw [Res.bind_eq_ok] at h
    obtain ⟨⟨n, b⟩, hb, h⟩ := h
    simp at h; subst h
    exact Later.of_tail (brLoop_suffix hb)
  · simp only [skipBracketedUnchecked, hk, if_true] at h
    rw [Res.bind_eq_ok] at h
    obtain ⟨⟨n, b⟩, hb, h⟩ := h
    simp at h; subst h
    exact Later.of_tail (brLoopUnchecked_suffix hb)

theorem skipString_later {cfg : Cfg} {kq : Bool} {c : UInt8} {cs : Bytes} {r : Range × Bytes}
    (h : skipString cfg kq (c :: cs) = .ok r) : Later r.2 (c :: cs) := by
  simp only [skipString, Res.bind_eq_ok] at h
  obtain ⟨_, _, _, _, ⟨q, rest⟩, hq, h⟩ := h
  simp only [skipStringNq, Res.bind_eq_ok] at hq
  obtain ⟨⟨s, n⟩, _, hq⟩ := hq
  simp at hq
  have : r.2 = cs.drop (n + 1) := by
    dsimp only at h
    split at h <;> (simp at h; subst h; exact hq.2.symm)
  rw [this]
  exact Later.of_tail (List.drop_suffix _ _)

theorem endOfLiteral_suffix {cfg : Cfg} {e : Err} {bs r : Bytes} (h : endOfLiteral cfg e bs = .ok r) :
    r <:+ bs := by
  simp only [endOfLiteral, Res.bind_eq_ok] at h
  obtain ⟨b, hb, _, _, h⟩ := h
  simp at h; subst h
  exact trim_suffix hb

theorem eatLiteral_suffix {cfg : Cfg} {e : Err} {tl : Bytes} {c : UInt8} {cs r : Bytes}
    (h : eatLiteral cfg e tl (c :: cs) = .ok r) : r <:+ cs := by
  unfold eatLiteral at h
  split at h
  · split at h
    · simp at h; subst h; exact List.drop_suffix _ _
    · simp at h
  · split at h
    · simp at h; subst h; exact List.drop_suffix _ _
    · simp at h

theorem skipTrue_later {cfg : Cfg} {c : UInt8} {cs : Bytes} {r : Range × Bytes}
    (h : skipTrue cfg (c :: cs) = .ok r) : Later r.2 (c :: cs) := by
  simp only [skipTrue, Res.bind_eq_ok] at h
  obtain ⟨b, hb, d, hd, h⟩ := h
  simp at h; subst h
  exact Later.of_tail ((endOfLiteral_suffix hd).trans (eatLiteral_suffix hb))

theorem skipFalse_later {cfg : Cfg} {c : UInt8} {cs : Bytes} {r : Range × Bytes}
    (h : skipFalse cfg (c :: cs) = .ok r) : Later r.2 (c :: cs) := by
  simp only [skipFalse, Res.bind_eq_ok] at h
  obtain ⟨b, hb, d, hd, h⟩ := h
  simp at h; subst h
  exact Later.of_tail ((endOfLiteral_suffix hd).trans (eatLiteral_suffix hb))

theorem skipNull_later {cfg : Cfg} {c : UInt8} {cs : Bytes} {r : Range × Bytes}
    (h : skipNull cfg (c :: cs) = .ok r) : Later r.2 (c :: cs) := by
  simp only [skipNull, Res.bind_eq_ok] at h
  obtain ⟨b, hb, _, _, d, hd, h⟩ := h
  simp at h; subst h
  exact Later.of_tail ((endOfLiteral_suffix hd).trans (eatLiteral_suffix hb))

theorem skipDigits_suffix (bs : Bytes) : skipDigits bs <:+ bs := by
  induction bs with
  | nil => exact List.suffix_refl _
  | cons c cs ih =>
    rw [skipDigits]
    split
    · exact ih.trans (List.suffix_cons _ _)
    · exact List.suffix_refl _

theorem skipDigitsUnchecked_suffix {bs r : Bytes} (h : skipDigitsUnchecked bs = .ok r) : r <:+ bs := by
  induction bs with
  | nil => simp [skipDigitsUnchecked] at h
  | cons c cs ih =>
    rw [skipDigitsUnchecked] at h
    split at h
    · exact (ih h).trans (List.suffix_cons _ _)
    · simp at h; subst h; exact List.suffix_refl _

theorem skipDigitsIf_suffix {cfg : Cfg} {bs r : Bytes} (h : skipDigitsIf cfg bs = .ok r) : r <:+ bs := by
  unfold skipDigitsIf at h
  split at h
  · simp at h; subst h; exact List.suffix_refl _
  · split at h
    · simp at h; subst h; exact skipDigits_suffix _
    · exact skipDigitsUnchecked_suffix h

theorem skipDigitsIf_later {cfg : Cfg} {c : UInt8} {cs r : Bytes} (hd : isDigit c = true)
    (h : skipDigitsIf cfg (c :: cs) = .ok r) : r <:+ cs := by
  unfold skipDigitsIf at h
  simp only [List.isEmpty_cons] at h
  split at h
  · rename_i hh; simp at hh
  · split at h
    · simp [skipDigits, hd] at h; subst h; exact skipDigits_suffix _
    · simp [skipDigitsUnchecked, hd] at h; exact skipDigitsUnchecked_suffix h

theorem skipFrac_suffix {cfg : Cfg} {bs : Bytes} {r : Bytes × Bool} (h : skipFrac cfg bs = .ok r) :
    r.1 <:+ bs := by
  unfold skipFrac at h
  split at h
  · split at h
    · simp at h; subst h; exact List.suffix_refl _
    · simp at h
  · split at h
    · rw [Res.bind_eq_ok] at h
      obtain ⟨b, hb, h⟩ := h
      simp at h; subst h
      exact (skipDigitsIf_suffix hb).trans (List.suffix_cons _ _)
    · simp at h; subst h; exact List.suffix_refl _

theorem skipExp_suffix {cfg : Cfg} {bs : Bytes} {r : Bytes × Bool} (h : skipExp cfg bs = .ok r) :
    r.1 <:+ bs := by
  unfold skipExp at h
  split at h
  · simp at h; subst h; exact List.suffix_refl _
  · split at h
    · simp only [Res.bind_eq_ok] at h
      obtain ⟨_, _, s, hs, _, _, b, hb, h⟩ := h
      simp at h; subst h
      refine (skipDigitsIf_suffix hb).trans (List.IsSuffix.trans ?_ (List.suffix_cons _ _))
      split
      · exact List.tail_suffix _
      · exact List.suffix_refl _
    · simp at h; subst h; exact List.suffix_refl _

theorem skipNumber_later {cfg : Cfg} {c : UInt8} {cs : Bytes} {r : Range × Bytes}
    (hc : c = chMinus ∨ isDigit c = true)
    (h : skipNumber cfg (c :: cs) = .ok r) : Later r.2 (c :: cs) := by
  simp only [skipNumber, Res.bind_eq_ok, deref_cons] at h
  obtain ⟨_, _, c', hc', b₂, h2, ⟨b₃, d⟩, h3, ⟨b₄, e⟩, h4, h⟩ := h
  simp at hc'; subst hc'
  simp at h; subst h
  refine Later.of_tail ((skipExp_suffix h4).trans ((skipFrac_suffix h3).trans ?_))
  split at h2
  · exact skipDigitsIf_suffix h2
  · rename_i hm
    exact skipDigitsIf_later (hc.resolve_left hm) h2

theorem skipValue_later {cfg : Cfg} {kq : Bool} {bs : Bytes} {r : Range × Bytes}
    (h : skipValue cfg kq bs = .ok r) : Later r.2 bs := by
  unfold skipValue at h
  rw [Res.bind_eq_ok] at h
  obtain ⟨_, _, h⟩ := h
  cases bs with
  | nil => simp at h
  | cons c cs =>
    simp only [deref_cons, Res.ok_bind] at h
    split at h; · exact skipString_later h
    split at h; · rename_i hc; exact skipBracketed_later hc h
    split at h; · rename_i hc; exact skipBracketed_later hc h
    split at h; · exact skipTrue_later h
    split at h; · exact skipFalse_later h
    split at h; · exact skipNull_later h
    split at h; · rename_i hc; exact skipNumber_later hc h
    split at h
    · simp at h
    · split at h <;> simp at h

end Verif
