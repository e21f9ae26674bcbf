import Verif.Proof.SkipBasic

/-!
# Skipping a well-formed value consumes exactly its text
-/

namespace Verif

open Spec

/-! ## Numbers -/

theorem isDigit_iff (c : UInt8) : isDigit c = true ↔ IsDig c := by
  have := c.toNat_lt
  simp only [isDigit, parseDigit, IsDig, decide_eq_true_eq, UInt8.le_iff_toNat_le, UInt8.toNat_sub]
  simp
  omega

/-- The text that follows does not continue a number. -/
def NumEnd (c : Bytes) : Prop :=
  ∀ x, c.head? = some x → ¬ IsDig x ∧ x ≠ chDot ∧ x ≠ chLe ∧ x ≠ chUe

theorem skipDigits_digits (ds c : Bytes) (h : ∀ x ∈ ds, IsDig x)
    (hc : ∀ x, c.head? = some x → ¬ IsDig x) : skipDigits (ds ++ c) = c := by
  induction ds with
  | nil =>
    cases c with
    | nil => rfl
    | cons x xs =>
      have := hc x rfl
      rw [← isDigit_iff] at this
      simp [skipDigits, this]
  | cons d ds ih =>
    have hd := (isDigit_iff d).2 (h d (by simp))
    simp only [List.cons_append, skipDigits, hd, if_true]
    exact ih (fun x hx => h x (by simp [hx]))

theorem skipDigitsUnchecked_digits (ds : Bytes) (x : UInt8) (c : Bytes) (h : ∀ x ∈ ds, IsDig x)
    (hc : ¬ IsDig x) : skipDigitsUnchecked (ds ++ x :: c) = .ok (x :: c) := by
  induction ds with
  | nil =>
    rw [← isDigit_iff] at hc
    simp [skipDigitsUnchecked, hc]
  | cons d ds ih =>
    have hd := (isDigit_iff d).2 (h d (by simp))
    simp only [List.cons_append, skipDigitsUnchecked, hd, if_true]
    exact ih (fun x hx => h x (by simp [hx]))

/-- What follows a value: unchecked mode needs at least one more byte. -/
def Room (cfg : Cfg) (c : Bytes) : Prop := cfg.checked = false → c ≠ []

theorem skipDigitsIf_digits (cfg : Cfg) (ds c : Bytes) (h : ∀ x ∈ ds, IsDig x)
    (hc : ∀ x, c.head? = some x → ¬ IsDig x) (hr : Room cfg c) :
    skipDigitsIf cfg (ds ++ c) = .ok c := by
  unfold skipDigitsIf
  split
  · rename_i he
    simp at he
    simp [he]
  · split
    · rw [skipDigits_digits ds c h hc]
    · rename_i _ hch
      cases c with
      | nil => exact absurd rfl (hr (by simpa using hch))
      | cons x xs => exact skipDigitsUnchecked_digits ds x xs h (hc x rfl)

theorem head?_append_of_ne {l₁ l₂ : Bytes} (h : l₁ ≠ []) : (l₁ ++ l₂).head? = l₁.head? := by
  cases l₁ <;> simp_all

theorem isDigits_head {ds : Bytes} (h : IsDigits ds) : ∃ d t, ds = d :: t ∧ IsDig d := by
  cases ds with
  | nil => exact absurd rfl h.1
  | cons d t => exact ⟨d, t, rfl, h.2 d (by simp)⟩

theorem skipFrac_spec (cfg : Cfg) (f c : Bytes) (hf : IsFrac f)
    (hc : ∀ x, c.head? = some x → ¬ IsDig x ∧ x ≠ chDot) (hr : Room cfg c) :
    ∃ b, skipFrac cfg (f ++ c) = .ok (c, b) := by
  rcases hf with rfl | ⟨ds, hds, rfl⟩
  · refine ⟨false, ?_⟩
    cases c with
    | nil =>
      have : cfg.checked = true := by
        cases h : cfg.checked
        · exact absurd rfl (hr h)
        · rfl
      simp [skipFrac, this]
    | cons x xs => simp [skipFrac, (hc x rfl).2]
  · refine ⟨true, ?_⟩
    simp only [List.cons_append, skipFrac, if_true]
    rw [skipDigitsIf_digits cfg ds c hds.2 (fun x hx => (hc x hx).1) hr]
    rfl

theorem dig_ne {d : UInt8} (h : IsDig d) :
    d ≠ chPlus ∧ d ≠ chMinus ∧ d ≠ chDot ∧ d ≠ chLe ∧ d ≠ chUe := by
  simp only [IsDig, UInt8.le_iff_toNat_le] at h
  refine ⟨?_, ?_, ?_, ?_, ?_⟩ <;> rintro rfl <;> simp at h

theorem skipExp_spec (cfg : Cfg) (e c : Bytes) (he : IsExp e) (hc : NumEnd c) (hr : Room cfg c) :
    ∃ b, skipExp cfg (e ++ c) = .ok (c, b) := by
  rcases he with rfl | ⟨x, s, ds, hx, hs, hds, rfl⟩
  · refine ⟨false, ?_⟩
    cases c with
    | nil => rfl
    | cons y ys =>
      have := hc y rfl
      simp [skipExp, this.2.2]
  · refine ⟨true, ?_⟩
    obtain ⟨d, t, rfl, hd⟩ := isDigits_head hds
    have hdig := (isDigit_iff d).2 hd
    have hdn := dig_ne hd
    have key : skipDigitsIf cfg (d :: (t ++ c)) = .ok c := by
      have := skipDigitsIf_digits cfg (d :: t) c hds.2 (fun x hx => (hc x hx).1) hr
      simpa using this
    rcases hs with rfl | rfl | rfl
    · cases hch : cfg.checked <;>
        simp [skipExp, hx, hdig, hdn, key, hch]
    · cases hch : cfg.checked <;>
        simp [skipExp, hx, hdig, key, hch]
    · cases hch : cfg.checked <;>
        simp [skipExp, hx, hdig, key, hch]

theorem IsExp.head {e c : Bytes} (he : IsExp e) (hc : NumEnd c) :
    ∀ x, (e ++ c).head? = some x → ¬ IsDig x ∧ x ≠ chDot := by
  intro x hx
  rcases he with rfl | ⟨y, s, ds, hy, _, _, rfl⟩
  · exact ⟨(hc x hx).1, (hc x hx).2.1⟩
  · simp at hx
    subst hx
    rcases hy with rfl | rfl <;> simp [IsDig, UInt8.le_iff_toNat_le]

theorem IsFrac.head {f e c : Bytes} (hf : IsFrac f) (he : IsExp e) (hc : NumEnd c) :
    ∀ x, (f ++ (e ++ c)).head? = some x → ¬ IsDig x := by
  intro x hx
  rcases hf with rfl | ⟨ds, _, rfl⟩
  · exact (IsExp.head he hc x hx).1
  · simp at hx
    subst hx
    simp [IsDig, UInt8.le_iff_toNat_le]

theorem isInt_digits {i : Bytes} (h : IsInt i) : IsDigits i := by
  rcases h with rfl | h
  · constructor
    · simp
    · simp [IsDig, UInt8.le_iff_toNat_le]
  · exact h.1

theorem Room.append {cfg : Cfg} {c : Bytes} (h : Room cfg c) (l : Bytes) : Room cfg (l ++ c) := by
  intro hc hn
  have := h hc
  simp_all

theorem skipNumber_spec (cfg : Cfg) (n c : Bytes) (hn : IsNumber n) (hc : NumEnd c) (hr : Room cfg c) :
    ∃ d e, skipNumber cfg (n ++ c) = .ok ({ text := n, dec := d, exp := e }, c) := by
  obtain ⟨m, i, f, e, hm, hi, hf, he, rfl⟩ := hn
  have hid := isInt_digits hi
  obtain ⟨d, t, rfl, hd⟩ := isDigits_head hid
  have hdn := dig_ne hd
  have k₁ : skipDigitsIf cfg (d :: (t ++ (f ++ (e ++ c)))) = .ok (f ++ (e ++ c)) := by
    have := skipDigitsIf_digits cfg (d :: t) (f ++ (e ++ c)) hid.2 (IsFrac.head hf he hc)
      ((hr.append e).append f)
    simpa using this
  obtain ⟨b₁, k₂⟩ := skipFrac_spec cfg f (e ++ c) hf (IsExp.head he hc) (hr.append e)
  obtain ⟨b₂, k₃⟩ := skipExp_spec cfg e c he hc hr
  have hz : assertWeak cfg.checked true Err.unexpectedEndOfData = .ok () := by
    cases cfg.checked <;> rfl
  rcases hm with rfl | rfl
  · refine ⟨if b₁ then some ((d :: (t ++ (f ++ (e ++ c)))).length - (f ++ (e ++ c)).length) else none,
      if b₂ then some ((d :: (t ++ (f ++ (e ++ c)))).length - (e ++ c).length) else none, ?_⟩
    simp only [skipNumber, List.nil_append, List.cons_append, List.append_assoc, List.isEmpty_cons,
      Bool.not_false, hz, deref_cons, Res.ok_bind, hdn.2.1, if_false, k₁, k₂, k₃]
    have : (d :: (t ++ (f ++ (e ++ c)))).length - c.length = (d :: (t ++ (f ++ e))).length := by
      simp; omega
    rw [this]
    rw [show d :: (t ++ (f ++ (e ++ c))) = (d :: (t ++ (f ++ e))) ++ c by simp, List.take_left]
  · refine ⟨if b₁ then some ((chMinus :: d :: (t ++ (f ++ (e ++ c)))).length
      - (f ++ (e ++ c)).length) else none,
      if b₂ then some ((chMinus :: d :: (t ++ (f ++ (e ++ c)))).length - (e ++ c).length) else none, ?_⟩
    simp only [skipNumber, List.nil_append, List.cons_append, List.append_assoc, List.isEmpty_cons,
      Bool.not_false, hz, deref_cons, Res.ok_bind, if_true, List.tail_cons, k₁, k₂, k₃]
    have : (chMinus :: d :: (t ++ (f ++ (e ++ c)))).length - c.length
        = (chMinus :: d :: (t ++ (f ++ e))).length := by
      simp; omega
    rw [this]
    rw [show chMinus :: d :: (t ++ (f ++ (e ++ c))) = (chMinus :: d :: (t ++ (f ++ e))) ++ c by simp,
      List.take_left]

end Verif
