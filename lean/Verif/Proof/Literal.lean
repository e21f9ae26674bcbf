import Verif.Proof.TypedTuple
import Verif.Props.Int

/-!
# Booleans and integers that are or may be strings: what they read
-/

namespace Verif

open Spec

/-- The digits of a number that fits. -/
theorem unsignedNotKnown_fits (cfg : Cfg) {bits : Nat} (hb : bits = 8 ∨ bits = 16 ∨ bits = 32 ∨ bits = 64) (rc : Bool) {ds c : Bytes}
    (hd : IsInt ds) (hc : NoDig c) (hlt : decVal ds < 2 ^ bits) : unsignedNotKnown cfg bits rc (ds ++ c) = .ok (decVal ds, c) := by
  have h64 : 2 ^ bits ≤ 2 ^ 64 := Nat.pow_le_pow_right (by decide) (by omega)
  rw [unsignedNotKnown_digits cfg bits rc ds c (isDigits_of_isInt hd) hc]
  have hm : decVal ds % 2 ^ 64 = decVal ds := Nat.mod_eq_of_lt (by omega)
  have hl : ds.length ≤ 20 := by
    rcases hd with rfl | hd
    · decide
    · cases ds with
      | nil => simp
      | cons x xs =>
        have hx : 1 ≤ digVal x := by
          have h1 := hd.1.2 x (by simp)
          have h2 : x ≠ 0x30 := by simpa using hd.2
          simp only [IsDig, UInt8.le_iff_toNat_le] at h1
          have h3 : 48 ≤ x.toNat := h1.1
          have h4 : x.toNat ≠ 48 := by
            intro h; exact h2 (UInt8.toNat_inj.1 (by simpa using h))
          unfold digVal; omega
        have h3 : decVal (x :: xs) = decFrom (digVal x) xs := by simp [decVal, decFrom]
        rw [h3, decFrom_eq] at hlt
        cases Nat.lt_or_ge 19 xs.length with
        | inr h => simpa using h
        | inl h =>
          exfalso
          have : 10 ^ 20 ≤ 10 ^ xs.length := Nat.pow_le_pow_right (by decide) h
          have : 1 * 10 ^ xs.length ≤ digVal x * 10 ^ xs.length := Nat.mul_le_mul_right _ hx
          omega
  rw [hm, Nat.mod_eq_of_lt hlt]
  cases rc <;> simp [hl, hlt]

/-- The sign and the digits of a signed number. -/
theorem signed_parts {bits : Nat} (hb : (⟨bits, true⟩ : IntTy).Valid) {v : Int} (hv : (⟨bits, true⟩ : IntTy).InRange v) {txt : Bytes}
    (hx : IsNumeral txt v) : ∃ (neg : Bool) (ds : Bytes), txt = (if neg then [0x2D] else []) ++ ds ∧ IsInt ds ∧ decVal ds < 2 ^ bits ∧
      toSigned bits (decVal ds) (if neg then -1 else 1) = v := by
  have hb : bits = 8 ∨ bits = 16 ∨ bits = 32 ∨ bits = 64 := hb
  have hpw : (2 : Nat) ^ bits = 2 * 2 ^ (bits - 1) := by
    rcases hb with rfl | rfl | rfl | rfl <;> decide
  simp only [IntTy.InRange, if_true] at hv
  have hpi : (2 : Int) ^ (bits - 1) = ((2 ^ (bits - 1) : Nat) : Int) := by norm_cast
  rw [hpi] at hv
  unfold IsNumeral at hx
  split at hx
  · obtain ⟨ds, rfl, h1, h2⟩ := hx
    refine ⟨true, ds, rfl, h1, by omega, ?_⟩
    simp only [if_true]
    rw [toSigned_neg hb (by omega), h2]
    simp
  · refine ⟨false, txt, rfl, hx.1, by omega, ?_⟩
    simp only [Bool.false_eq_true, if_false]
    rw [toSigned_pos hb (by omega), hx.2]

/-- The digits of an unsigned number. -/
theorem unsigned_parts {bits : Nat} {v : Int} (hv : (⟨bits, false⟩ : IntTy).InRange v) {txt : Bytes} (hx : IsNumeral txt v) :
    IsInt txt ∧ decVal txt < 2 ^ bits ∧ (decVal txt : Int) = v := by
  simp only [IntTy.InRange, Bool.false_eq_true, if_false] at hv
  have hpi : (2 : Int) ^ bits = ((2 ^ bits : Nat) : Int) := by norm_cast
  rw [hpi] at hv
  unfold IsNumeral at hx
  rw [if_neg (by omega)] at hx
  exact ⟨hx.1, by omega, hx.2⟩

theorem skipQuote_quote (cfg : Cfg) (al : Bool) (c : Bytes) : skipQuote cfg al (chQuote :: c) = .ok c := by
  cases al <;> cases h : cfg.checked <;> simp [skipQuote, h, headIs]

theorem skipQuote_other (cfg : Cfg) {x : UInt8} (hx : x ≠ chQuote) (c : Bytes) : skipQuote cfg false (x :: c) = .ok (x :: c) := by
  cases h : cfg.checked <;> simp [skipQuote, h, hx]

theorem eatBool_text (cfg : Cfg) (b : Bool) (c : Bytes) : eatBool cfg ((if b then txtTrue else txtFalse) ++ c) = .ok (b, c) := by
  cases h : cfg.checked <;> cases b <;> simp [eatBool, h, List.isPrefixOf]

theorem litText_head {l : LitTy} {txt : Bytes} {x : Lit} (h : LitText l txt x) : ∃ c cs, txt = c :: cs ∧ c ≠ chQuote := by
  cases h with
  | tru => exact ⟨_, _, rfl, by decide⟩
  | fls => exact ⟨_, _, rfl, by decide⟩
  | @int t rc txt i ht hv hx =>
    have hd : ∀ ds : Bytes, IsInt ds → ∃ c cs, ds = c :: cs ∧ c ≠ chQuote := by
      intro ds hd
      obtain ⟨y, ds', rfl, hy⟩ := isDigits_head (isInt_digits hd)
      exact ⟨y, ds', rfl, by rintro rfl; revert hy; unfold IsDig; decide⟩
    unfold IsNumeral at hx
    split at hx
    · obtain ⟨ds, rfl, -⟩ := hx
      exact ⟨_, _, rfl, by decide⟩
    · exact hd _ hx.1

theorem validate_parts (cfg : Cfg) {neg : Bool} {ds c : Bytes} (hd : IsInt ds) (hc : NoDig c) :
    validateSignedFirst cfg ((if neg then [0x2D] else []) ++ ds ++ c) = .ok ((if neg then -1 else 1), ds ++ c) := by
  cases neg with
  | true => exact validateSignedFirst_minus cfg (ds ++ c)
  | false => exact validateSignedFirst_digits cfg ds c hd hc

/-- The text of the literal, with whatever is around it skipped. -/
theorem parseLit_gen {cfg : Cfg} {al : Bool} {l : LitTy} {txt : Bytes} {x : Lit} (h : LitText l txt x) {s c c' c'' : Bytes}
    (hs : skipQuote cfg al s = .ok (txt ++ c)) (hc : NoDig c) (hq : skipQuote cfg al c = .ok c') (htm : trim cfg c' = .ok c'')
    (htr : TrimEq c'' c') (he : endOfItem c' = true ∧ endOfItem c'' = true) (hne : ∀ bits rc, l = .int ⟨bits, false⟩ rc → c' ≠ []) :
    ∃ r, parseLit cfg al l s = .ok (x, r) ∧ TrimEq r c' := by
  have hbool : ∀ b : Bool, skipQuote cfg al s = .ok ((if b then txtTrue else txtFalse) ++ c) →
      parseBoolQ cfg al s = .ok (b, c'') := by
    intro b hs
    unfold parseBoolQ
    simp only [hs, Res.ok_bind, eatBool_text, hq, htm, he.2, assertWeak_tt]
  cases h with
  | tru => exact ⟨_, by simp only [parseLit, hbool true hs, Res.ok_bind], htr⟩
  | fls => exact ⟨_, by simp only [parseLit, hbool false hs, Res.ok_bind], htr⟩
  | @int t rc txt i ht hv hx =>
    obtain ⟨bits, sg⟩ := t
    cases sg with
    | true =>
      obtain ⟨neg, ds, rfl, h1, h2, h3⟩ := signed_parts ht hv hx
      refine ⟨c'', ?_, htr⟩
      have : parseSignedQ cfg al bits rc s = .ok (i, c'') := by
        unfold parseSignedQ
        simp only [hs, Res.ok_bind, validate_parts cfg h1 hc, unsignedNotKnown_fits cfg ht rc h1 hc h2, hq, htm, he.2,
          assertWeak_tt, h3]
      simp only [parseLit, if_true, this, Res.ok_bind]
    | false =>
      obtain ⟨h1, h2, h3⟩ := unsigned_parts hv hx
      refine ⟨c', ?_, TrimEq.refl c'⟩
      obtain ⟨y, ys, hy⟩ := isDigits_head (isInt_digits h1)
      have e1 : assertWeak cfg.checked (!(txt ++ c).isEmpty) .unexpectedEndOfData = .ok () := by
        rw [hy.1]; cases cfg.checked <;> rfl
      have e2 : (whenChecked cfg do
          let c ← deref (txt ++ c)
          ensure (isDigit c) .invalidNumber) = .ok () := by
        rw [hy.1]
        unfold whenChecked
        cases cfg.checked <;> simp [(isDigit_iff y).2 hy.2]
      have e3 : assertWeak cfg.checked (!c'.isEmpty) .unexpectedEndOfData = .ok () := by
        cases c' with
        | nil => exact absurd rfl (hne bits rc rfl)
        | cons => cases cfg.checked <;> rfl
      have : parseUnsignedQ cfg al bits rc s = .ok (i, c') := by
        unfold parseUnsignedQ
        simp only [hs, Res.ok_bind, e1, e2, unsignedNotKnown_fits cfg ht rc h1 hc h2, hq, e3, he.1, assertWeak_tt, h3]
      simp only [parseLit, Bool.false_eq_true, if_false, this, Res.ok_bind]

theorem parseLit_around {cfg : Cfg} {al : Bool} {l : LitTy} {txt : Bytes} {x : Lit} (h : LitText l txt x) {s c c' : Bytes}
    (hs : skipQuote cfg al s = .ok (txt ++ c)) (hc : NoDig c) (hq : skipQuote cfg al c = .ok c') (ha : AfterValue c')
    (hr : Room' cfg c') (hne : ∀ bits rc, l = .int ⟨bits, false⟩ rc → c' ≠ []) : ∃ r, parseLit cfg al l s = .ok (x, r) ∧ TrimEq r c' :=
  parseLit_gen h hs hc hq (trim_after ha hr) (dropWs_trimEq c') (endOfItem_after ha) hne

theorem noDig_quote (c : Bytes) : NoDig (chQuote :: c) := by
  intro x hx
  simp at hx
  subst hx
  simp [IsDig]

/-- A literal in quotes, an unsigned number with something behind it. -/
theorem parseLit_quoted' {cfg : Cfg} (al : Bool) {l : LitTy} {b : Bytes} {x : Lit} (h : LitText l b x) {k : Bytes} (ha : AfterValue k)
    (hr : Room' cfg k) (hne : ∀ bits rc, l = .int ⟨bits, false⟩ rc → k ≠ []) :
    ∃ r, parseLit cfg al l (chQuote :: (b ++ chQuote :: k)) = .ok (x, r) ∧ TrimEq r k :=
  parseLit_around h (skipQuote_quote cfg al _) (noDig_quote k) (skipQuote_quote cfg al k) ha hr hne

/-- A literal in quotes. -/
theorem parseLit_quoted {cfg : Cfg} (al : Bool) {l : LitTy} {b : Bytes} {x : Lit} (h : LitText l b x) {k : Bytes} (ha : AfterValue k)
    (hr : Room' cfg k) (hne : k ≠ []) : ∃ r, parseLit cfg al l (chQuote :: (b ++ chQuote :: k)) = .ok (x, r) ∧ TrimEq r k :=
  parseLit_quoted' al h ha hr fun _ _ _ => hne

theorem afterValue_head {y : UInt8} {k : Bytes} (h : AfterValue (y :: k)) : y ≠ chQuote := by
  obtain ⟨w, t, hw, e, ht⟩ := h
  cases w with
  | nil =>
    rcases ht with rfl | ⟨z, t', rfl, hz⟩
    · simp at e
    · simp at e
      rw [e.1]
      rcases hz with rfl | rfl | rfl <;> decide
  | cons z w =>
    have hz := hw z (by simp)
    simp at e
    rw [e.1]
    unfold isWsByte at hz
    rcases hz with rfl | rfl | rfl | rfl <;> decide

/-- A literal without quotes, if there may be none. -/
theorem parseLit_bare {cfg : Cfg} {l : LitTy} {b : Bytes} {x : Lit} (h : LitText l b x) {k : Bytes} (ha : AfterValue k)
    (hr : Room' cfg k) (hne : k ≠ []) : ∃ r, parseLit cfg false l (b ++ k) = .ok (x, r) ∧ TrimEq r k := by
  obtain ⟨c, cs, rfl, hc⟩ := litText_head h
  refine parseLit_around h (skipQuote_other cfg hc (cs ++ k)) (noDig_after ha) ?_ ha hr fun _ _ _ => hne
  cases k with
  | nil => exact absurd rfl hne
  | cons y k => exact skipQuote_other cfg (afterValue_head ha) k

/-- What goes wrong at the closing quote. -/
theorem parseLit_close_err {cfg : Cfg} {al : Bool} {l : LitTy} {txt : Bytes} {x : Lit} (h : LitText l txt x) {s c : Bytes} {e : Err}
    (hs : skipQuote cfg al s = .ok (txt ++ c)) (hc : NoDig c) (hq : skipQuote cfg al c = .err e) : parseLit cfg al l s = .err e := by
  have hbool : ∀ b : Bool, skipQuote cfg al s = .ok ((if b then txtTrue else txtFalse) ++ c) → parseBoolQ cfg al s = .err e := by
    intro b hs
    unfold parseBoolQ
    simp only [hs, Res.ok_bind, eatBool_text, hq, Res.err_bind]
  cases h with
  | tru => simp only [parseLit, hbool true hs, Res.err_bind]
  | fls => simp only [parseLit, hbool false hs, Res.err_bind]
  | @int t rc txt i ht hv hx =>
    obtain ⟨bits, sg⟩ := t
    cases sg with
    | true =>
      obtain ⟨neg, ds, rfl, h1, h2, h3⟩ := signed_parts ht hv hx
      have : parseSignedQ cfg al bits rc s = .err e := by
        unfold parseSignedQ
        simp only [hs, Res.ok_bind, validate_parts cfg h1 hc, unsignedNotKnown_fits cfg ht rc h1 hc h2, hq, Res.err_bind]
      simp only [parseLit, if_true, this, Res.err_bind]
    | false =>
      obtain ⟨h1, h2, h3⟩ := unsigned_parts hv hx
      obtain ⟨y, ys, hy⟩ := isDigits_head (isInt_digits h1)
      have e1 : assertWeak cfg.checked (!(txt ++ c).isEmpty) .unexpectedEndOfData = .ok () := by
        rw [hy.1]; cases cfg.checked <;> rfl
      have e2 : (whenChecked cfg do
          let c ← deref (txt ++ c)
          ensure (isDigit c) .invalidNumber) = .ok () := by
        rw [hy.1]
        unfold whenChecked
        cases cfg.checked <;> simp [(isDigit_iff y).2 hy.2]
      have : parseUnsignedQ cfg al bits rc s = .err e := by
        unfold parseUnsignedQ
        simp only [hs, Res.ok_bind, e1, e2, unsignedNotKnown_fits cfg ht rc h1 hc h2, hq, Res.err_bind]
      simp only [parseLit, Bool.false_eq_true, if_false, this, Res.err_bind]

/-- From a range: the quotes are not part of it. -/
theorem parseLitKnown_sem {cfg : Cfg} {l : LitTy} {txt : Bytes} {x : Lit} (h : LitText l txt x) {r : Range} (ht : r.text = txt)
    (hf : cfg.checked = true ∨ x = .bool true ∧ r.counter ≠ 0 ∨ x = .bool false ∧ r.counter = 0 ∨ ∃ i, x = .int i) :
    parseLitKnown cfg l r = .ok x := by
  have hb : ∀ b : Bool, r.text = (if b then txtTrue else txtFalse) → (cfg.checked = true ∨ decide (r.counter ≠ 0) = b) →
      parseBoolKnown (cfg.inside r) r = .ok b := by
    intro b ht hf
    have hck : (cfg.inside r).checked = cfg.checked := by unfold Cfg.inside; split <;> rfl
    unfold parseBoolKnown
    rw [hck]
    cases hc : cfg.checked with
    | true => cases b <;> simp [ht]
    | false =>
      rw [hc] at hf
      simpa using hf
  cases h with
  | tru =>
    have : parseBoolKnown (cfg.inside r) r = .ok true := hb true ht (by
      rcases hf with h | ⟨-, h⟩ | ⟨h, -⟩ | ⟨i, h⟩
      · exact Or.inl h
      · exact Or.inr (by simpa using h)
      · cases h
      · cases h)
    simp only [parseLitKnown, this, Res.ok_bind]
  | fls =>
    have : parseBoolKnown (cfg.inside r) r = .ok false := hb false ht (by
      rcases hf with h | ⟨h, -⟩ | ⟨-, h⟩ | ⟨i, h⟩
      · exact Or.inl h
      · cases h
      · exact Or.inr (by simpa using h)
      · cases h)
    simp only [parseLitKnown, this, Res.ok_bind]
  | @int t rc txt i ht' hv hx =>
    simp only [parseLitKnown, ht, parseIntKnown_numeral _ t ht' i hv rc txt hx, Res.ok_bind]

end Verif
