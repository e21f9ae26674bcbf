import Verif.Proof.ZeroTermInt
import Verif.Proof.Literal

/-!
# Zero terminated documents: booleans and integers that are or may be strings
-/

namespace Verif

open Spec

theorem skipQuoteZ_quote (al : Bool) {k : Nat} {c : Bytes} (hk : k ≤ c.length) : skipQuoteZ al k (chQuote :: c) = .ok c := by
  cases al <;> simp [skipQuoteZ, atZ, moreZ_cons hk, frontZ]

theorem skipQuoteZ_other {x : UInt8} (hx : x ≠ chQuote) {k : Nat} {c : Bytes} (hk : k ≤ c.length) :
    skipQuoteZ false k (x :: c) = .ok (x :: c) := by
  simp [skipQuoteZ, moreZ_cons hk, frontZ, hx]

theorem eatBoolZ_text (b : Bool) {k : Nat} {c : Bytes} (hk : k ≤ c.length) :
    eatBoolZ k ((if b then txtTrue else txtFalse) ++ c) = .ok (b, c) := by
  unfold eatBoolZ
  rw [beforeZ_append _ _ hk]
  cases b <;> simp [List.isPrefixOf]

theorem unsignedNotKnownZ_fits {bits : Nat} (hb : bits = 8 ∨ bits = 16 ∨ bits = 32 ∨ bits = 64) (rc : Bool) {ds c : Bytes}
    (hd : IsInt ds) (hc : NoDig c) (hlt : decVal ds < 2 ^ bits) {k : Nat} (hk : k ≤ c.length) :
    unsignedNotKnownZ bits rc k (ds ++ c) = .ok (decVal ds, c) := by
  rw [unsignedNotKnownZ_digits {} bits rc ds c (isDigits_of_isInt hd) hc hk, unsignedNotKnown_fits {} hb rc hd hc hlt]

theorem validatePartsZ {neg : Bool} {ds c : Bytes} (hd : IsInt ds) (hc : NoDig c) {k : Nat} (hk : k ≤ c.length) :
    validateSignedFirstZ k ((if neg then [0x2D] else []) ++ ds ++ c) = .ok ((if neg then -1 else 1), ds ++ c) := by
  cases neg with
  | true => exact validateSignedFirstZ_minus (ds ++ c) (by rw [List.length_append]; omega)
  | false => exact validateSignedFirstZ_digits ds c hd hc hk

/-- The text of the literal, with whatever is around it skipped. -/
theorem parseLitZ_around {al : Bool} {l : LitTy} {txt : Bytes} {x : Lit} (h : LitText l txt x) {s c c' : Bytes} {k : Nat}
    (hs : skipQuoteZ al k s = .ok (txt ++ c)) (hc : NoDig c) (hk : k ≤ c.length) (hq : skipQuoteZ al k c = .ok c') (ha : AfterValue c') :
    ∃ r, parseLitZ al l k s = .ok (x, r) ∧ TrimEq r c' := by
  have htr := dropWs_trimEq c'
  have he := endOfItem_after ha
  have ht := trimChecked_after ha
  have hbool : ∀ b : Bool, skipQuoteZ al k s = .ok ((if b then txtTrue else txtFalse) ++ c) →
      parseBoolQZ al k s = .ok (b, dropWs c') := by
    intro b hs
    unfold parseBoolQZ
    simp only [hs, Res.ok_bind, eatBoolZ_text b hk, hq, ht, endOfItemZ_of he.2, ensure_true]
  cases h with
  | tru => exact ⟨_, by simp only [parseLitZ, hbool true hs, Res.ok_bind], htr⟩
  | fls => exact ⟨_, by simp only [parseLitZ, hbool false hs, Res.ok_bind], htr⟩
  | @int t rc txt i hv' hv hx =>
    obtain ⟨bits, sg⟩ := t
    cases sg with
    | true =>
      obtain ⟨neg, ds, rfl, h1, h2, h3⟩ := signed_parts hv' hv hx
      refine ⟨dropWs c', ?_, htr⟩
      have : parseSignedQZ al bits rc k s = .ok (i, dropWs c') := by
        unfold parseSignedQZ
        simp only [hs, Res.ok_bind, validatePartsZ h1 hc hk, unsignedNotKnownZ_fits hv' rc h1 hc h2 hk, hq, ht, endOfItemZ_of he.2,
          ensure_true, h3]
      simp only [parseLitZ, if_true, this, Res.ok_bind]
    | false =>
      obtain ⟨h1, h2, h3⟩ := unsigned_parts hv hx
      refine ⟨c', ?_, TrimEq.refl c'⟩
      obtain ⟨y, ys, hy⟩ := isDigits_head (isInt_digits h1)
      have e1 : isDigit (frontZ (txt ++ c)) = true := by
        rw [hy.1]
        exact (isDigit_iff y).2 hy.2
      have : parseUnsignedQZ al bits rc k s = .ok (i, c') := by
        unfold parseUnsignedQZ
        simp only [hs, Res.ok_bind, e1, unsignedNotKnownZ_fits hv' rc h1 hc h2 hk, hq, endOfItemZ_of he.1, ensure_true, h3]
      simp only [parseLitZ, Bool.false_eq_true, if_false, this, Res.ok_bind]

/-- A literal in quotes: it may be the last thing in the document. -/
theorem parseLitZ_quoted (al : Bool) {l : LitTy} {b : Bytes} {x : Lit} (h : LitText l b x) {q : Bytes} (ha : AfterValue q) {k : Nat}
    (hk : k ≤ q.length) : ∃ r, parseLitZ al l k (chQuote :: (b ++ chQuote :: q)) = .ok (x, r) ∧ TrimEq r q :=
  parseLitZ_around h (skipQuoteZ_quote al (by rw [List.length_append, List.length_cons]; omega)) (noDig_quote q)
    (by rw [List.length_cons]; omega) (skipQuoteZ_quote al hk) ha

/-- A literal without quotes, if there may be none: something must follow it. -/
theorem parseLitZ_bare {l : LitTy} {b : Bytes} {x : Lit} (h : LitText l b x) {q : Bytes} (ha : AfterValue q) {k : Nat}
    (hk : k < q.length) : ∃ r, parseLitZ false l k (b ++ q) = .ok (x, r) ∧ TrimEq r q := by
  obtain ⟨c, cs, rfl, hc⟩ := litText_head h
  refine parseLitZ_around h (skipQuoteZ_other hc (c := cs ++ q) (by rw [List.length_append]; omega)) (noDig_after ha) hk.le ?_ ha
  cases q with
  | nil => simp at hk
  | cons y q => exact skipQuoteZ_other (afterValue_head ha) (by simpa using Nat.lt_succ_iff.1 hk)

/-- What goes wrong at the closing quote. -/
theorem parseLitZ_close_err {al : Bool} {l : LitTy} {txt : Bytes} {x : Lit} (h : LitText l txt x) {s c : Bytes} {k : Nat} {e : Err}
    (hs : skipQuoteZ al k s = .ok (txt ++ c)) (hc : NoDig c) (hk : k ≤ c.length) (hq : skipQuoteZ al k c = .err e) :
    parseLitZ al l k s = .err e := by
  have hbool : ∀ b : Bool, skipQuoteZ al k s = .ok ((if b then txtTrue else txtFalse) ++ c) → parseBoolQZ al k s = .err e := by
    intro b hs
    unfold parseBoolQZ
    simp only [hs, Res.ok_bind, eatBoolZ_text b hk, hq, Res.err_bind]
  cases h with
  | tru => simp only [parseLitZ, hbool true hs, Res.err_bind]
  | fls => simp only [parseLitZ, hbool false hs, Res.err_bind]
  | @int t rc txt i hv' hv hx =>
    obtain ⟨bits, sg⟩ := t
    cases sg with
    | true =>
      obtain ⟨neg, ds, rfl, h1, h2, h3⟩ := signed_parts hv' hv hx
      have : parseSignedQZ al bits rc k s = .err e := by
        unfold parseSignedQZ
        simp only [hs, Res.ok_bind, validatePartsZ h1 hc hk, unsignedNotKnownZ_fits hv' rc h1 hc h2 hk, hq, Res.err_bind]
      simp only [parseLitZ, if_true, this, Res.err_bind]
    | false =>
      obtain ⟨h1, h2, h3⟩ := unsigned_parts hv hx
      obtain ⟨y, ys, hy⟩ := isDigits_head (isInt_digits h1)
      have e1 : isDigit (frontZ (txt ++ c)) = true := by
        rw [hy.1]
        exact (isDigit_iff y).2 hy.2
      have : parseUnsignedQZ al bits rc k s = .err e := by
        unfold parseUnsignedQZ
        simp only [hs, Res.ok_bind, e1, unsignedNotKnownZ_fits hv' rc h1 hc h2 hk, hq, ensure_true, Res.err_bind]
      simp only [parseLitZ, Bool.false_eq_true, if_false, this, Res.err_bind]

/-- From a range: the quotes are not part of it. -/
theorem parseLitKnownZ_sem {l : LitTy} {txt : Bytes} {x : Lit} (h : LitText l txt x) {r : ZRange} {aft : Bytes} (hs : r.s = txt ++ aft)
    (hk : r.k = aft.length) (hn : NoDig aft) : parseLitKnownZ l r = .ok x := by
  cases h with
  | tru => simp [parseLitKnownZ, hs, parseBoolKnownZ, frontZ]
  | fls => simp [parseLitKnownZ, hs, parseBoolKnownZ, frontZ]
  | @int t rc txt i hv' hv hx =>
    simp only [parseLitKnownZ, hs, hk, parseIntKnownZ_numeral t hv' i hv rc txt aft hx hn, Res.ok_bind]

end Verif
