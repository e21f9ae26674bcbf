import Verif.Proof.ZeroTermBasic

/-!
# Zero terminated documents: integers
-/

namespace Verif

open Spec

theorem notKnownValZ_digits {k : Nat} (ds rest : Bytes) (hd : ∀ c ∈ ds, IsDig c) (hr : NoDig rest)
    (hk : k ≤ rest.length) : notKnownValZ k (ds ++ rest) = (decVal ds % 2 ^ 64, rest) := by
  unfold notKnownValZ
  rw [beforeZ_append _ _ hk, behindZ_append _ _ hk]
  obtain ⟨r', ds', he, i1, i2, i3, i4, i5⟩ := notKnown16_spec (beforeZ k rest) (NoDig_before hr k) ds 0 (by decide) hd
  rw [i1]
  dsimp only
  have h0 : decFrom 0 ds = decVal ds := rfl
  rw [← h0, ← i4, List.append_assoc, before_behind]
  split
  · rename_i hh
    have hl := i5 hh
    rw [List.drop_append_of_le_length hl]
    have ht : (ds' ++ beforeZ k rest).take 8 = ds'.take 8 := List.take_append_of_le_length hl
    have hp := parse8_digits (ds' ++ beforeZ k rest) (by rw [List.length_append]; omega)
      (by rw [ht]; exact fun c hc => i3 c (List.mem_of_mem_take hc))
    rw [hp, ht, notKnown1_spec rest hr _ _ (mulAdd64_lt _ _ _) (fun c hc => i3 c (List.mem_of_mem_drop hc))]
    have hb : decFrom r' ds' = decFrom (decFrom r' (ds'.take 8)) (ds'.drop 8) := by
      rw [← decFrom_append, List.take_append_drop]
    rw [hb]
    congr 1
    apply decFrom_congr
    rw [mulAdd64_eq, decFrom_eq (ds'.take 8)]
    have : (ds'.take 8).length = 8 := by rw [List.length_take]; omega
    rw [this]
  · exact notKnown1_spec rest hr ds' r' i2 i3

theorem unsignedNotKnownZ_digits (cfg : Cfg) (bits : Nat) (rc : Bool) {k : Nat} (ds rest : Bytes) (hd : IsDigits ds)
    (hr : NoDig rest) (hk : k ≤ rest.length) :
    unsignedNotKnownZ bits rc k (ds ++ rest) = unsignedNotKnown cfg bits rc (ds ++ rest) := by
  unfold unsignedNotKnownZ unsignedNotKnown
  have hne : (ds ++ rest).isEmpty = false := by
    cases ds with
    | nil => exact absurd rfl hd.1
    | cons c cs => rfl
  have h1 : assertWeak cfg.checked (!(ds ++ rest).isEmpty) .unexpectedEndOfData = .ok () := by
    rw [hne]; cases cfg.checked <;> rfl
  rw [h1, moreZ_append hk hd.1, ensure_true, Res.ok_bind, Res.ok_bind, notKnownVal_digits ds rest hd.2 hr,
    notKnownValZ_digits ds rest hd.2 hr hk]

theorem knownValZ_digits (ds aft : Bytes) (hd : ∀ c ∈ ds, IsDig c) (hr : NoDig aft) :
    knownValZ aft.length (ds ++ aft) = decVal ds % 2 ^ 64 := by
  unfold knownValZ
  rw [beforeZ_self, behindZ_self]
  obtain ⟨h1, h2⟩ := known16_spec ds 0 hd
  have h3 := known16_lt ds 0 (by decide)
  obtain ⟨⟨r, b⟩, hrb⟩ : ∃ p, known16 0 ds = p := ⟨_, rfl⟩
  rw [hrb] at h1 h2 h3 ⊢
  dsimp only at *
  have h0 : decFrom 0 ds = decVal ds := rfl
  rw [← h0, ← h2]
  split
  · rename_i hl
    rw [List.drop_append_of_le_length hl,
      notKnown1_spec aft hr _ _ (mulAdd64_lt _ _ _) (fun c hc => h1 c (List.mem_of_mem_drop hc))]
    have hb : decFrom r b = decFrom (decFrom r (b.take 8)) (b.drop 8) := by
      rw [← decFrom_append, List.take_append_drop]
    rw [hb]
    apply decFrom_congr
    rw [mulAdd64_eq, parse8_digits b hl (fun c hc => h1 c (List.mem_of_mem_take hc)), decFrom_eq (b.take 8)]
    have : (b.take 8).length = 8 := by rw [List.length_take]; omega
    rw [this]
  · rw [notKnown1_spec aft hr b r h3 h1]

theorem unsignedKnownZ_digits (bits : Nat) (rc : Bool) (ds aft : Bytes) (hd : ∀ c ∈ ds, IsDig c) (hr : NoDig aft) :
    unsignedKnownZ bits rc aft.length (ds ++ aft) = unsignedKnown bits rc ds := by
  unfold unsignedKnownZ unsignedKnown
  rw [knownValZ_digits ds aft hd hr, knownVal_digits ds hd]

theorem endOfItemZ_of {k : Nat} {s : Bytes} (h : endOfItem s = true) : endOfItemZ k s = true := by
  unfold endOfItemZ
  cases s with
  | nil => simp [moreZ]
  | cons c t => rw [frontZ_cons]; rw [show atEndOfItem c = true from h]; simp

theorem validateSignedFirstZ_minus {k : Nat} (b : Bytes) (hk : k ≤ b.length) :
    validateSignedFirstZ k (chMinus :: b) = .ok (-1, b) := by
  unfold validateSignedFirstZ
  rw [moreZ_cons hk]
  rfl

theorem isDigit_frontZ {c : Bytes} (hc : NoDig c) : isDigit (frontZ c) = false := by
  cases c with
  | nil => rfl
  | cons y t =>
    have hy := hc y rfl
    rw [← isDigit_iff] at hy
    simpa [frontZ_cons] using hy

theorem validateSignedFirstZ_digits {k : Nat} (ds c : Bytes) (hd : IsInt ds) (hc : NoDig c) (hk : k ≤ c.length) :
    validateSignedFirstZ k (ds ++ c) = .ok (1, ds ++ c) := by
  unfold validateSignedFirstZ
  have hdig := isDigits_of_isInt hd
  rw [moreZ_append hk hdig.1, ensure_true, Res.ok_bind]
  cases ds with
  | nil => exact absurd rfl hdig.1
  | cons x xs =>
    have hx := hdig.2 x (by simp)
    have hx' := (isDigit_iff x).2 hx
    have hm : x ≠ chMinus := (dig_ne hx).2.1
    have hf : frontZ (x :: xs ++ c) = x := rfl
    rw [hf, if_neg hm]
    by_cases h0 : x = ch0
    · have hxs : xs = [] := by
        subst h0
        rcases hd with h | h
        · simpa using h
        · exact absurd rfl h.2
      subst hxs
      rw [if_neg (by simp [h0]), if_pos h0]
      have ht : ([x] ++ c).tail = c := rfl
      rw [ht, isDigit_frontZ hc]
      simp
    · rw [if_pos ⟨h0, hx'⟩]

theorem parseSignedZ_eq (cfg : Cfg) (hck : cfg.checked = true) (bits : Nat) (rc neg : Bool) {k : Nat} (ds c : Bytes)
    (hd : IsInt ds) (hc : AfterValue c) (hk : k ≤ c.length) :
    parseSignedZ bits rc k ((if neg then 0x2D :: ds else ds) ++ c)
      = parseSigned cfg bits rc ((if neg then 0x2D :: ds else ds) ++ c) := by
  rw [parseSigned_digits cfg bits rc neg ds c hd hc (fun h => by simp [hck] at h)]
  have hdig := isDigits_of_isInt hd
  have h2 : validateSignedFirstZ k ((if neg then 0x2D :: ds else ds) ++ c)
      = .ok ((if neg then -1 else 1), ds ++ c) := by
    cases neg with
    | true => exact validateSignedFirstZ_minus (ds ++ c) (by rw [List.length_append]; omega)
    | false => exact validateSignedFirstZ_digits ds c hd (noDig_after hc) hk
  unfold parseSignedZ
  rw [h2, Res.ok_bind]
  dsimp only
  rw [unsignedNotKnownZ_digits cfg bits rc ds c hdig (noDig_after hc) hk,
    unsignedNotKnown_digits cfg bits rc ds c hdig (noDig_after hc)]
  have ht := trimChecked_after hc
  have he := endOfItemZ_of (k := k) (endOfItem_after hc).2
  cases rc with
  | false =>
    simp only [Bool.false_eq_true, if_false, Res.ok_bind, ht, he, ensure_true]
    simp [Res.bind]
  | true =>
    simp only [if_true]
    split
    · simp only [Res.ok_bind, ht, he, ensure_true]
      simp [Res.bind]
    · rfl

theorem parseUnsignedZ_eq (cfg : Cfg) (bits : Nat) (rc : Bool) {k : Nat} (ds c : Bytes)
    (hd : IsInt ds) (hc : AfterValue c) (hk : k ≤ c.length) :
    parseUnsignedZ bits rc k (ds ++ c) = parseUnsigned cfg bits rc (ds ++ c) := by
  rw [parseUnsigned_digits cfg bits rc ds c hd (noDig_after hc) (endOfItem_after hc).1]
  have hdig := isDigits_of_isInt hd
  have h2 : isDigit (frontZ (ds ++ c)) = true := by
    cases ds with
    | nil => exact absurd rfl hdig.1
    | cons x xs => exact (isDigit_iff x).2 (hdig.2 x (by simp))
  unfold parseUnsignedZ
  rw [h2, ensure_true, Res.ok_bind, unsignedNotKnownZ_digits cfg bits rc ds c hdig (noDig_after hc) hk,
    unsignedNotKnown_digits cfg bits rc ds c hdig (noDig_after hc)]
  have he := endOfItemZ_of (k := k) (endOfItem_after hc).1
  cases rc with
  | false =>
    simp only [Bool.false_eq_true, if_false, Res.ok_bind, he, ensure_true]
    simp [Res.bind]
  | true =>
    simp only [if_true]
    split
    · simp only [Res.ok_bind, he, ensure_true]
      simp [Res.bind]
    · rfl

/-- Parsing the numeral of a value in range gives that value. -/
theorem parseIntZ_numeral (t : IntTy) (ht : t.Valid) (v : Int) (hv : t.InRange v) (rc : Bool) (txt : Bytes)
    (hx : IsNumeral txt v) (c : Bytes) (hc : AfterValue c) {k : Nat} (hk : k ≤ c.length) :
    parseIntZ t rc k (txt ++ c) = .ok (v, if t.signed then dropWs c else c) := by
  rw [← parseInt_numeral {} t ht v hv rc txt hx c hc (fun h => by simp at h)]
  unfold parseIntZ parseInt
  cases hs : t.signed with
  | true =>
    simp only [if_true]
    unfold IsNumeral at hx
    split at hx
    · obtain ⟨ds, rfl, h1, -⟩ := hx
      exact parseSignedZ_eq {} rfl t.bits rc true ds c h1 hc hk
    · exact parseSignedZ_eq {} rfl t.bits rc false txt c hx.1 hc hk
  | false =>
    simp only [Bool.false_eq_true, if_false]
    unfold IsNumeral at hx
    rw [if_neg (by simp [IntTy.InRange, hs] at hv; omega)] at hx
    exact parseUnsignedZ_eq {} t.bits rc txt c hx.1 hc hk

theorem parseSignedKnownZ_eq (cfg : Cfg) (bits : Nat) (rc neg : Bool) (ds aft : Bytes) (hd : IsInt ds)
    (hr : NoDig aft) :
    parseSignedKnownZ bits rc aft.length ((if neg then 0x2D :: ds else ds) ++ aft)
      = parseSignedKnown cfg bits rc (if neg then 0x2D :: ds else ds) := by
  rw [parseSignedKnown_digits cfg bits rc neg ds hd]
  have hdig := isDigits_of_isInt hd
  unfold parseSignedKnownZ
  have h1 : (frontZ ((if neg then 0x2D :: ds else ds) ++ aft) == chMinus
      || isDigit (frontZ ((if neg then 0x2D :: ds else ds) ++ aft))) = true := by
    cases neg with
    | true => rfl
    | false =>
      cases ds with
      | nil => exact absurd rfl hdig.1
      | cons x xs =>
        have := (isDigit_iff x).2 (hdig.2 x (by simp))
        simp [frontZ, this]
  have h2 : validateSignedFirstZ aft.length ((if neg then 0x2D :: ds else ds) ++ aft)
      = .ok ((if neg then -1 else 1), ds ++ aft) := by
    cases neg with
    | true => exact validateSignedFirstZ_minus (ds ++ aft) (by rw [List.length_append]; omega)
    | false => exact validateSignedFirstZ_digits ds aft hd hr (Nat.le_refl _)
  rw [h1, ensure_true, Res.ok_bind, h2, Res.ok_bind]
  dsimp only
  rw [unsignedKnownZ_digits bits rc ds aft hdig.2 hr]
  rfl

theorem parseUnsignedKnownZ_eq (cfg : Cfg) (bits : Nat) (rc : Bool) (ds aft : Bytes) (hd : IsInt ds)
    (hr : NoDig aft) : parseUnsignedKnownZ bits rc aft.length (ds ++ aft) = parseUnsignedKnown cfg bits rc ds := by
  rw [parseUnsignedKnown_digits cfg bits rc ds hd]
  have hdig := isDigits_of_isInt hd
  have h1 : validateUnsignedFirstZ aft.length (ds ++ aft) = .ok () := by
    unfold validateUnsignedFirstZ
    cases ds with
    | nil => exact absurd rfl hdig.1
    | cons x xs =>
      have hx' := (isDigit_iff x).2 (hdig.2 x (by simp))
      have hf : frontZ (x :: xs ++ aft) = x := rfl
      rw [hf]
      by_cases h0 : x = ch0
      · have hxs : xs = [] := by
          subst h0
          rcases hd with h | h
          · simpa using h
          · exact absurd rfl h.2
        subst hxs
        have ht : ([x] ++ aft).tail = aft := rfl
        have hm : moreZ aft.length aft = false := by simp [moreZ]
        rw [if_pos h0, ht, hm]
        rfl
      · rw [if_neg h0, hx']; rfl
  unfold parseUnsignedKnownZ
  rw [h1, Res.ok_bind, unsignedKnownZ_digits bits rc ds aft hdig.2 hr]
  rfl

/-- Parsing the exact range of a numeral of a value in range gives that value. -/
theorem parseIntKnownZ_numeral (t : IntTy) (ht : t.Valid) (v : Int) (hv : t.InRange v) (rc : Bool) (txt aft : Bytes)
    (hx : IsNumeral txt v) (hr : NoDig aft) : parseIntKnownZ t rc aft.length (txt ++ aft) = .ok v := by
  rw [← parseIntKnown_numeral {} t ht v hv rc txt hx]
  unfold parseIntKnownZ parseIntKnown
  cases hs : t.signed with
  | true =>
    simp only [if_true]
    unfold IsNumeral at hx
    split at hx
    · obtain ⟨ds, rfl, h1, -⟩ := hx
      exact parseSignedKnownZ_eq {} t.bits rc true ds aft h1 hr
    · exact parseSignedKnownZ_eq {} t.bits rc false txt aft hx.1 hr
  | false =>
    simp only [Bool.false_eq_true, if_false]
    unfold IsNumeral at hx
    rw [if_neg (by simp [IntTy.InRange, hs] at hv; omega)] at hx
    exact parseUnsignedKnownZ_eq {} t.bits rc txt aft hx.1 hr

end Verif
