import Verif.Props.Int
import Verif.Proof.ZeroTermInt

/-!
# Property C51 for every number of zeros, and in a zero terminated `std::string`
-/

namespace Verif

open Spec

/-- **C51** (partial) The same in a zero terminated `std::string`, whatever is behind the known end of the text.  Missing: unsigned
types, and negative numbers, see below. -/
theorem C51_zero_terminated_partial (t : IntTy) (hs : t.signed = true) (rc : Bool) (d : UInt8) (hd : IsDig d) (k : Bytes) (n : Nat)
    (hn : n ≤ k.length) :
    parseIntZ t rc n (0x30 :: d :: k) = .err .invalidNumberStart ∧
    parseIntKnownZ t rc n (0x30 :: d :: k) = .err .invalidNumberStart := by
  have hd' := (isDigit_iff d).2 hd
  have h1 : n < k.length + 1 := by omega
  have h2 : n < k.length + 1 + 1 := by omega
  have hv : validateSignedFirstZ n (0x30 :: d :: k) = .err .invalidNumberStart := by
    simp [validateSignedFirstZ, moreZ, frontZ, ensure, hd', h1, h2]
  constructor
  · simp [parseIntZ, hs, parseSignedZ, hv]
  · simp [parseIntKnownZ, hs, parseSignedKnownZ, hv, frontZ, ensure, isDigit]
    rfl

example : ∃ (d : UInt8) (k : Bytes) (n : Nat), IsDig d ∧ 0 < n ∧ n ≤ k.length := ⟨0x37, [0x2C, 0x38], 1, by unfold IsDig; decide, by decide, by decide⟩

theorem validateUnsignedFirst_any (cfg : Cfg) {ds : Bytes} (hd : IsDigits ds) : validateUnsignedFirst cfg ds = .ok () := by
  unfold validateUnsignedFirst
  cases ds with
  | nil => exact absurd rfl hd.1
  | cons x xs =>
    have hx := (isDigit_iff x).2 (hd.2 x (by simp))
    cases cfg.checked
    · simp
    · cases xs with
      | nil => by_cases h0 : x = ch0 <;> simp [h0, hx]
      | cons y ys =>
        have hy := (isDigit_iff y).2 (hd.2 y (by simp))
        by_cases h0 : x = ch0 <;> simp [h0, hx, hy]

theorem validateUnsignedFirstZ_any {ds : Bytes} (hd : IsDigits ds) (aft : Bytes) :
    validateUnsignedFirstZ aft.length (ds ++ aft) = .ok () := by
  unfold validateUnsignedFirstZ
  cases ds with
  | nil => exact absurd rfl hd.1
  | cons x xs =>
    have hx := (isDigit_iff x).2 (hd.2 x (by simp))
    cases xs with
    | nil => by_cases h0 : x = ch0 <;> simp [h0, hx, frontZ, moreZ]
    | cons y ys =>
      have hy := (isDigit_iff y).2 (hd.2 y (by simp))
      by_cases h0 : x = ch0 <;> simp [h0, hx, hy, frontZ, moreZ]

theorem unsignedNotKnown_small (cfg : Cfg) {bits : Nat} (hb : bits ≤ 64) (rc : Bool) {ds rest : Bytes} (hd : IsDigits ds) (hr : NoDig rest)
    (hl : ds.length ≤ 20) (hv : decVal ds < 2 ^ bits) : unsignedNotKnown cfg bits rc (ds ++ rest) = .ok (decVal ds, rest) := by
  have h64 : decVal ds < 2 ^ 64 := Nat.lt_of_lt_of_le hv (Nat.pow_le_pow_right (by decide) hb)
  rw [unsignedNotKnown_digits cfg bits rc ds rest hd hr, Nat.mod_eq_of_lt h64, Nat.mod_eq_of_lt hv]
  cases rc <;> simp [hl, hv]

theorem unsignedKnown_small {bits : Nat} (hb : bits ≤ 64) (rc : Bool) {ds : Bytes} (hd : IsDigits ds) (hv : decVal ds < 2 ^ bits) :
    unsignedKnown bits rc ds = .ok (decVal ds) := by
  have h64 : decVal ds < 2 ^ 64 := Nat.lt_of_lt_of_le hv (Nat.pow_le_pow_right (by decide) hb)
  rw [unsignedKnown_digits bits rc ds hd, Nat.mod_eq_of_lt h64, Nat.mod_eq_of_lt hv]
  cases rc <;> simp [hv]

theorem valid_le {t : IntTy} (ht : t.Valid) : t.bits ≤ 64 := by
  rcases ht with h | h | h | h <;> omega

/-- **C51 is false of the code** for every unsigned type and every number: however many zeros are in front (up to 20 digits in all), the
number is read as if they were not there, in every mode, where it stands and from its range, with known bounds and in a `std::string`. -/
theorem C51_false_for_unsigned (cfg : Cfg) (t : IntTy) (ht : t.Valid) (hs : t.signed = false) (rc : Bool) (ds c : Bytes) (hd : IsDigits ds)
    (hl : ds.length ≤ 20) (hv : decVal ds < 2 ^ t.bits) (hc : AfterValue c) :
    parseInt cfg t rc (ds ++ c) = .ok ((decVal ds : Int), c) ∧ parseIntKnown cfg t rc ds = .ok (decVal ds : Int) ∧
    parseIntZ t rc 0 (ds ++ c) = .ok ((decVal ds : Int), c) ∧ parseIntKnownZ t rc c.length (ds ++ c) = .ok (decVal ds : Int) := by
  have hnd := noDig_after hc
  have he := (endOfItem_after hc).1
  have hb := valid_le ht
  have hf : isDigit (frontZ (ds ++ c)) = true := by
    cases ds with
    | nil => exact absurd rfl hd.1
    | cons x xs => exact (isDigit_iff x).2 (hd.2 x (by simp))
  refine ⟨?_, ?_, ?_, ?_⟩
  · have h2 : (whenChecked cfg do
        let c ← deref (ds ++ c)
        ensure (isDigit c) .invalidNumber) = Res.ok () := by
      unfold whenChecked
      cases ds with
      | nil => exact absurd rfl hd.1
      | cons x xs =>
        have hx' := (isDigit_iff x).2 (hd.2 x (by simp))
        cases cfg.checked <;> simp [hx']
    have h1 : assertWeak cfg.checked (!(ds ++ c).isEmpty) .unexpectedEndOfData = .ok () := by
      have : (ds ++ c).isEmpty = false := by cases ds with
        | nil => exact absurd rfl hd.1
        | cons x xs => rfl
      rw [this]; cases cfg.checked <;> rfl
    have h3 : assertWeak cfg.checked (endOfItem c) .invalidEndOfValue = .ok () := by
      rw [he]; cases cfg.checked <;> rfl
    simp only [parseInt, hs, Bool.false_eq_true, if_false, parseUnsigned]
    rw [h1, Res.ok_bind, h2, Res.ok_bind, unsignedNotKnown_small cfg hb rc hd hnd hl hv, Res.ok_bind]
    dsimp only
    rw [h3, Res.ok_bind]
  · simp only [parseIntKnown, hs, Bool.false_eq_true, if_false, parseUnsignedKnown]
    rw [validateUnsignedFirst_any cfg hd, Res.ok_bind, unsignedKnown_small hb rc hd hv, Res.ok_bind]
  · simp only [parseIntZ, hs, Bool.false_eq_true, if_false, parseUnsignedZ]
    rw [hf, ensure_true, Res.ok_bind, unsignedNotKnownZ_digits cfg t.bits rc ds c hd hnd (Nat.zero_le _),
      unsignedNotKnown_small cfg hb rc hd hnd hl hv, Res.ok_bind]
    dsimp only
    rw [endOfItemZ_of (k := 0) he, ensure_true, Res.ok_bind]
  · simp only [parseIntKnownZ, hs, Bool.false_eq_true, if_false, parseUnsignedKnownZ]
    rw [validateUnsignedFirstZ_any hd c, Res.ok_bind, unsignedKnownZ_digits t.bits rc ds c hd.2 hnd, unsignedKnown_small hb rc hd hv, Res.ok_bind]

example : ∃ ds : Bytes, IsDigits ds ∧ ds.length ≤ 20 ∧ ¬ IsInt ds ∧ decVal ds < 2 ^ 8 :=
  ⟨[0x30, 0x30, 0x37], by unfold IsDigits IsDig; decide, by decide, by unfold IsInt IsDigits IsDig; decide, by decide⟩

/-- **C51 is false of the code** for every signed type and every negative number: behind the minus sign the zeros are not looked at. -/
theorem C51_false_for_negative (cfg : Cfg) (t : IntTy) (ht : t.Valid) (hs : t.signed = true) (rc : Bool) (ds c : Bytes) (hd : IsDigits ds)
    (hl : ds.length ≤ 20) (hv : decVal ds ≤ 2 ^ (t.bits - 1)) (hc : AfterValue c) (hr : cfg.checked = false → dropWs c ≠ []) :
    parseInt cfg t rc (0x2D :: ds ++ c) = .ok (-(decVal ds : Int), dropWs c) ∧ parseIntKnown cfg t rc (0x2D :: ds) = .ok (-(decVal ds : Int)) ∧
    parseIntZ t rc 0 (0x2D :: ds ++ c) = .ok (-(decVal ds : Int), dropWs c) ∧
    parseIntKnownZ t rc c.length (0x2D :: ds ++ c) = .ok (-(decVal ds : Int)) := by
  have hnd := noDig_after hc
  have he := (endOfItem_after hc).2
  have hb := valid_le ht
  have hv' : decVal ds < 2 ^ t.bits := by
    refine Nat.lt_of_le_of_lt hv (Nat.pow_lt_pow_right (by decide) ?_)
    rcases ht with h | h | h | h <;> omega
  have hsg := toSigned_neg (bits := t.bits) ht hv
  refine ⟨?_, ?_, ?_, ?_⟩
  · have h1 : assertWeak cfg.checked (!(0x2D :: ds ++ c).isEmpty) .unexpectedEndOfData = .ok () := by
      cases cfg.checked <;> rfl
    simp only [parseInt, hs, if_true, parseSigned]
    rw [h1, Res.ok_bind, List.cons_append, validateSignedFirst_minus, Res.ok_bind]
    dsimp only
    rw [unsignedNotKnown_small cfg hb rc hd hnd hl hv', Res.ok_bind]
    dsimp only
    rw [trim_after hc hr, Res.ok_bind, he, hsg]
    cases cfg.checked <;> rfl
  · have h1 : (whenChecked cfg do
        let c ← derefEnd cfg (0x2D :: ds)
        ensure (c == chMinus || isDigit c) .invalidNumberStart) = Res.ok () := by
      unfold whenChecked
      cases cfg.checked <;> simp
    simp only [parseIntKnown, hs, if_true, parseSignedKnown]
    rw [h1, Res.ok_bind, validateSignedFirst_minus, Res.ok_bind]
    dsimp only
    rw [unsignedKnown_small hb rc hd hv', Res.ok_bind, hsg]
  · simp only [parseIntZ, hs, if_true, parseSignedZ]
    rw [List.cons_append, validateSignedFirstZ_minus (ds ++ c) (Nat.zero_le _), Res.ok_bind]
    dsimp only
    rw [unsignedNotKnownZ_digits cfg t.bits rc ds c hd hnd (Nat.zero_le _), unsignedNotKnown_small cfg hb rc hd hnd hl hv', Res.ok_bind]
    dsimp only
    rw [trimChecked_after hc, endOfItemZ_of (k := 0) he, ensure_true, Res.ok_bind, hsg]
  · simp only [parseIntKnownZ, hs, if_true, parseSignedKnownZ]
    have h1 : (frontZ (0x2D :: ds ++ c) == chMinus || isDigit (frontZ (0x2D :: ds ++ c))) = true := rfl
    rw [h1, ensure_true, Res.ok_bind, List.cons_append, validateSignedFirstZ_minus (ds ++ c) (by rw [List.length_append]; omega), Res.ok_bind]
    dsimp only
    rw [unsignedKnownZ_digits t.bits rc ds c hd.2 hnd, unsignedKnown_small hb rc hd hv', Res.ok_bind, hsg]

example : ∃ (ds c : Bytes), IsDigits ds ∧ ds.length ≤ 20 ∧ ¬ IsInt ds ∧ decVal ds ≤ 2 ^ 7 ∧ AfterValue c ∧ dropWs c ≠ [] :=
  ⟨[0x30, 0x37], [0x2C], by unfold IsDigits IsDig; decide, by decide, by unfold IsInt IsDigits IsDig; decide, by decide,
    ⟨[], [0x2C], by unfold IsWs isWsByte; decide, rfl, Or.inr ⟨0x2C, [], rfl, by simp⟩⟩, by decide +kernel⟩

end Verif
