import Verif.Props.LeadingZero

/-!
# Properties C16 and C47: exactly what is done with integers out of range and with a minus sign alone
-/

namespace Verif

open Spec

theorem toSigned_mod {bits : Nat} (hb : bits = 8 ∨ bits = 16 ∨ bits = 32 ∨ bits = 64) {u : Nat} (hu : u < 2 ^ bits) (neg : Bool) :
    (⟨bits, true⟩ : IntTy).InRange (toSigned bits u (if neg then -1 else 1)) ∧
    (2 ^ bits : Int) ∣ toSigned bits u (if neg then -1 else 1) - (if neg then -(u : Int) else u) := by
  unfold toSigned wrapSigned IntTy.InRange
  rcases hb with rfl | rfl | rfl | rfl <;> cases neg <;> simp at hu ⊢ <;> split <;> omega

/-- **C16, exactly, for unsigned types.**  Read where it stands, a number is out of range for the library if it has more than 20 digits or its
remainder modulo 2^64 does not fit; read from its range, only the remainder counts.  What is accepted is read as the remainder: right below 2^64
only. -/
theorem C16_exactly_unsigned (cfg : Cfg) (t : IntTy) (hs : t.signed = false) (n : Nat) (txt : Bytes) (hx : IsNumeral txt n) (c : Bytes)
    (hc : AfterValue c) :
    parseInt cfg t true (txt ++ c) =
      (if txt.length ≤ 20 ∧ n % 2 ^ 64 < 2 ^ t.bits then .ok (((n % 2 ^ 64 : Nat) : Int), c) else .err .numberOutOfRange) ∧
    parseIntKnown cfg t true txt = (if n % 2 ^ 64 < 2 ^ t.bits then .ok ((n % 2 ^ 64 : Nat) : Int) else .err .numberOutOfRange) := by
  unfold IsNumeral at hx
  rw [if_neg (by omega)] at hx
  have hdig := isDigits_of_isInt hx.1
  have hn : decVal txt = n := by have := hx.2; omega
  constructor
  · simp only [parseInt, hs, Bool.false_eq_true, if_false]
    rw [parseUnsigned_digits cfg t.bits true txt c hx.1 (noDig_after hc) (endOfItem_after hc).1,
      unsignedNotKnown_digits cfg t.bits true txt c hdig (noDig_after hc), hn]
    simp only [if_true]
    split <;> simp [Res.bind]
  · simp only [parseIntKnown, hs, Bool.false_eq_true, if_false]
    rw [parseUnsignedKnown_digits cfg t.bits true txt hx.1, unsignedKnown_digits t.bits true txt hdig, hn]
    simp only [if_true]
    split <;> simp [Res.bind]

example : ∃ (n : Nat) (txt : Bytes), IsNumeral txt n ∧ 2 ^ 64 ≤ n ∧ txt.length ≤ 20 ∧ n % 2 ^ 64 < 2 ^ 8 :=
  ⟨18446744073709551621, writeUnsigned 18446744073709551621, writeUnsigned_numeral _, by decide, by decide +kernel, by decide⟩

/-- **C16, exactly, for signed types.**  The magnitude is checked against the unsigned type of the same width, modulo 2^64.  What is accepted is read
as the value of the type that differs from the number by a multiple of 2^bits. -/
theorem C16_exactly_signed (cfg : Cfg) (t : IntTy) (ht : t.Valid) (hs : t.signed = true) (i : Int) (txt : Bytes) (hx : IsNumeral txt i) (c : Bytes)
    (hc : AfterValue c) (hr : cfg.checked = false → dropWs c ≠ []) :
    (if txt.length ≤ (if i < 0 then 21 else 20) ∧ i.natAbs % 2 ^ 64 < 2 ^ t.bits then
      ∃ v, parseInt cfg t true (txt ++ c) = .ok (v, dropWs c) ∧ t.InRange v ∧ (2 ^ t.bits : Int) ∣ v - i
    else parseInt cfg t true (txt ++ c) = .err .numberOutOfRange) ∧
    (if i.natAbs % 2 ^ 64 < 2 ^ t.bits then
      ∃ v, parseIntKnown cfg t true txt = .ok v ∧ t.InRange v ∧ (2 ^ t.bits : Int) ∣ v - i
    else parseIntKnown cfg t true txt = .err .numberOutOfRange) := by
  obtain ⟨bits, sg⟩ := t
  simp only at hs
  subst hs
  have hb : bits = 8 ∨ bits = 16 ∨ bits = 32 ∨ bits = 64 := ht
  -- the text is an optional minus sign and digits
  obtain ⟨neg, ds, rfl, hd, hi, hlen⟩ : ∃ (neg : Bool) (ds : Bytes), txt = (if neg then 0x2D :: ds else ds) ∧ IsInt ds ∧
      i = (if neg then -(decVal ds : Int) else decVal ds) ∧
      (txt.length ≤ (if i < 0 then 21 else 20) ↔ ds.length ≤ 20) := by
    unfold IsNumeral at hx
    split at hx
    · rename_i hneg
      obtain ⟨ds, rfl, h1, h2⟩ := hx
      exact ⟨true, ds, rfl, h1, by simp; omega, by rw [if_pos hneg]; simp⟩
    · rename_i hneg
      exact ⟨false, txt, rfl, hx.1, by simp [hx.2], by rw [if_neg hneg]⟩
  have habs : i.natAbs = decVal ds := by cases neg <;> simp at hi <;> omega
  have hdig := isDigits_of_isInt hd
  have hval : ∀ u : Nat, u = decVal ds % 2 ^ 64 → u < 2 ^ bits →
      (⟨bits, true⟩ : IntTy).InRange (toSigned bits u (if neg then -1 else 1)) ∧ (2 ^ bits : Int) ∣ toSigned bits u (if neg then -1 else 1) - i := by
    intro u hu hlt
    obtain ⟨h1, h2⟩ := toSigned_mod hb hlt neg
    refine ⟨h1, ?_⟩
    have h3 : (2 ^ bits : Int) ∣ (if neg then -(u : Int) else u) - i := by
      have h64 : (2 ^ bits : Int) ∣ 2 ^ 64 := pow_dvd_pow 2 (valid_le ht)
      refine h64.trans ?_
      rw [hi, hu]
      cases neg <;> simp <;> omega
    have := dvd_add h2 h3
    simpa using this
  simp only [hlen, habs]
  constructor
  · simp only [parseInt, if_true]
    rw [parseSigned_digits cfg bits true neg ds c hd hc hr, unsignedNotKnown_digits cfg bits true ds c hdig (noDig_after hc)]
    simp only [if_true]
    split
    · rename_i h
      exact ⟨_, by simp [Res.bind], hval _ rfl h.2⟩
    · simp [Res.bind]
  · simp only [parseIntKnown, if_true]
    rw [parseSignedKnown_digits cfg bits true neg ds hd, unsignedKnown_digits bits true ds hdig]
    simp only [if_true]
    split
    · rename_i h
      exact ⟨_, by simp [Res.bind], hval _ rfl h⟩
    · simp [Res.bind]

example : ∃ (i : Int) (txt : Bytes), IsNumeral txt i ∧ ¬ (⟨8, true⟩ : IntTy).InRange i ∧ txt.length ≤ 20 ∧ i.natAbs % 2 ^ 64 < 2 ^ 8 :=
  ⟨200, writeUnsigned 200, writeUnsigned_numeral _, by decide, by decide +kernel, by decide⟩

/-- **C47 is false of the code** for every signed type: a minus sign alone is zero, whatever may follow a value, and also from its range. -/
theorem C47_false_for_minus (cfg : Cfg) (t : IntTy) (ht : t.Valid) (hs : t.signed = true) (rc : Bool) (c : Bytes) (hc : AfterValue c)
    (hne : c ≠ []) (hr : cfg.checked = false → dropWs c ≠ []) :
    parseInt cfg t rc (0x2D :: c) = .ok (0, dropWs c) ∧ parseIntKnown cfg t rc [0x2D] = .ok 0 := by
  have h0 : toSigned t.bits 0 (-1) = 0 := by
    have := toSigned_neg (bits := t.bits) (u := 0) ht (Nat.zero_le _)
    simpa using this
  have hn : ∀ b : Nat, narrowUnsigned b 0 = .ok 0 := by intro b; unfold narrowUnsigned; simp
  constructor
  · have hu : unsignedNotKnown cfg t.bits rc c = .ok (0, c) := by
      unfold unsignedNotKnown
      have he : c.isEmpty = false := by cases c with
        | nil => exact absurd rfl hne
        | cons x xs => rfl
      have h1 : assertWeak cfg.checked (!c.isEmpty) .unexpectedEndOfData = .ok () := by
        rw [he]; cases cfg.checked <;> rfl
      have h2 : notKnownVal c = (0, c) := by
        have := notKnownVal_digits [] c (by simp) (noDig_after hc)
        simpa [decVal] using this
      rw [h1, Res.ok_bind, h2]
      cases rc <;> simp [hn]
    have h1 : assertWeak cfg.checked (!((0x2D : UInt8) :: c).isEmpty) .unexpectedEndOfData = .ok () := by
      cases cfg.checked <;> rfl
    simp only [parseInt, hs, if_true, parseSigned]
    rw [h1, Res.ok_bind, validateSignedFirst_minus, Res.ok_bind]
    dsimp only
    rw [hu, Res.ok_bind]
    dsimp only
    rw [trim_after hc hr, Res.ok_bind, (endOfItem_after hc).2, h0]
    cases cfg.checked <;> rfl
  · have h1 : (whenChecked cfg do
        let c ← derefEnd cfg [0x2D]
        ensure (c == chMinus || isDigit c) .invalidNumberStart) = Res.ok () := by
      unfold whenChecked
      cases cfg.checked <;> simp
    have hk : knownVal [] = 0 := by decide +kernel
    simp only [parseIntKnown, hs, if_true, parseSignedKnown]
    rw [h1, Res.ok_bind, validateSignedFirst_minus, Res.ok_bind]
    dsimp only
    unfold unsignedKnown
    rw [hk]
    cases rc <;> simp [hn, h0]

example : ∃ c : Bytes, AfterValue c ∧ c ≠ [] ∧ dropWs c ≠ [] ∧ dropWs c ≠ c :=
  ⟨[0x20, 0x5D], ⟨[0x20], [0x5D], by unfold IsWs isWsByte; decide, rfl, Or.inr ⟨0x5D, [], rfl, by simp⟩⟩, by decide, by decide +kernel, by decide +kernel⟩

end Verif
