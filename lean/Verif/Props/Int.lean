import Verif.Proof.IntParse

/-!
# Properties C13-C16: integers
-/

namespace Verif

open Spec

/-! ## C14 -/

/-- **C14** The text written for an integer is its canonical decimal numeral (`Spec.IsNumeral`: a minus sign
exactly for negative numbers, digits without superfluous leading zero, most significant first, denoting the
value). -/
theorem C14_output_is_canonical (t : IntTy) (v : Int) (hv : t.InRange v) : IsNumeral (writeInt t v) v := by
  unfold writeInt
  split
  · exact writeSigned_numeral v
  · rename_i hs
    have h0 : 0 ≤ v := by
      unfold IntTy.InRange at hv
      simp only [hs] at hv
      exact hv.1
    have := writeUnsigned_numeral v.toNat
    rwa [Int.toNat_of_nonneg h0] at this

example : (⟨64, true⟩ : IntTy).InRange (-9223372036854775808) := by decide

/-- The numeral of a number is unique: `C14` pins the output down. -/
theorem C14_numeral_determines_value {txt : Bytes} {v w : Int} (h : IsNumeral txt v) (h' : IsNumeral txt w) :
    v = w := by
  have hm : ∀ ds : Bytes, IsInt ds → ds.head? ≠ some 0x2D := by
    intro ds hd he
    have := isDigits_of_isInt hd
    cases ds with
    | nil => simp at he
    | cons x xs =>
      simp at he
      have := this.2 x (by simp)
      subst he
      revert this
      simp [IsDig]
  unfold IsNumeral at h h'
  split at h <;> split at h'
  · obtain ⟨ds, rfl, h1, h2⟩ := h
    obtain ⟨ds', h3, h4, h5⟩ := h'
    simp at h3
    subst h3
    omega
  · obtain ⟨ds, rfl, h1, h2⟩ := h
    exact absurd rfl (hm _ h'.1)
  · obtain ⟨ds, rfl, h1, h2⟩ := h'
    exact absurd rfl (hm _ h.1)
  · omega

example : IsNumeral [0x2D, 0x34, 0x32] (-42) := by
  have := writeSigned_numeral (-42)
  rwa [show writeSigned (-42) = [0x2D, 0x34, 0x32] by decide +kernel] at this

/-! ## C15 -/

/-- **C15** (test) The eight-digit test accepts exactly the blocks of eight ASCII digits. -/
theorem C15_block_test (bs : Bytes) (hl : 8 ≤ bs.length) :
    isEightDigits bs = true ↔ ∀ c ∈ bs.take 8, IsDig c := isEightDigits_iff bs hl

/-- **C15** (eight digits) -/
theorem C15_eight_digits (bs : Bytes) (hl : 8 ≤ bs.length) (hd : ∀ c ∈ bs.take 8, IsDig c) :
    parse8 bs = decVal (bs.take 8) := parse8_digits bs hl hd

/-- **C15** (sixteen digits) -/
theorem C15_sixteen_digits (bs : Bytes) (hl : 16 ≤ bs.length) (hd : ∀ c ∈ bs.take 16, IsDig c) :
    parse16 bs = decVal (bs.take 16) := parse16_digits bs hl hd

/-- **C15** (whole numbers) Both parsers, which mix sixteen, eight and single digit steps, compute the decimal
value of the digits modulo 2^64, for any number of digits; the one that looks for the end stops at the first
non-digit. -/
theorem C15_digit_loops (ds rest : Bytes) (hd : ∀ c ∈ ds, IsDig c)
    (hr : ∀ x, rest.head? = some x → ¬ IsDig x) :
    knownVal ds = decVal ds % 2 ^ 64 ∧ notKnownVal (ds ++ rest) = (decVal ds % 2 ^ 64, rest) :=
  ⟨knownVal_digits ds hd, notKnownVal_digits ds rest hd hr⟩

/-- `12345678901234567890123456` then a comma. -/
example : ∃ ds rest : Bytes, (∀ c ∈ ds, IsDig c) ∧ (∀ x, rest.head? = some x → ¬ IsDig x) ∧ 24 < ds.length ∧ rest ≠ [] :=
  ⟨[0x31, 0x32, 0x33, 0x34, 0x35, 0x36, 0x37, 0x38, 0x39, 0x30, 0x31, 0x32, 0x33, 0x34, 0x35, 0x36, 0x37, 0x38,
    0x39, 0x30, 0x31, 0x32, 0x33, 0x34, 0x35, 0x36], [0x2C], by unfold IsDig; decide, by
      intro x hx; simp at hx; subst hx; simp [IsDig], by decide, by decide⟩

/-! ## C13 -/

/-- Parsing the numeral of a value in range gives that value.  What follows an unsigned integer need not end an
element, as long as it does not continue the number. -/
theorem parseInt_numeral_before (cfg : Cfg) (t : IntTy) (ht : t.Valid) (v : Int) (hv : t.InRange v) (rc : Bool)
    (txt : Bytes) (hx : IsNumeral txt v) (c : Bytes) (hc : NoDig c) (he : endOfItem c = true)
    (ha : t.signed = true → AfterValue c) (hr : cfg.checked = false → dropWs c ≠ []) :
    parseInt cfg t rc (txt ++ c) = .ok (v, if t.signed then dropWs c else c) := by
  obtain ⟨bits, signed⟩ := t
  have hb : bits = 8 ∨ bits = 16 ∨ bits = 32 ∨ bits = 64 := ht
  have h64 : 2 ^ bits ≤ 2 ^ 64 := Nat.pow_le_pow_right (by decide) (by omega)
  have hpw : (2 : Nat) ^ bits = 2 * 2 ^ (bits - 1) := by
    rcases hb with rfl | rfl | rfl | rfl <;> decide
  -- the digits fit in 64 bits and have at most 20 characters
  have fits : ∀ ds, IsInt ds → decVal ds < 2 ^ bits → unsignedNotKnown cfg bits rc (ds ++ c) = .ok (decVal ds, c) := by
    intro ds hd hlt
    rw [unsignedNotKnown_digits cfg bits rc ds c (isDigits_of_isInt hd) hc]
    have hm : decVal ds % 2 ^ 64 = decVal ds := Nat.mod_eq_of_lt (by omega)
    have hl : ds.length ≤ 20 := by
      rcases hd with rfl | hd
      · decide
      · cases ds with
        | nil => simp
        | cons x xs =>
          have hx : 1 ≤ digVal x := by
            have h1 := hd.1.2 x (by simp)
            have h2 : x ≠ 0x30 := by simpa using hd.2
            simp only [IsDig, UInt8.le_iff_toNat_le] at h1
            have h3 : 48 ≤ x.toNat := h1.1
            have h4 : x.toNat ≠ 48 := by
              intro h; exact h2 (UInt8.toNat_inj.1 (by simpa using h))
            unfold digVal; omega
          have h3 : decVal (x :: xs) = decFrom (digVal x) xs := by simp [decVal, decFrom]
          rw [h3, decFrom_eq] at hlt
          cases Nat.lt_or_ge 19 xs.length with
          | inr h => simpa using h
          | inl h =>
            exfalso
            have : 10 ^ 20 ≤ 10 ^ xs.length := Nat.pow_le_pow_right (by decide) h
            have : 1 * 10 ^ xs.length ≤ digVal x * 10 ^ xs.length := Nat.mul_le_mul_right _ hx
            omega
    rw [hm, Nat.mod_eq_of_lt hlt]
    cases rc <;> simp [hl, hlt]
  unfold parseInt
  cases signed with
  | true =>
    simp only [if_true]
    simp only [IntTy.InRange, if_true] at hv
    have hpi : (2 : Int) ^ (bits - 1) = ((2 ^ (bits - 1) : Nat) : Int) := by norm_cast
    rw [hpi] at hv
    unfold IsNumeral at hx
    split at hx
    · obtain ⟨ds, rfl, h1, h2⟩ := hx
      have := parseSigned_digits cfg bits rc true ds c h1 (ha rfl) hr
      simp only [if_true] at this
      rw [this, fits ds h1 (by omega)]
      simp only [Res.bind, if_true]
      rw [toSigned_neg hb (by omega), h2]
      simp
    · have := parseSigned_digits cfg bits rc false txt c hx.1 (ha rfl) hr
      simp only [Bool.false_eq_true, if_false] at this
      rw [this, fits txt hx.1 (by omega)]
      simp only [Res.bind, if_true]
      rw [toSigned_pos hb (by omega), hx.2]
  | false =>
    simp only [Bool.false_eq_true, if_false]
    simp only [IntTy.InRange, Bool.false_eq_true, if_false] at hv
    have hpi : (2 : Int) ^ bits = ((2 ^ bits : Nat) : Int) := by norm_cast
    rw [hpi] at hv
    unfold IsNumeral at hx
    rw [if_neg (by omega)] at hx
    rw [parseUnsigned_digits cfg bits rc txt c hx.1 hc he, fits txt hx.1 (by omega)]
    simp only [Res.bind, if_true]
    rw [hx.2]

/-- Parsing the numeral of a value in range gives that value, whatever follows. -/
theorem parseInt_numeral (cfg : Cfg) (t : IntTy) (ht : t.Valid) (v : Int) (hv : t.InRange v) (rc : Bool)
    (txt : Bytes) (hx : IsNumeral txt v) (c : Bytes) (hc : AfterValue c)
    (hr : cfg.checked = false → dropWs c ≠ []) :
    parseInt cfg t rc (txt ++ c) = .ok (v, if t.signed then dropWs c else c) :=
  parseInt_numeral_before cfg t ht v hv rc txt hx c (noDig_after hc) (endOfItem_after hc).1 (fun _ => hc) hr

/-- Parsing the exact range of a numeral of a value in range gives that value. -/
theorem parseIntKnown_numeral (cfg : Cfg) (t : IntTy) (ht : t.Valid) (v : Int) (hv : t.InRange v) (rc : Bool)
    (txt : Bytes) (hx : IsNumeral txt v) : parseIntKnown cfg t rc txt = .ok v := by
  obtain ⟨bits, signed⟩ := t
  have hb : bits = 8 ∨ bits = 16 ∨ bits = 32 ∨ bits = 64 := ht
  have h64 : 2 ^ bits ≤ 2 ^ 64 := Nat.pow_le_pow_right (by decide) (by omega)
  have hpw : (2 : Nat) ^ bits = 2 * 2 ^ (bits - 1) := by
    rcases hb with rfl | rfl | rfl | rfl <;> decide
  have fits : ∀ ds, IsInt ds → decVal ds < 2 ^ bits → unsignedKnown bits rc ds = .ok (decVal ds) := by
    intro ds hd hlt
    rw [unsignedKnown_digits bits rc ds (isDigits_of_isInt hd)]
    have hm : decVal ds % 2 ^ 64 = decVal ds := Nat.mod_eq_of_lt (by omega)
    rw [hm, Nat.mod_eq_of_lt hlt]
    cases rc <;> simp [hlt]
  unfold parseIntKnown
  cases signed with
  | true =>
    simp only [if_true]
    simp only [IntTy.InRange, if_true] at hv
    have hpi : (2 : Int) ^ (bits - 1) = ((2 ^ (bits - 1) : Nat) : Int) := by norm_cast
    rw [hpi] at hv
    unfold IsNumeral at hx
    split at hx
    · obtain ⟨ds, rfl, h1, h2⟩ := hx
      have := parseSignedKnown_digits cfg bits rc true ds h1
      simp only [if_true] at this
      rw [this, fits ds h1 (by omega)]
      simp only [Res.bind]
      rw [toSigned_neg hb (by omega), h2]
      simp
    · have := parseSignedKnown_digits cfg bits rc false txt hx.1
      simp only [Bool.false_eq_true, if_false] at this
      rw [this, fits txt hx.1 (by omega)]
      simp only [Res.bind]
      rw [toSigned_pos hb (by omega), hx.2]
  | false =>
    simp only [Bool.false_eq_true, if_false]
    simp only [IntTy.InRange, Bool.false_eq_true, if_false] at hv
    have hpi : (2 : Int) ^ bits = ((2 ^ bits : Nat) : Int) := by norm_cast
    rw [hpi] at hv
    unfold IsNumeral at hx
    rw [if_neg (by omega)] at hx
    rw [parseUnsignedKnown_digits cfg bits rc txt hx.1, fits txt hx.1 (by omega)]
    simp only [Res.bind]
    rw [hx.2]

/-- A canonical integer numeral is a JSON number. -/
theorem isNumber_of_numeral {txt : Bytes} {v : Int} (h : IsNumeral txt v) : IsNumber txt := by
  unfold IsNumeral at h
  split at h
  · obtain ⟨ds, rfl, h1, h2⟩ := h
    exact ⟨[0x2D], ds, [], [], Or.inr rfl, h1, Or.inl rfl, Or.inl rfl, by simp⟩
  · exact ⟨[], txt, [], [], Or.inl rfl, h.1, Or.inl rfl, Or.inl rfl, by simp⟩

/-- **C13** (direct) Writing an integer and parsing it back as the same type, followed by anything that may
follow a value, gives the same value, with and without range checks, in checked and unchecked mode (the
unchecked mode needs a byte other than whitespace after the number). -/
theorem C13_round_trip (cfg : Cfg) (t : IntTy) (ht : t.Valid) (v : Int) (hv : t.InRange v) (rc : Bool)
    (c : Bytes) (hc : AfterValue c) (hr : cfg.checked = false → dropWs c ≠ []) :
    parseInt cfg t rc (writeInt t v ++ c) = .ok (v, if t.signed then dropWs c else c) :=
  parseInt_numeral cfg t ht v hv rc _ (C14_output_is_canonical t v hv) c hc hr

/-- **C13** (through the location table) Members of a class may first be skipped and parsed later from the
skipped range: the value is the same. -/
theorem C13_round_trip_skipped (cfg : Cfg) (t : IntTy) (ht : t.Valid) (v : Int) (hv : t.InRange v) (rc : Bool)
    (c : Bytes) (hc : AfterValue c) (hr : cfg.checked = false → dropWs c ≠ []) :
    (do let (r, _) ← skipValue cfg true (writeInt t v ++ c)
        parseIntKnown cfg t rc r.text) = .ok v := by
  have hn := C14_output_is_canonical t v hv
  obtain ⟨r, h1, h2, -⟩ := skipValue_exact (tc := false) cfg true (.num (writeInt t v)) (isNumber_of_numeral hn)
    (by simp [JVal.depth]) c hc (Room'.room hr) (by simp [JVal.isLiteral]) (by simp)
  simp only [JVal.text] at h1
  rw [h1, Res.ok_bind]
  simp only [rangeText, JVal.text] at h2
  dsimp only
  rw [h2]
  exact parseIntKnown_numeral cfg t ht v hv rc _ hn

/-- The smallest 64 bit integer, followed by ` ]`. -/
example : (⟨64, true⟩ : IntTy).Valid ∧ (⟨64, true⟩ : IntTy).InRange (-9223372036854775808) ∧
    AfterValue [0x20, 0x5D] ∧ dropWs [0x20, 0x5D] ≠ [] :=
  ⟨by decide, by decide, ⟨[0x20], [0x5D], by simp [IsWs, isWsByte], rfl, Or.inr ⟨_, _, rfl, by simp⟩⟩, by
    simp [dropWs]⟩

/-! ## C16 -/

/-- **C16 is false of the code**: `18446744073709551616` (2^64) parses as 0 into a range checked 64 bit
unsigned, and `200` as −56 into a range checked 8 bit signed. -/
theorem C16_false :
    (∃ txt, IsNumeral txt 18446744073709551616 ∧ ¬ (⟨64, false⟩ : IntTy).InRange 18446744073709551616 ∧
      parseInt {} ⟨64, false⟩ true txt = .ok (0, [])) ∧
    (∃ txt, IsNumeral txt 200 ∧ ¬ (⟨8, true⟩ : IntTy).InRange 200 ∧
      parseInt {} ⟨8, true⟩ true txt = .ok (-56, [])) :=
  ⟨⟨writeUnsigned 18446744073709551616, writeUnsigned_numeral _, by decide, by decide +kernel⟩,
    ⟨writeUnsigned 200, writeUnsigned_numeral _, by decide, by decide +kernel⟩⟩

/-- **C16** (extent of the failure for signed types) Every number from one past the largest value up to the
largest unsigned value of the same width wraps around silently although range checking is on. -/
theorem C16_signed_wraps (cfg : Cfg) (bits : Nat) (hb : (⟨bits, true⟩ : IntTy).Valid) (n : Nat)
    (hl : 2 ^ (bits - 1) ≤ n) (hu : n < 2 ^ bits) (txt : Bytes) (hx : IsNumeral txt n) (c : Bytes)
    (hc : AfterValue c) (hr : cfg.checked = false → dropWs c ≠ []) :
    parseInt cfg ⟨bits, true⟩ true (txt ++ c) = .ok ((n : Int) - 2 ^ bits, dropWs c) := by
  -- as an unsigned type of the same width the number is in range
  have h := parseInt_numeral cfg ⟨bits, false⟩ hb n (by
    simp only [IntTy.InRange, Bool.false_eq_true, if_false]
    refine ⟨by omega, ?_⟩
    have hpi : (2 : Int) ^ bits = ((2 ^ bits : Nat) : Int) := by norm_cast
    rw [hpi]; omega) true txt hx c hc hr
  unfold IsNumeral at hx
  rw [if_neg (by omega)] at hx
  simp only [parseInt, Bool.false_eq_true, if_false] at h
  rw [parseUnsigned_digits cfg bits true txt c hx.1 (noDig_after hc) (endOfItem_after hc).1] at h
  simp only [parseInt, if_true]
  have := parseSigned_digits cfg bits true false txt c hx.1 hc hr
  simp only [Bool.false_eq_true, if_false] at this
  rw [this]
  cases hq : unsignedNotKnown cfg bits true (txt ++ c) with
  | ok p =>
    rw [hq] at h
    simp only [Res.bind] at h ⊢
    split at h
    · rename_i hp
      rw [if_pos hp]
      simp at h
      have : p.1 = n := by omega
      rw [this, toSigned_wrap hb hl hu]
    · simp at h
  | err e => rw [hq] at h; simp [Res.bind] at h
  | ub => rw [hq] at h; simp [Res.bind] at h

example : (⟨32, true⟩ : IntTy).Valid ∧ 2 ^ (32 - 1) ≤ 3000000000 ∧ 3000000000 < 2 ^ 32 := by decide

/-- **C16** (partial) Full claim: with range checking, parsing the numeral of `v` yields `v` if it is a value
of the type and `NumberOutOfRange` otherwise.  Missing: numerals out of range whose magnitude is below 2^bits
(signed types), and those between 2^64 and 10^20 (see `C16_false`). -/
theorem C16_partial (cfg : Cfg) (t : IntTy) (ht : t.Valid) (v : Int) (txt : Bytes) (hx : IsNumeral txt v)
    (hs : t.signed = false → 0 ≤ v)
    (hv : t.InRange v ∨ (2 ^ t.bits ≤ v.natAbs ∧ (v.natAbs < 2 ^ 64 ∨ 10 ^ 20 ≤ v.natAbs)))
    (c : Bytes) (hc : AfterValue c) (hr : cfg.checked = false → dropWs c ≠ []) :
    parseInt cfg t true (txt ++ c) =
      if t.InRange v then .ok (v, if t.signed then dropWs c else c) else .err .numberOutOfRange := by
  by_cases hin : t.InRange v
  · rw [if_pos hin]
    exact parseInt_numeral cfg t ht v hin true txt hx c hc hr
  · rw [if_neg hin]
    obtain ⟨hbig, hrange⟩ := hv.resolve_left hin
    obtain ⟨bits, signed⟩ := t
    dsimp only at hbig hs
    have rej : ∀ ds, IsInt ds → decVal ds = v.natAbs →
        unsignedNotKnown cfg bits true (ds ++ c) = .err .numberOutOfRange := by
      intro ds hd hval
      rw [unsignedNotKnown_digits cfg bits true ds c (isDigits_of_isInt hd) (noDig_after hc)]
      rw [if_pos rfl]
      apply if_neg
      rintro ⟨h1, h2⟩
      rcases hrange with h | h
      · rw [hval, Nat.mod_eq_of_lt h] at h2
        omega
      · have h3 := decVal_lt (isDigits_of_isInt hd).2
        have h4 : 10 ^ ds.length ≤ 10 ^ 20 := Nat.pow_le_pow_right (by decide) h1
        omega
    unfold IsNumeral at hx
    unfold parseInt
    cases signed with
    | true =>
      simp only [if_true]
      split at hx
      · obtain ⟨ds, rfl, h1, h2⟩ := hx
        have := parseSigned_digits cfg bits true true ds c h1 hc hr
        simp only [if_true] at this
        rw [this, rej ds h1 (by omega)]
        rfl
      · have := parseSigned_digits cfg bits true false txt c hx.1 hc hr
        simp only [Bool.false_eq_true, if_false] at this
        rw [this, rej txt hx.1 (by omega)]
        rfl
    | false =>
      simp only [Bool.false_eq_true, if_false]
      have h0 := hs rfl
      rw [if_neg (by omega)] at hx
      rw [parseUnsigned_digits cfg bits true txt c hx.1 (noDig_after hc) (endOfItem_after hc).1, rej txt hx.1 (by omega)]
      rfl

/-- Both kinds of out-of-range values the hypotheses allow, and an in-range one. -/
example : (⟨8, true⟩ : IntTy).Valid ∧ 2 ^ 8 ≤ (-300 : Int).natAbs ∧ (-300 : Int).natAbs < 2 ^ 64 ∧
    ¬ (⟨8, true⟩ : IntTy).InRange (-300) ∧ (⟨8, true⟩ : IntTy).InRange (-128) := by decide

/-! ## C47 -/

/-- **C47 is false of the code**: a minus sign alone, followed by a comma, parses as zero. -/
theorem C47_false : parseInt {} ⟨32, true⟩ true [0x2D, 0x2C] = .ok (0, [0x2C]) := by decide +kernel

/-- **C47** (partial) Full claim: in checked mode, parsing an integer from a text that does not start with an
optional minus sign and a digit is an error.  Missing: signed types when the text starts with a minus sign. -/
theorem C47_partial (cfg : Cfg) (hck : cfg.checked = true) (t : IntTy) (rc : Bool) (bs : Bytes)
    (hd : ∀ x, bs.head? = some x → ¬ IsDig x) (hm : t.signed = true → bs.head? ≠ some 0x2D) :
    ∃ e, parseInt cfg t rc bs = .err e := by
  cases bs with
  | nil =>
    refine ⟨.unexpectedEndOfData, ?_⟩
    unfold parseInt parseSigned parseUnsigned
    simp [hck]
  | cons x xs =>
    have hx := hd x rfl
    rw [← isDigit_iff] at hx
    have hx0 : x ≠ ch0 := by rintro rfl; exact hx (by decide)
    unfold parseInt
    split
    · rename_i hs
      have hm' : x ≠ chMinus := by simpa using hm hs
      refine ⟨.invalidNumberStart, ?_⟩
      unfold parseSigned validateSignedFirst
      simp [hck, hm', hx0, hx]
    · refine ⟨.invalidNumber, ?_⟩
      unfold parseUnsigned whenChecked
      simp [hck, hx]

example : ∃ bs : Bytes, (∀ x, bs.head? = some x → ¬ IsDig x) ∧ bs.head? ≠ some 0x2D ∧ bs ≠ [] :=
  ⟨[0x2B, 0x31], by intro x hx; simp at hx; subst hx; simp [IsDig], by decide, by decide⟩

/-! ## C51 -/

/-- **C51** (partial) Full claim: in checked mode a number written with a superfluous leading zero is not accepted
for an integer member.  Missing: unsigned types, and negative numbers. -/
theorem C51_leading_zero_partial (cfg : Cfg) (hck : cfg.checked = true) (t : IntTy) (hs : t.signed = true)
    (rc : Bool) (d : UInt8) (hd : IsDig d) (k : Bytes) :
    (∃ e, parseInt cfg t rc (0x30 :: d :: k) = .err e) ∧ (∃ e, parseIntKnown cfg t rc (0x30 :: d :: k) = .err e) := by
  have hd' := (isDigit_iff d).2 hd
  have hv : validateSignedFirst cfg (0x30 :: d :: k) = .err .invalidNumberStart := by
    simp [validateSignedFirst, hck, assertWeak, deref, ensure, hd']
  constructor
  · refine ⟨.invalidNumberStart, ?_⟩
    simp [parseInt, hs, parseSigned, hv, assertWeak]
  · refine ⟨.invalidNumberStart, ?_⟩
    simp [parseIntKnown, hs, parseSignedKnown, hv, whenChecked, hck, ensure, isDigit]
    rfl

example : ∃ d : UInt8, IsDig d ∧ d ≠ 0x30 := ⟨0x37, by unfold IsDig; decide, by decide⟩

/-- **C51 is false of the code** for unsigned types (`01` is read as 1, on both routes) and for negative numbers
(`-01` is read as -1). -/
theorem C51_false :
    parseInt {} ⟨32, false⟩ true [0x30, 0x31, 0x2C] = .ok (1, [0x2C]) ∧
    parseIntKnown {} ⟨32, false⟩ true [0x30, 0x31] = .ok 1 ∧
    parseInt {} ⟨32, true⟩ true [0x2D, 0x30, 0x31, 0x2C] = .ok (-1, [0x2C]) := by
  refine ⟨?_, ?_, ?_⟩ <;> decide +kernel

end Verif
