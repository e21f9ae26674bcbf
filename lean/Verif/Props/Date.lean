import Verif.Proof.DateRound

/-!
# Timestamps

C37, C38, C39, C53 and C54.
-/

namespace Verif

open Spec

/-! ## C37: the calendar -/

/-- C37: the conversion to a time point counts days as the calendar does, for every date from the year 0 on (and any time of day), while the number of
days fits the 32 bits the code keeps it in. -/
theorem C37_to_time_point {y m d : Nat} (hv : ValidDate y m d) (hr : epochDay y m d < 2147483648) (h mi s ns : Nat) :
    civilToMs y m d h mi s ns = instant y m d h mi s ns :=
  civilDays_eq hv hr h mi s ns

example : ValidDate 2024 2 29 ∧ epochDay 2024 2 29 < 2147483648 ∧ civilToMs 2024 2 29 12 34 56 789000000 = 1709210096789 := by
  have h1 : ValidDate 2024 2 29 := by decide
  have h2 : epochDay 2024 2 29 < 2147483648 := by decide +kernel
  exact ⟨h1, h2, by decide +kernel⟩

theorem daysBeforeYear_mono {a b : Nat} (h : a ≤ b) : daysBeforeYear a ≤ daysBeforeYear b := by
  induction h with
  | refl => exact Nat.le_refl _
  | step _ ih => rw [daysBeforeYear]; omega

theorem epochDay_nonneg {y m d : Nat} (h : 1970 ≤ y) : 0 ≤ epochDay y m d := by
  have := daysBeforeYear_mono h
  rw [epochDay]; omega

/-- C37: a civil date and time from 1970 on, with whole milliseconds, comes back unchanged from a time point.  (The code computes in 32 bits: the limit is a day
about 5.8 million years away.) -/
theorem C37_round_trip {y m d h mi s ms : Nat} (hv : ValidDate y m d) (hy : 1970 ≤ y) (hr : epochDay y m d + 719468 < 2147483648)
    (hh : h < 24) (hmi : mi < 60) (hs : s < 60) (hms : ms < 1000) :
    timePointToCivil (civilToMs y m d h mi s (ms * 1000000)) =
      .ok { year := y, month := m, day := d, hour := h, minute := mi, second := s, nano := ms * 1000000 } := by
  rw [civilDays_eq hv (by omega)]
  exact timePoint_eq hv (epochDay_nonneg hy) hr hh hmi hs hms

/-- C37, the other way round: a time point from the epoch on is taken to a date of the calendar and a time of day, and those go back to it. -/
theorem C37_back {t : Int} (h0 : 0 ≤ t) (hr : t / 86400000 + 719468 < 2147483648) :
    ∃ y m d h mi s ms : Nat, ValidDate y m d ∧ h < 24 ∧ mi < 60 ∧ s < 60 ∧ ms < 1000 ∧
      timePointToCivil t = .ok { year := y, month := m, day := d, hour := h, minute := mi, second := s, nano := ms * 1000000 } ∧
      civilToMs y m d h mi s (ms * 1000000) = t := by
  obtain ⟨y, m, d, h, mi, s, ms, hv, he0, he, hh, hmi, hs, hms, _, ht⟩ := exists_instant t h0
  refine ⟨y, m, d, h, mi, s, ms, hv, hh, hmi, hs, hms, ?_, ?_⟩
  · rw [ht]
    exact timePoint_eq hv he0 (by omega) hh hmi hs hms
  · rw [civilDays_eq hv (by omega), ← ht]

example : (0 : Int) ≤ 1709210096789 ∧ (1709210096789 : Int) / 86400000 + 719468 < 2147483648 := by decide

/-- Before 1970 the conversion back is wrong: a second before the epoch comes out as 1970-01-01 with an hour, a minute and a second of 32 wrapped bits. -/
theorem C37_before_1970_false :
    ValidDate 1969 12 31 ∧ civilToMs 1969 12 31 23 59 59 0 = -1000 ∧
    timePointToCivil (-1000) = .ok { year := 1970, month := 1, day := 1, hour := 0, minute := 0, second := 4294967295, nano := 0 } := by
  refine ⟨by decide, by decide +kernel, by decide +kernel⟩

/-! ## C53: reading timestamps -/

/-- C53: a well-formed timestamp in UTC is read as the instant it denotes: any of the formats, any date of the calendar from the year 0 on, hours up to 24 and seconds up to 60,
fractions of one to nine digits (cut off to milliseconds). -/
theorem C53_reads_utc {txt z : Bytes} {y m d h mi s ns : Nat} (ht : IsLocalText txt y m d h mi s ns)
    (hz : z = [] ∨ z = [0x5A]) (hv : ValidDate y m d) (hr : epochDay y m d < 2147483648)
    (hh : h ≤ 24) (hmi : mi ≤ 59) (hs : s ≤ 60) :
    parseTimestamp (txt ++ z) = .ok (instant y m d h mi s ns) :=
  parseTimestamp_utc ht hz hv hr hh hmi hs

/-- The text of a timestamp: `2024-02-29T12:34:56.789`. -/
def exStamp : Bytes :=
  [0x32, 0x30, 0x32, 0x34, 0x2D, 0x30, 0x32, 0x2D, 0x32, 0x39, 0x54, 0x31, 0x32, 0x3A, 0x33, 0x34, 0x3A, 0x35, 0x36, 0x2E, 0x37, 0x38, 0x39]

theorem exStamp_local : IsLocalText exStamp 2024 2 29 12 34 56 789000000 := by
  have two : ∀ a b : UInt8, IsDig a → IsDig b → IsTwo [a, b] (decVal [a, b]) := fun a b ha hb =>
    ⟨rfl, by simp [ha, hb], rfl⟩
  refine ⟨[0x32, 0x30, 0x32, 0x34, 0x2D, 0x30, 0x32, 0x2D, 0x32, 0x39], _, rfl,
    ⟨[0x32, 0x30, 0x32, 0x34], [0x30, 0x32], [0x32, 0x39], [0x2D], rfl, .inr rfl, by simp, by simp [IsDig], by decide,
      two _ _ (by simp [IsDig]) (by simp [IsDig]), two _ _ (by simp [IsDig]) (by simp [IsDig])⟩,
    ⟨[0x31, 0x32], [0x33, 0x34], [0x3A], _, rfl, .inr rfl,
      two _ _ (by simp [IsDig]) (by simp [IsDig]), two _ _ (by simp [IsDig]) (by simp [IsDig]),
      .inr ⟨[0x35, 0x36], [0x2E, 0x37, 0x38, 0x39], rfl, two _ _ (by simp [IsDig]) (by simp [IsDig]),
        .inr ⟨[0x37, 0x38, 0x39], rfl, by decide, by decide, by simp [IsDig], by decide⟩⟩⟩⟩

example : parseTimestamp (exStamp ++ [0x5A]) = .ok 1709210096789 := by
  rw [C53_reads_utc exStamp_local (.inr rfl) (by decide) (by decide +kernel) (by decide) (by decide) (by decide)]
  decide +kernel

/-! ## C38: the round trip -/

/-- C38, exactly: a time point from the epoch on, written and read again, with whatever follows, comes back if and only if its milliseconds are none or at least a hundred.  (The fraction
is written without its leading zeros.) -/
theorem C38_round_trip_partial {t : Int} (h0 : 0 ≤ t) (hr : t / 86400000 + 719468 < 2147483648) :
    ∃ txt t', writeDate t = .ok txt ∧ (∀ cfg k, parseDate cfg (txt ++ k) = .ok (t', k)) ∧
      (t' = t ↔ t % 1000 = 0 ∨ 100 ≤ t % 1000) := by
  obtain ⟨y, m, d, h, mi, s, ms, hv, he0, he, hh, hmi, hs, hms, hmt, ht⟩ := exists_instant t h0
  have hd31 := day_le hv
  obtain ⟨txt, ns, e1, e2, e3⟩ := civil_isLocal (y := y) (m := m) (d := d) (h := h) (mi := mi) (s := s) (ms := ms)
    (by have := hv.2.1; omega) (by omega) (by omega) (by omega) (by omega) hms
  have hpl := civilText_plain (y := y) (m := m) (d := d) (h := h) (mi := mi) (s := s) (n := ms * 1000000)
  have hlen : (txt ++ [chUZ]).length < npos := by
    have hyl : y < 2147483648 := year_lt (m := m) (d := d) (by omega)
    have hw := writeUnsigned_length y
    have hf : (if 0 < ms * 1000000 then chDot :: writeUnsigned (stripZeros (ms * 1000000)) else []).length ≤ 4 := by
      rcases Nat.eq_zero_or_pos ms with rfl | h0
      · simp
      · have := (frac_facts ms hms h0).1
        rw [if_pos (Nat.mul_pos h0 (by decide)), List.length_cons]; omega
    rw [← e1, civilText]
    simp only [List.length_append, List.length_cons, List.length_nil]
    rw [writeSigned_nonneg (Int.natCast_nonneg y), Int.toNat_natCast, twoDigits_len m (by have := hv.2.1; omega), twoDigits_len d (by omega),
      twoDigits_len h (by omega), twoDigits_len mi (by omega), twoDigits_len s (by omega)]
    have hnp : npos = 18446744073709551615 := rfl
    rw [hnp]
    omega
  have hb : IsStrBody (txt ++ [chUZ]) := by
    rw [← e1]
    have := isStrBody_plain hpl IsStrBody.nil
    rwa [List.append_nil] at this
  refine ⟨chQuote :: (txt ++ [chUZ] ++ [chQuote]), instant y m d h mi s ns, ?_, ?_, ?_⟩
  · rw [writeDate, ht, timePoint_eq hv he0 (by omega) hh hmi hs hms]
    simp only [Res.ok_bind]
    rw [e1]
  · intro cfg k
    have e4 : chQuote :: (txt ++ [chUZ] ++ [chQuote]) ++ k = chQuote :: ((txt ++ [chUZ]) ++ chQuote :: k) := by simp
    rw [e4, parseDate, skipString_body cfg hb hlen k]
    have h1 : assertWeak cfg.checked (!(chQuote :: ((txt ++ [chUZ]) ++ chQuote :: k)).isEmpty) .unexpectedEndOfData = .ok () := by
      cases cfg.checked <;> rfl
    rw [h1]
    simp only [Res.ok_bind]
    rw [C53_reads_utc e2 (.inr rfl) hv (by omega) (by omega) (by omega) (by omega)]
    rfl
  · rw [ht] at hmt ⊢
    have e5 : instant y m d h mi s ns = instant y m d h mi s (ms * 1000000) ↔ ns / 1000000 = ms := by
      unfold instant
      rw [Nat.mul_div_cancel _ (by decide)]
      omega
    rw [e5, e3, ← hmt]
    omega

/-- C38 is false of the code: five milliseconds after the epoch are written as `.5` and read as half a second. -/
theorem C38_false :
    writeDate 5 = .ok [0x22, 0x31, 0x39, 0x37, 0x30, 0x2D, 0x30, 0x31, 0x2D, 0x30, 0x31, 0x54, 0x30, 0x30, 0x3A, 0x30, 0x30, 0x3A, 0x30, 0x30, 0x2E, 0x35, 0x5A, 0x22] ∧
    parseDate {} [0x22, 0x31, 0x39, 0x37, 0x30, 0x2D, 0x30, 0x31, 0x2D, 0x30, 0x31, 0x54, 0x30, 0x30, 0x3A, 0x30, 0x30, 0x3A, 0x30, 0x30, 0x2E, 0x35, 0x5A, 0x22] =
      .ok (500, []) := by
  refine ⟨by decide +kernel, by decide +kernel⟩

/-! ## C39: time zones -/

/-- C39, exactly: a timestamp with an offset is read as the instant it denotes if and only if the minutes of the offset equal its hours and, east of Greenwich, neither hours nor minutes need
to borrow. -/
theorem C39_offset_partial {txt z : Bytes} {y m d h mi s ns hh mm : Nat} {plus : Bool} (ht : IsLocalText txt y m d h mi s ns)
    (hz : IsOffsetText z plus hh mm) (hv : ValidDate y m d) (hr : epochDay y m d < 2147483648)
    (hh24 : h ≤ 24) (hmi : mi ≤ 59) (hs : s ≤ 60) (ho : hh ≤ 24) (hm : mm ≤ 59) :
    parseTimestamp (txt ++ z) = .ok (instant y m d h mi s ns - offsetMs plus hh mm) ↔
      mm = hh ∧ (plus = true → hh ≤ h ∧ hh ≤ mi) := by
  have hd31 := day_le hv
  have hy := year_lt hr
  rw [parseTimestamp_eq ht hy (.inr (offset_head hz)), if_pos ⟨⟨⟨hv.2.2.1, hd31⟩, hv.1, hv.2.1⟩, hh24, hmi, hs⟩,
    applyZone_eq hz, if_pos ho]
  simp only [Res.ok_bind]
  rw [civilDays_eq hv hr, Res.ok.injEq]
  unfold instant offsetMs
  generalize epochDay y m d = e
  generalize ns / 1000000 = q
  cases plus with
  | true =>
    simp only [if_true, forall_const]
    have w : ∀ a b : Nat, a ≤ 59 → b ≤ 24 → wrapU32 ((a : Int) - b) = if b ≤ a then a - b else 4294967296 + a - b := by
      intro a b ha hb
      unfold wrapU32
      split <;> omega
    rw [w h hh (by omega) ho, w mi hh hmi ho]
    split <;> split <;> omega
  | false =>
    simp only [Bool.false_eq_true, if_false, false_implies, and_true]
    rw [wrapU32_small (by omega) (by omega), wrapU32_small (by omega) (by omega)]
    omega

example : IsOffsetText [0x2B, 0x30, 0x35, 0x3A, 0x30, 0x35] true 5 5 := by
  refine ⟨[0x30, 0x35], [0x30, 0x35], [0x3A], rfl, .inr rfl, ⟨rfl, by simp [IsDig], by decide⟩, ⟨rfl, by simp [IsDig], by decide⟩⟩

/-- C39 is false of the code: `+05:30` is taken for five hours and five minutes, so that five past noon in Delhi is read as 07:00 UTC, not 06:35. -/
theorem C39_minutes_false :
    parseTimestamp [0x32, 0x30, 0x32, 0x34, 0x2D, 0x30, 0x31, 0x2D, 0x30, 0x31, 0x54, 0x31, 0x32, 0x3A, 0x30, 0x35, 0x2B, 0x30, 0x35, 0x3A, 0x33, 0x30] =
      .ok (civilToMs 2024 1 1 7 0 0 0) ∧
    instant 2024 1 1 12 5 0 0 - offsetMs true 5 30 = civilToMs 2024 1 1 6 35 0 0 := by
  refine ⟨by decide +kernel, by decide +kernel⟩

/-- C39 is false of the code: `00:30` with the offset `+01:01` is read as an instant more than 490000 years later. -/
theorem C39_borrow_false :
    parseTimestamp [0x32, 0x30, 0x32, 0x34, 0x2D, 0x30, 0x31, 0x2D, 0x30, 0x31, 0x54, 0x30, 0x30, 0x3A, 0x33, 0x30, 0x2B, 0x30, 0x31, 0x3A, 0x30, 0x31] =
      .ok (instant 2024 1 1 0 30 0 0 - offsetMs true 1 1 + 4294967296 * 3600000) := by
  decide +kernel

/-! ## C54: timestamps that denote nothing -/

/-- C54: a timestamp of the right form with a month, day, hour, minute or second outside its range is rejected. -/
theorem C54_rejects_partial {txt z : Bytes} {y m d h mi s ns : Nat} (ht : IsLocalText txt y m d h mi s ns)
    (hy : y < 2147483648) (hz : z = [] ∨ z = [0x5A] ∨ ∃ plus hh mm, IsOffsetText z plus hh mm)
    (hbad : m = 0 ∨ 12 < m ∨ d = 0 ∨ 31 < d ∨ 24 < h ∨ 59 < mi ∨ 60 < s) :
    parseTimestamp (txt ++ z) = .err .invalidTimestamp := by
  rw [parseTimestamp_eq ht hy (by
    rcases hz with h | h | ⟨_, _, _, h⟩
    · exact .inl h
    · exact .inr ⟨_, _, h, by decide⟩
    · exact .inr (offset_head h)), if_neg (by omega)]

/-- C54: without a `T` there is no timestamp. -/
theorem C54_no_time {txt : Bytes} (h : 0x54 ∉ txt) : parseTimestamp txt = .err .invalidTimestamp := by
  have h1 : txt.dropWhile (· != chUT) = [] := by
    refine (takeWhile_all fun x hx => ?_).2
    have : x ≠ chUT := by rintro rfl; exact h hx
    simpa using this
  unfold parseTimestamp
  simp [h1]

/-- C54 is false of the code: `2023-02-31T00:00Z` is accepted and read as the third of March; a second digit that is none is ignored, `2023-1x-1xT00:00Z` is the first of
January. -/
theorem C54_false :
    parseTimestamp [0x32, 0x30, 0x32, 0x33, 0x2D, 0x30, 0x32, 0x2D, 0x33, 0x31, 0x54, 0x30, 0x30, 0x3A, 0x30, 0x30, 0x5A] =
      .ok (instant 2023 3 3 0 0 0 0) ∧ ¬ ValidDate 2023 2 31 ∧
    parseTimestamp [0x32, 0x30, 0x32, 0x33, 0x2D, 0x31, 0x78, 0x2D, 0x31, 0x78, 0x54, 0x30, 0x30, 0x3A, 0x30, 0x30, 0x5A] =
      .ok (instant 2023 1 1 0 0 0 0) := by
  refine ⟨by decide +kernel, by decide, by decide +kernel⟩

end Verif
