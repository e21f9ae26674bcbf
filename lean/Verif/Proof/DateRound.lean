import Verif.Proof.DateText

/-! # Time points to text and back -/

namespace Verif

open Spec

theorem year_pos {y m d : Nat} (hv : ValidDate y m d) (h : 0 ≤ epochDay y m d) : 0 < y := by
  obtain ⟨h1, h2, h3, h4⟩ := hv
  have h1970 : daysBeforeYear 1970 = 719528 := by
    have := daysBeforeYear_eq 1970
    omega
  rcases Nat.eq_zero_or_pos y with rfl | h0
  · exfalso
    rw [epochDay, h1970] at h
    have hb : daysBeforeMonth 0 m + monthLen 0 m ≤ 366 := by
      have : m = 1 ∨ m = 2 ∨ m = 3 ∨ m = 4 ∨ m = 5 ∨ m = 6 ∨ m = 7 ∨ m = 8 ∨ m = 9 ∨ m = 10 ∨ m = 11 ∨ m = 12 := by omega
      rcases this with h | h | h | h | h | h | h | h | h | h | h | h <;> subst h <;> decide
    simp only [daysBeforeYear] at h
    omega
  · exact h0

theorem day_le {y m d : Nat} (hv : ValidDate y m d) : d ≤ 31 := by
  obtain ⟨h1, h2, h3, h4⟩ := hv
  have : m = 1 ∨ m = 2 ∨ m = 3 ∨ m = 4 ∨ m = 5 ∨ m = 6 ∨ m = 7 ∨ m = 8 ∨ m = 9 ∨ m = 10 ∨ m = 11 ∨ m = 12 := by omega
  rcases this with h | h | h | h | h | h | h | h | h | h | h | h <;> subst h <;> simp only [monthLen] at h4
  case inr.inl => split at h4 <;> omega
  all_goals omega

theorem year_lt {y m d : Nat} (hr : epochDay y m d < 2147483648) : y < 2147483648 := by
  have h1970 : daysBeforeYear 1970 = 719528 := by
    have := daysBeforeYear_eq 1970
    omega
  have := daysBeforeYear_eq y
  rw [epochDay, h1970] at hr
  omega

theorem wrapU32_small {x : Int} (h0 : 0 ≤ x) (h1 : x < 4294967296) : wrapU32 x = x.toNat := by
  unfold wrapU32
  rw [Int.emod_eq_of_lt h0 h1]

theorem timePoint_eq {y m d h mi s ms : Nat} (hv : ValidDate y m d) (h0 : 0 ≤ epochDay y m d)
    (hr : epochDay y m d + 719468 < 2147483648) (hh : h < 24) (hmi : mi < 60) (hs : s < 60) (hms : ms < 1000) :
    timePointToCivil (instant y m d h mi s (ms * 1000000)) =
      .ok ⟨y, m, d, h, mi, s, ms * 1000000⟩ := by
  have hc := civilFromDays_eq hv (.inr (year_pos hv h0))
  unfold timePointToCivil instant
  generalize epochDay y m d = e at *
  have e0 : ms * 1000000 / 1000000 = ms := by omega
  rw [e0]
  simp only
  rw [Int.tdiv_eq_ediv_of_nonneg (by omega)]
  have e1 : (e * 86400000 + (((h * 60 + mi) * 60 + s : Nat) : Int) * 1000 + (ms : Nat)) / 86400000 = e := by omega
  rw [e1]
  have hw : wrapI32 e = e := by
    unfold wrapI32
    rw [Int.bmod_eq_of_le] <;> omega
  rw [hw, Int.add_comm 719468 e, if_neg (by omega), hc]
  have e2 : e * 86400000 + (((h * 60 + mi) * 60 + s : Nat) : Int) * 1000 + (ms : Nat) - e * 86400000 =
      ((h * 3600000 + (mi * 60000 + (s * 1000 + ms)) : Nat) : Int) := by omega
  have q1 : ((h * 3600000 + (mi * 60000 + (s * 1000 + ms)) : Nat) : Int).tdiv 3600000 = (h : Nat) := by
    rw [Int.tdiv_eq_ediv_of_nonneg (by omega)]; omega
  have e3 : ((h * 3600000 + (mi * 60000 + (s * 1000 + ms)) : Nat) : Int) - (h : Int) * 3600000 =
      ((mi * 60000 + (s * 1000 + ms) : Nat) : Int) := by omega
  have q2 : ((mi * 60000 + (s * 1000 + ms) : Nat) : Int).tdiv 60000 = (mi : Nat) := by
    rw [Int.tdiv_eq_ediv_of_nonneg (by omega)]; omega
  have e4 : ((mi * 60000 + (s * 1000 + ms) : Nat) : Int) - (mi : Int) * 60000 = ((s * 1000 + ms : Nat) : Int) := by
    rw [Int.natCast_add, Int.natCast_mul]; generalize ((s * 1000 + ms : Nat) : Int) = u; simp; omega
  have q3 : ((s * 1000 + ms : Nat) : Int).tdiv 1000 = (s : Nat) := by
    rw [Int.tdiv_eq_ediv_of_nonneg (by omega)]; omega
  have e5 : ((s * 1000 + ms : Nat) : Int) - (s : Int) * 1000 = (ms : Nat) := by
    rw [Int.natCast_add, Int.natCast_mul]; simp; omega
  simp only [e2, q1, e3, q2, e4, q3, e5]
  rw [wrapU32_small (by omega) (by omega), wrapU32_small (by omega) (by omega), wrapU32_small (by omega) (by omega)]
  have e6 : ((ms : Int) * 1000000 % 18446744073709551616).toNat = ms * 1000000 := by
    have : (ms : Int) * 1000000 = ((ms * 1000000 : Nat) : Int) := by simp
    rw [Int.emod_eq_of_lt (by omega) (by omega), this, Int.toNat_natCast]
  rw [e6]
  simp

/-- Every time point from the epoch on is an instant of the calendar. -/
theorem exists_instant (t : Int) (h0 : 0 ≤ t) :
    ∃ y m d h mi s ms : Nat, ValidDate y m d ∧ 0 ≤ epochDay y m d ∧ epochDay y m d = t / 86400000 ∧ h < 24 ∧ mi < 60 ∧ s < 60 ∧
      ms < 1000 ∧ (ms : Int) = t % 1000 ∧ t = instant y m d h mi s (ms * 1000000) := by
  have h1970 : daysBeforeYear 1970 = 719528 := by
    have := daysBeforeYear_eq 1970
    omega
  obtain ⟨y, m, d, hv, hn⟩ := exists_date ((t / 86400000).toNat + 719528)
  have he : epochDay y m d = t / 86400000 := by
    rw [epochDay, hn, h1970]; omega
  refine ⟨y, m, d, (t / 3600000 % 24).toNat, (t / 60000 % 60).toNat, (t / 1000 % 60).toNat, (t % 1000).toNat, hv,
    by omega, he, by omega, by omega, by omega, by omega, by omega, ?_⟩
  unfold instant
  rw [he, Nat.mul_div_cancel _ (by omega)]
  omega

/-! ## The text written -/

theorem emitPairs_length (v : Nat) : (emitPairs v).length ≤ v := by
  induction v using Nat.strongRecOn with
  | _ v ih =>
    rw [emitPairs]
    split
    · have := ih (v / 100) (by omega)
      simp only [List.length_cons]; omega
    · split
      · simp only [List.length_cons, List.length_nil]; omega
      · simp

theorem writeUnsigned_length (v : Nat) : (writeUnsigned v).length ≤ v + 1 := by
  unfold writeUnsigned
  split
  · simp
  · rw [revBuf_eq, List.length_reverse]
    have := emitPairs_length v
    omega

theorem writeUnsigned_digits (v : Nat) : writeUnsigned v ≠ [] ∧ (∀ c ∈ writeUnsigned v, IsDig c) := by
  have h := (writeUnsigned_spec v).1
  rcases h with h | ⟨⟨h1, h2⟩, _⟩
  · rw [h]; exact ⟨by simp, by simp [IsDig]⟩
  · exact ⟨h1, h2⟩

theorem twoDigits_len : ∀ n, n < 100 → (twoDigits n).length = 2 := by decide +kernel

theorem decVal_cons_zero (ds : Bytes) : decVal (ch0 :: ds) = decVal ds := by
  simp [decVal, digVal]

theorem twoDigits_isTwo {n : Nat} (h : n < 100) : IsTwo (twoDigits n) n := by
  have hs := writeUnsigned_spec n
  have hd := writeUnsigned_digits n
  refine ⟨twoDigits_len n h, ?_, ?_⟩
  · unfold twoDigits
    split
    · intro c hc
      rcases List.mem_cons.1 hc with rfl | hc
      · simp [IsDig]
      · exact hd.2 c hc
    · exact hd.2
  · unfold twoDigits
    split
    · rw [decVal_cons_zero]; exact hs.2
    · exact hs.2

theorem stripZeros_mul {n : Nat} (h : 0 < n) : stripZeros (n * 10) = stripZeros n := by
  rw [stripZeros, if_pos ⟨by omega, by omega⟩, Nat.mul_div_cancel _ (by omega)]

theorem frac_facts' : ∀ ms, ms < 1000 → 1 ≤ ms →
    (writeUnsigned (stripZeros ms)).length ≤ 3 ∧
    (decVal (writeUnsigned (stripZeros ms)) * 10 ^ (9 - (writeUnsigned (stripZeros ms)).length) / 1000000 == ms) =
      Nat.ble 100 ms := by
  decide +kernel

/-- The fraction written: never more than three digits, and standing for the milliseconds only from 100 on. -/
theorem frac_facts (ms : Nat) (h : ms < 1000) (h1 : 1 ≤ ms) :
    (writeUnsigned (stripZeros (ms * 1000000))).length ≤ 3 ∧
    (decVal (writeUnsigned (stripZeros (ms * 1000000))) * 10 ^ (9 - (writeUnsigned (stripZeros (ms * 1000000))).length) / 1000000 = ms
      ↔ 100 ≤ ms) := by
  have e : stripZeros (ms * 1000000) = stripZeros ms := by
    have e0 : ms * 10 * 10 * 10 * 10 * 10 * 10 = ms * 1000000 := by simp [Nat.mul_assoc]
    rw [← e0]
    iterate 6 rw [stripZeros_mul (by omega)]
  rw [e]
  have := frac_facts' ms h h1
  refine ⟨this.1, ?_⟩
  rw [← Nat.ble_eq, ← beq_iff_eq, this.2]

theorem civilText_frac {y m d h mi s n : Nat} (hp : 0 < n) : civilText ⟨y, m, d, h, mi, s, n⟩ =
    ((writeUnsigned y ++ ([0x2D] ++ (twoDigits m ++ ([0x2D] ++ twoDigits d)))) ++ 0x54 :: (twoDigits h ++ ([0x3A] ++
      (twoDigits mi ++ ([0x3A] ++ (twoDigits s ++ chDot :: writeUnsigned (stripZeros n))))))) ++ [chUZ] := by
  rw [civilText]
  simp only
  rw [if_pos hp, writeSigned_nonneg (Int.natCast_nonneg y), Int.toNat_natCast]
  simp only [List.append_assoc, List.cons_append, List.nil_append]

theorem civil_isLocal {y m d h mi s ms : Nat} (hm : m < 100) (hd : d < 100) (hh : h < 100) (hmi : mi < 100) (hs : s < 100)
    (hms : ms < 1000) :
    ∃ txt ns, civilText ⟨y, m, d, h, mi, s, ms * 1000000⟩ = txt ++ [chUZ] ∧ IsLocalText txt y m d h mi s ns ∧
      (ns / 1000000 = ms ↔ ms = 0 ∨ 100 ≤ ms) := by
  have hy := writeUnsigned_digits y
  have hyv := (writeUnsigned_spec y).2
  rcases Nat.eq_zero_or_pos ms with rfl | h0
  · rw [Nat.zero_mul]
    refine ⟨_, 0, ?_, ⟨_, _, rfl, ⟨writeUnsigned y, twoDigits m, twoDigits d, [0x2D], rfl, .inr rfl, hy.1, hy.2, hyv,
      twoDigits_isTwo hm, twoDigits_isTwo hd⟩, ⟨twoDigits h, twoDigits mi, [0x3A], _, rfl, .inr rfl, twoDigits_isTwo hh,
      twoDigits_isTwo hmi, .inr ⟨twoDigits s, [], rfl, twoDigits_isTwo hs, .inl ⟨rfl, rfl⟩⟩⟩⟩, by simp⟩
    simp [civilText, writeSigned_nonneg]
  · have hf := frac_facts ms hms h0
    have hp : 0 < ms * 1000000 := Nat.mul_pos h0 (by decide)
    generalize ms * 1000000 = N at hf hp ⊢
    have hfd := writeUnsigned_digits (stripZeros N)
    refine ⟨_, _, ?_, ⟨_, _, rfl, ⟨writeUnsigned y, twoDigits m, twoDigits d, [0x2D], rfl, .inr rfl, hy.1, hy.2, hyv,
      twoDigits_isTwo hm, twoDigits_isTwo hd⟩, ⟨twoDigits h, twoDigits mi, [0x3A], _, rfl, .inr rfl, twoDigits_isTwo hh,
      twoDigits_isTwo hmi, .inr ⟨twoDigits s, _, rfl, twoDigits_isTwo hs,
        .inr ⟨writeUnsigned (stripZeros N), rfl, List.length_pos_iff.2 hfd.1, Nat.le_trans hf.1 (by decide), hfd.2, rfl⟩⟩⟩⟩, ?_⟩
    · exact civilText_frac hp
    · rw [hf.2]
      exact ⟨.inr, fun h => h.resolve_left (Nat.ne_of_gt h0)⟩

theorem dig_plain {c : UInt8} (h : IsDig c) : IsPlain c := by
  revert h
  refine forall_uint8 (P := fun c => IsDig c → IsPlain c) ?_ c
  simp only [IsDig, IsPlain]
  decide +kernel

theorem civilText_plain {y m d h mi s n : Nat} :
    ∀ c ∈ civilText ⟨(y : Int), m, d, h, mi, s, n⟩, IsPlain c := by
  have h2 : ∀ k, ∀ c ∈ twoDigits k, IsPlain c := by
    intro k c hc
    unfold twoDigits at hc
    split at hc
    · rcases List.mem_cons.1 hc with rfl | hc
      · simp [IsPlain]
      · exact dig_plain ((writeUnsigned_digits k).2 c hc)
    · exact dig_plain ((writeUnsigned_digits k).2 c hc)
  intro c hc
  simp only [civilText, List.mem_append, List.mem_cons] at hc
  rw [writeSigned_nonneg (by omega)] at hc
  rcases hc with h | rfl | h | rfl | h | rfl | h | rfl | h | rfl | h | h | h
  · exact dig_plain ((writeUnsigned_digits _).2 c h)
  · simp [IsPlain]
  · exact h2 _ c h
  · simp [IsPlain]
  · exact h2 _ c h
  · simp [IsPlain]
  · exact h2 _ c h
  · simp [IsPlain]
  · exact h2 _ c h
  · simp [IsPlain]
  · exact h2 _ c h
  · split at h
    · rcases List.mem_cons.1 h with rfl | h
      · simp [IsPlain]
      · exact dig_plain ((writeUnsigned_digits _).2 c h)
    · simp at h
  · simp only [List.not_mem_nil, or_false] at h
    subst h
    simp [IsPlain]

theorem parseTimestamp_utc {txt z : Bytes} {y m d h mi s ns : Nat} (ht : IsLocalText txt y m d h mi s ns)
    (hz : z = [] ∨ z = [0x5A]) (hv : ValidDate y m d) (hr : epochDay y m d < 2147483648)
    (hh : h ≤ 24) (hmi : mi ≤ 59) (hs : s ≤ 60) :
    parseTimestamp (txt ++ z) = .ok (instant y m d h mi s ns) := by
  have hd31 := day_le hv
  have hy := year_lt hr
  rw [parseTimestamp_eq ht hy (by
    rcases hz with h | h
    · exact .inl h
    · exact .inr ⟨_, _, h, by decide⟩), if_pos ⟨⟨⟨hv.2.2.1, hd31⟩, hv.1, hv.2.1⟩, hh, hmi, hs⟩, applyZone_utc z hz]
  simp only [Res.ok_bind]
  rw [civilDays_eq hv hr]

end Verif
