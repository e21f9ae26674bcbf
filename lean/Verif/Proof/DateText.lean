import Verif.Proof.DateCal
import Verif.Proof.IntWrite
import Verif.Proof.StrDecode

/-! # Timestamps as text -/

namespace Verif

open Spec

theorem isDigitCh_iff (c : UInt8) : isDigitCh c = true ↔ IsDig c := by
  refine forall_uint8 (P := fun c => isDigitCh c = true ↔ IsDig c) ?_ c
  simp only [IsDig]
  decide +kernel

theorem isDigitCh_val {c : UInt8} (h : IsDig c) : (c - ch0).toNat = digVal c := by
  revert h
  refine forall_uint8 (P := fun c => IsDig c → (c - ch0).toNat = digVal c) ?_ c
  simp only [IsDig]
  decide +kernel

theorem foldl_le (ds : Bytes) : ∀ a : Nat, a ≤ ds.foldl (fun a c => 10 * a + digVal c) a := by
  induction ds with
  | nil => intro a; exact Nat.le_refl _
  | cons c cs ih =>
    intro a
    have := ih (10 * a + digVal c)
    rw [List.foldl_cons]
    omega

theorem parseDigits_eq {lim : Nat} (ds : Bytes) : ∀ a : Nat, (∀ c ∈ ds, IsDig c) →
    ds.foldl (fun a c => 10 * a + digVal c) a < lim →
    parseDigits lim a ds = .ok (ds.foldl (fun a c => 10 * a + digVal c) a) := by
  induction ds with
  | nil => intro a _ _; rfl
  | cons c cs ih =>
    intro a hd hl
    have hc := hd c List.mem_cons_self
    rw [List.foldl_cons] at hl ⊢
    have hle := foldl_le cs (10 * a + digVal c)
    rw [parseDigits, if_pos ((isDigitCh_iff c).2 hc), isDigitCh_val hc, if_neg (by omega)]
    exact ih _ (fun x hx => hd x (List.mem_cons_of_mem _ hx)) hl

theorem decVal_lt_pow (ds : Bytes) (h : ∀ c ∈ ds, IsDig c) : decVal ds < 10 ^ ds.length := by
  have key : ∀ (ds : Bytes) (a : Nat), (∀ c ∈ ds, IsDig c) →
      ds.foldl (fun a c => 10 * a + digVal c) a < (a + 1) * 10 ^ ds.length := by
    intro ds
    induction ds with
    | nil => intro a _; simp
    | cons c cs ih =>
      intro a hd
      have hc := hd c List.mem_cons_self
      have h9 : digVal c ≤ 9 := by
        revert hc
        refine forall_uint8 (P := fun c => IsDig c → digVal c ≤ 9) ?_ c
        simp only [IsDig]; decide +kernel
      rw [List.foldl_cons, List.length_cons, Nat.pow_succ]
      refine Nat.lt_of_lt_of_le (ih _ (fun x hx => hd x (List.mem_cons_of_mem _ hx))) ?_
      rw [Nat.mul_comm (10 ^ cs.length) 10, ← Nat.mul_assoc]
      exact Nat.mul_le_mul_right _ (by omega)
  have := key ds 0 h
  simpa [decVal] using this

theorem isTwo_cases {txt : Bytes} {n : Nat} (h : IsTwo txt n) :
    ∃ a b, txt = [a, b] ∧ IsDig a ∧ IsDig b ∧ n = 10 * digVal a + digVal b := by
  obtain ⟨h1, h2, h3⟩ := h
  match txt, h1 with
  | [a, b], _ =>
    refine ⟨a, b, rfl, h2 a (by simp), h2 b (by simp), ?_⟩
    rw [← h3]; simp [decVal]

theorem parseTwo_eq {txt : Bytes} {n : Nat} (h : IsTwo txt n) (k : Bytes) : parseTwo (txt ++ k) = .ok n := by
  obtain ⟨a, b, rfl, ha, hb, rfl⟩ := isTwo_cases h
  simp only [List.cons_append, parseTwo, (isDigitCh_iff _).2 ha, (isDigitCh_iff _).2 hb, if_true, isDigitCh_val ha, isDigitCh_val hb]

theorem popFrontTwo_eq {txt : Bytes} {n : Nat} (h : IsTwo txt n) (k : Bytes) : popFrontTwo (txt ++ k) = .ok (n, k) := by
  rw [popFrontTwo, if_neg (by have := h.1; simp; omega), parseTwo_eq h]
  simp [← h.1]

theorem popBackTwo_eq {txt : Bytes} {n : Nat} (h : IsTwo txt n) (k : Bytes) : popBackTwo (k ++ txt) = .ok (n, k) := by
  have h2 := h.1
  have e : (k ++ txt).length - 2 = k.length := by simp; omega
  have := parseTwo_eq h []
  rw [List.append_nil] at this
  rw [popBackTwo, if_neg (by simp; omega), e]
  simp [this]

theorem dropSepFront_none {k : Bytes} (h : ∃ a r, k = a :: r ∧ IsDig a) : dropSepFront k = .ok k := by
  obtain ⟨a, r, rfl, ha⟩ := h
  simp [dropSepFront, (isDigitCh_iff _).2 ha]

theorem dropSepFront_some {c : UInt8} (k : Bytes) (h : ¬ IsDig c) : dropSepFront (c :: k) = .ok k := by
  have : isDigitCh c = false := by
    rw [← Bool.not_eq_true, isDigitCh_iff]; exact h
  simp [dropSepFront, this]

theorem dropSepBack_some {c : UInt8} (k : Bytes) (h : ¬ IsDig c) : dropSepBack (k ++ [c]) = .ok k := by
  have : isDigitCh c = false := by
    rw [← Bool.not_eq_true, isDigitCh_iff]; exact h
  simp [dropSepBack, this]

theorem dropSepBack_none {k : Bytes} (h : k ≠ []) (hl : ∀ c ∈ k, IsDig c) : dropSepBack k = .ok k := by
  have hm := List.getLast_mem h
  rw [dropSepBack, List.getLast?_eq_some_getLast h]
  simp [(isDigitCh_iff _).2 (hl _ hm)]

theorem not_dig_minus : ¬ IsDig chMinus := by simp [IsDig]
theorem not_dig_colon : ¬ IsDig chColon := by simp [IsDig]
theorem not_dig_dot : ¬ IsDig chDot := by simp [IsDig]

theorem parseYear_eq {yt : Bytes} (hn : yt ≠ []) (hd : ∀ c ∈ yt, IsDig c) (hl : decVal yt < 2147483648) :
    parseYear yt = .ok (decVal yt : Int) := by
  cases yt with
  | nil => exact absurd rfl hn
  | cons c cs =>
    have hc := hd c List.mem_cons_self
    have h1 : c ≠ chMinus := by rintro rfl; exact not_dig_minus hc
    have h2 : c ≠ chPlus := by rintro rfl; simp [IsDig] at hc
    rw [parseYear]
    simp only [h1, h2, or_self, if_false]
    rw [parseDigits_eq _ 0 hd hl]
    rfl

theorem two_dig_cons {txt : Bytes} {n : Nat} (h : IsTwo txt n) (k : Bytes) : ∃ a r, txt ++ k = a :: r ∧ IsDig a := by
  obtain ⟨a, b, rfl, ha, _⟩ := isTwo_cases h
  exact ⟨a, b :: k, rfl, ha⟩

theorem two_ne {txt : Bytes} {n : Nat} (h : IsTwo txt n) : txt ≠ [] := by
  obtain ⟨a, b, rfl, _⟩ := isTwo_cases h; simp

/-- The date, with the checks on the ranges of month and day. -/
theorem parseIsoDate_eq {txt : Bytes} {y m d : Nat} (h : IsDateText txt y m d) (hy : y < 2147483648) :
    parseIsoDate txt = if (1 ≤ d ∧ d ≤ 31) ∧ 1 ≤ m ∧ m ≤ 12 then .ok ((y : Int), m, d) else .err .invalidTimestamp := by
  obtain ⟨yt, mt, dt, sep, rfl, hs, hn, hd, hv, hm, hdd⟩ := h
  subst hv
  have key : parseIsoDate (yt ++ (sep ++ (mt ++ (sep ++ dt)))) =
      (ensure (1 ≤ d && d ≤ 31) .invalidTimestamp >>= fun _ =>
        ensure (1 ≤ m && m ≤ 12) .invalidTimestamp >>= fun _ => .ok ((decVal yt : Int), m, d)) := by
    rcases hs with rfl | rfl
    · simp only [List.nil_append]
      rw [parseIsoDate, show yt ++ (mt ++ dt) = (yt ++ mt) ++ dt by simp, popBackTwo_eq hdd]
      simp only [Res.ok_bind]
      rw [dropSepBack_none (by simp [hn]) (by
        intro c hc
        rcases List.mem_append.1 hc with h | h
        · exact hd c h
        · exact hm.2.1 c h)]
      simp only [Res.ok_bind]
      rw [popBackTwo_eq hm]
      simp only [Res.ok_bind]
      rw [dropSepBack_none hn hd]
      simp only [Res.ok_bind]
      rw [parseYear_eq hn hd hy]
      simp only [Res.ok_bind]
    · rw [parseIsoDate, show yt ++ ([0x2D] ++ (mt ++ ([0x2D] ++ dt))) = (((yt ++ [0x2D]) ++ mt) ++ [0x2D]) ++ dt by simp,
        popBackTwo_eq hdd]
      simp only [Res.ok_bind]
      rw [dropSepBack_some _ not_dig_minus]
      simp only [Res.ok_bind]
      rw [popBackTwo_eq hm]
      simp only [Res.ok_bind]
      rw [dropSepBack_some _ not_dig_minus]
      simp only [Res.ok_bind]
      rw [parseYear_eq hn hd hy]
      simp only [Res.ok_bind]
  rw [key]
  by_cases h1 : 1 ≤ d ∧ d ≤ 31
  · by_cases h2 : 1 ≤ m ∧ m ≤ 12
    · simp [ensure, h1, h2]
    · simp [ensure, h1, h2]
  · simp [ensure, h1]

theorem parseFrac_eq {ds : Bytes} (h1 : 1 ≤ ds.length) (h9 : ds.length ≤ 9) (hd : ∀ c ∈ ds, IsDig c) :
    parseFrac ds = .ok (decVal ds * 10 ^ (9 - ds.length)) := by
  have ht : ds.take 9 = ds := List.take_of_length_le h9
  rw [parseFrac, ht]
  cases ds with
  | nil => simp at h1
  | cons c cs =>
    have hc := hd c List.mem_cons_self
    have e1 : c ≠ chMinus := by rintro rfl; exact not_dig_minus hc
    have e2 : c ≠ chPlus := by rintro rfl; simp [IsDig] at hc
    simp only [e1, e2, or_self, if_false]
    have hlt := decVal_lt_pow _ hd
    have hp : 10 ^ (c :: cs).length ≤ 10 ^ 9 := Nat.pow_le_pow_right (by omega) h9
    rw [parseDigits_eq _ 0 hd (by
      have : decVal (c :: cs) < 10 ^ 9 := by omega
      unfold decVal at this
      omega)]
    simp only [Res.ok_bind]
    rw [if_neg (by omega)]
    rfl

theorem parseIsoSecond_eq {rest sep : Bytes} {s ns : Nat} (hs : sep = [] ∨ sep = [chColon])
    (h : (rest = [] ∧ s = 0 ∧ ns = 0) ∨ ∃ st ft, rest = sep ++ (st ++ ft) ∧ IsTwo st s ∧ IsFracText ft ns) :
    parseIsoSecond rest = if s ≤ 60 then .ok (s, ns) else .err .invalidTimestamp := by
  rcases h with ⟨rfl, rfl, rfl⟩ | ⟨st, ft, rfl, h2, hf⟩
  · rfl
  · have hne : (sep ++ (st ++ ft)).isEmpty = false := by
      obtain ⟨a, b, rfl, _⟩ := isTwo_cases h2; cases sep <;> rfl
    have hsep : dropSepFront (sep ++ (st ++ ft)) = .ok (st ++ ft) := by
      rcases hs with rfl | rfl
      · exact dropSepFront_none (two_dig_cons h2 ft)
      · exact dropSepFront_some _ not_dig_colon
    rw [parseIsoSecond, hne, hsep]
    simp only [Bool.false_eq_true, if_false, Res.ok_bind]
    rw [popFrontTwo_eq h2]
    simp only [Res.ok_bind]
    by_cases h60 : s ≤ 60
    · simp only [ensure, h60, decide_true, if_true, Res.ok_bind]
      rcases hf with ⟨rfl, rfl⟩ | ⟨ds, rfl, h1, h9, hd, rfl⟩
      · rfl
      · simp only [List.isEmpty_cons, Bool.false_eq_true, if_false]
        rw [dropSepFront_some _ not_dig_dot]
        simp only [Res.ok_bind]
        rw [parseFrac_eq h1 h9 hd]
        rfl
    · simp [ensure, h60]

theorem parseIsoTime_eq {txt : Bytes} {h mi s ns : Nat} (ht : IsTimeText txt h mi s ns) :
    parseIsoTime txt = if h ≤ 24 ∧ mi ≤ 59 ∧ s ≤ 60 then .ok (h, mi, s, ns) else .err .invalidTimestamp := by
  obtain ⟨hh, mm, sep, rest, rfl, hs, h1, h2, h3⟩ := ht
  rw [parseIsoTime, popFrontTwo_eq h1]
  simp only [Res.ok_bind]
  by_cases c1 : h ≤ 24
  · simp only [ensure, c1, decide_true, if_true, Res.ok_bind, true_and]
    have hsep : dropSepFront (sep ++ (mm ++ rest)) = .ok (mm ++ rest) := by
      rcases hs with rfl | rfl
      · exact dropSepFront_none (two_dig_cons h2 rest)
      · exact dropSepFront_some _ not_dig_colon
    rw [hsep]
    simp only [Res.ok_bind]
    rw [popFrontTwo_eq h2]
    simp only [Res.ok_bind]
    by_cases c2 : mi ≤ 59
    · simp only [c2, decide_true, if_true, Res.ok_bind, true_and]
      rw [parseIsoSecond_eq hs h3]
      split <;> rfl
    · simp [c2]
  · simp [ensure, c1]

/-! ## The whole timestamp -/

theorem takeWhile_stop {p : UInt8 → Bool} {a b : Bytes} {c : UInt8} (h : ∀ x ∈ a, p x = true) (hc : p c = false) :
    (a ++ c :: b).takeWhile p = a ∧ (a ++ c :: b).dropWhile p = c :: b := by
  induction a with
  | nil => simp [hc]
  | cons x xs ih =>
    have hx := h x List.mem_cons_self
    have := ih (fun y hy => h y (List.mem_cons_of_mem _ hy))
    simp [hx, this.1, this.2]

theorem takeWhile_all {p : UInt8 → Bool} {a : Bytes} (h : ∀ x ∈ a, p x = true) :
    a.takeWhile p = a ∧ a.dropWhile p = [] := by
  induction a with
  | nil => simp
  | cons x xs ih =>
    have hx := h x List.mem_cons_self
    have := ih (fun y hy => h y (List.mem_cons_of_mem _ hy))
    simp [hx, this.1, this.2]

theorem dig_ne_T {c : UInt8} (h : IsDig c) : c ≠ chUT := by rintro rfl; simp [IsDig] at h

theorem dateText_noT {txt : Bytes} {y m d : Nat} (h : IsDateText txt y m d) : ∀ c ∈ txt, (c != chUT) = true := by
  obtain ⟨yt, mt, dt, sep, rfl, hs, hn, hd, hv, hm, hdd⟩ := h
  have hsep : ∀ c ∈ sep, (c != chUT) = true := by
    rcases hs with rfl | rfl <;> simp
  intro c hc
  simp only [List.mem_append] at hc
  rcases hc with h | h | h | h | h
  · simpa using dig_ne_T (hd c h)
  · exact hsep c h
  · simpa using dig_ne_T (hm.2.1 c h)
  · exact hsep c h
  · simpa using dig_ne_T (hdd.2.1 c h)

theorem timeText_chars {txt : Bytes} {h mi s ns : Nat} (ht : IsTimeText txt h mi s ns) :
    ∀ c ∈ txt, (isDigitCh c || c == chColon || c == chDot) = true := by
  obtain ⟨hh, mm, sep, rest, rfl, hs, h1, h2, h3⟩ := ht
  have hdig : ∀ {l : Bytes}, (∀ c ∈ l, IsDig c) → ∀ c ∈ l, (isDigitCh c || c == chColon || c == chDot) = true := by
    intro l hl c hc; simp [(isDigitCh_iff c).2 (hl c hc)]
  have hsep : ∀ c ∈ sep, (isDigitCh c || c == chColon || c == chDot) = true := by
    rcases hs with rfl | rfl <;> simp
  have hrest : ∀ c ∈ rest, (isDigitCh c || c == chColon || c == chDot) = true := by
    rcases h3 with ⟨rfl, _⟩ | ⟨st, ft, rfl, hst, hf⟩
    · simp
    · intro c hc
      simp only [List.mem_append] at hc
      rcases hc with h | h | h
      · exact hsep c h
      · exact hdig hst.2.1 c h
      · rcases hf with ⟨rfl, _⟩ | ⟨ds, rfl, _, _, hd, _⟩
        · simp at h
        · rcases List.mem_cons.1 h with rfl | h
          · rfl
          · exact hdig hd c h
  intro c hc
  simp only [List.mem_append] at hc
  rcases hc with h | h | h | h
  · exact hdig h1.2.1 c h
  · exact hsep c h
  · exact hdig h2.2.1 c h
  · exact hrest c h

theorem timeText_ne {txt : Bytes} {h mi s ns : Nat} (ht : IsTimeText txt h mi s ns) : txt ≠ [] := by
  obtain ⟨hh, mm, sep, rest, rfl, hs, h1, h2, h3⟩ := ht
  simp [two_ne h1]

/-- A timestamp up to the time zone. -/
theorem parseTimestamp_eq {txt z : Bytes} {y m d h mi s ns : Nat} (ht : IsLocalText txt y m d h mi s ns)
    (hy : y < 2147483648) (hz : z = [] ∨ ∃ c k, z = c :: k ∧ (isDigitCh c || c == chColon || c == chDot) = false) :
    parseTimestamp (txt ++ z) =
      if ((1 ≤ d ∧ d ≤ 31) ∧ 1 ≤ m ∧ m ≤ 12) ∧ h ≤ 24 ∧ mi ≤ 59 ∧ s ≤ 60 then
        (applyZone z h mi >>= fun p => .ok (civilToMs y m d p.1 p.2 s ns))
      else .err .invalidTimestamp := by
  obtain ⟨a, b, rfl, hd, hti⟩ := ht
  have e1 := takeWhile_stop (b := b ++ z) (dateText_noT hd) (c := chUT) (by rfl)
  have e2 : (b ++ z).takeWhile (fun c => isDigitCh c || c == chColon || c == chDot) = b ∧
      (b ++ z).dropWhile (fun c => isDigitCh c || c == chColon || c == chDot) = z := by
    rcases hz with rfl | ⟨c, k, rfl, hc⟩
    · rw [List.append_nil]; exact takeWhile_all (timeText_chars hti)
    · exact takeWhile_stop (timeText_chars hti) hc
  have hne : (b ++ z).isEmpty = false := by
    have := timeText_ne hti
    cases b with
    | nil => exact absurd rfl this
    | cons _ _ => rfl
  rw [List.append_assoc, List.cons_append, parseTimestamp]
  simp only [e1.1, e1.2, List.tail_cons, hne, Bool.false_eq_true, if_false, e2.1, e2.2]
  rw [parseIsoDate_eq hd hy, parseIsoTime_eq hti]
  by_cases c1 : (1 ≤ d ∧ d ≤ 31) ∧ 1 ≤ m ∧ m ≤ 12
  · rw [if_pos c1]
    simp only [Res.ok_bind]
    by_cases c2 : h ≤ 24 ∧ mi ≤ 59 ∧ s ≤ 60
    · rw [if_pos c2, if_pos ⟨c1, c2⟩]
      rfl
    · rw [if_neg c2, if_neg (fun hh => c2 hh.2)]
      rfl
  · rw [if_neg c1, if_neg (fun hh : ((1 ≤ d ∧ d ≤ 31) ∧ 1 ≤ m ∧ m ≤ 12) ∧ h ≤ 24 ∧ mi ≤ 59 ∧ s ≤ 60 => c1 hh.1)]
    rfl

theorem two_lt {txt : Bytes} {n : Nat} (h : IsTwo txt n) : n < 100 := by
  have := decVal_lt_pow txt h.2.1
  rw [h.1, h.2.2] at this
  exact this

/-- The offset of the time zone: the digits of the hours are read twice. -/
theorem applyZone_eq {z : Bytes} {plus : Bool} {hh mm : Nat} (hz : IsOffsetText z plus hh mm) (h mi : Nat) :
    applyZone z h mi = if hh ≤ 24 then
        .ok (if plus then (wrapU32 ((h : Int) - hh), wrapU32 ((mi : Int) - hh))
          else (wrapU32 ((h : Int) + hh), wrapU32 ((mi : Int) + hh)))
      else .err .invalidTimestamp := by
  obtain ⟨ht, mt, sep, rfl, hs, h1, h2⟩ := hz
  have hlen : ((if plus then chPlus else chMinus) :: (ht ++ (sep ++ mt))).length = 5 ∨
      ((if plus then chPlus else chMinus) :: (ht ++ (sep ++ mt))).length = 6 := by
    have a := h1.1
    have b := h2.1
    rcases hs with rfl | rfl <;> simp [a, b]
  have hcol : headIs (· == chColon) (ht ++ (sep ++ mt)) = false := by
    obtain ⟨a, b, rfl, ha, _⟩ := isTwo_cases h1
    have : a ≠ chColon := by rintro rfl; exact not_dig_colon ha
    simpa [headIs] using this
  have hc : (if plus then chPlus else chMinus) ≠ chUZ := by cases plus <;> decide
  unfold applyZone
  simp only [hc, if_false]
  have e1 : ensure (((if plus then chPlus else chMinus) :: (ht ++ (sep ++ mt))).length == 5 ||
      ((if plus then chPlus else chMinus) :: (ht ++ (sep ++ mt))).length == 6) .invalidTimestamp = .ok () := by
    rcases hlen with h | h <;> simp [ensure, h]
  have e2 : ensure ((if plus then chPlus else chMinus) == chPlus || (if plus then chPlus else chMinus) == chMinus)
      .invalidTimestamp = .ok () := by cases plus <;> rfl
  rw [e1, e2]
  simp only [Res.ok_bind, hcol, Bool.false_eq_true, if_false]
  rw [parseTwo_eq h1]
  simp only [Res.ok_bind]
  by_cases c : hh ≤ 24
  · have c' : hh ≤ 61 := by omega
    simp only [ensure, c, c', decide_true, if_true, Res.ok_bind]
    cases plus <;> simp
  · simp [ensure, c]

theorem applyZone_utc (z : Bytes) (hz : z = [] ∨ z = [chUZ]) (h mi : Nat) : applyZone z h mi = .ok (h, mi) := by
  rcases hz with rfl | rfl <;> simp [applyZone]

theorem offset_head {z : Bytes} {plus : Bool} {hh mm : Nat} (hz : IsOffsetText z plus hh mm) :
    ∃ c k, z = c :: k ∧ (isDigitCh c || c == chColon || c == chDot) = false := by
  obtain ⟨ht, mt, sep, rfl, _⟩ := hz
  exact ⟨_, _, rfl, by cases plus <;> decide⟩

end Verif
