import Verif.Props.Date
import Verif.Props.Typed
import Verif.Spec.Ascii

/-!
# C125: timestamps of any content are read or rejected
-/

namespace Verif

open Spec

theorem parseTwo_defined : ∀ {b : Bytes}, 2 ≤ b.length → parseTwo b ≠ .ub
  | [], h => by simp at h
  | [_], h => by simp at h
  | a :: b :: rest, _ => by
    unfold parseTwo
    dsimp only
    by_cases ha : isDigitCh a = true
    · rw [if_pos ha]
      by_cases hb : isDigitCh b = true
      · rw [if_pos hb]; simp
      · rw [if_neg hb]; simp
    · rw [if_neg ha]; simp

theorem parseDigits_defined {lim : Nat} : ∀ (n acc : Nat) (b : Bytes), b.length ≤ n → (acc + 1) * 10 ^ n ≤ lim → parseDigits lim acc b ≠ .ub
  | n, acc, [], _, _ => by simp [parseDigits]
  | 0, acc, c :: cs, h, _ => by simp at h
  | n + 1, acc, c :: cs, h, hl => by
    unfold parseDigits
    by_cases hc : isDigitCh c = true
    · rw [if_pos hc]
      have hd : (c - ch0).toNat < 10 := by simpa [isDigitCh] using hc
      have hp : 0 < 10 ^ n := Nat.pow_pos (by decide)
      have h1 : (10 * acc + (c - ch0).toNat + 1) * 10 ^ n ≤ (acc + 1) * 10 ^ (n + 1) := by
        rw [Nat.pow_succ, Nat.mul_comm (10 ^ n) 10, ← Nat.mul_assoc]
        exact Nat.mul_le_mul_right _ (by omega)
      have h2 : 10 * acc + (c - ch0).toNat + 1 ≤ (10 * acc + (c - ch0).toNat + 1) * 10 ^ n := Nat.le_mul_of_pos_right _ hp
      rw [if_neg (by omega)]
      exact parseDigits_defined n _ cs (by simpa using h) (by omega)
    · rw [if_neg hc]; simp

theorem parseYear_defined {b : Bytes} (h : b.length ≤ 9) : parseYear b ≠ .ub := by
  unfold parseYear
  cases b with
  | nil => simp
  | cons c cs =>
    refine Res.bind_ne_ub (parseDigits_defined 9 0 _ ?_ (by decide)) fun _ _ => by simp
    split
    · simp only [List.length_cons] at h; omega
    · exact h

theorem popBackTwo_defined {b : Bytes} (h : 2 ≤ b.length) : popBackTwo b ≠ .ub ∧ ∀ v r, popBackTwo b = .ok (v, r) → r.length = b.length - 2 := by
  unfold popBackTwo
  rw [if_neg (by omega)]
  have h2 : parseTwo (b.drop (b.length - 2)) ≠ .ub := parseTwo_defined (by simp; omega)
  constructor
  · exact Res.bind_ne_ub h2 fun _ _ => by simp
  · intro v r hr
    obtain ⟨x, -, hx⟩ := Res.bind_eq_ok.1 hr
    simp only [Res.ok.injEq, Prod.mk.injEq] at hx
    rw [← hx.2, List.length_take]
    omega

theorem popFrontTwo_defined {b : Bytes} (h : 2 ≤ b.length) : popFrontTwo b ≠ .ub ∧ ∀ v r, popFrontTwo b = .ok (v, r) → r.length = b.length - 2 := by
  unfold popFrontTwo
  rw [if_neg (by omega)]
  constructor
  · exact Res.bind_ne_ub (parseTwo_defined h) fun _ _ => by simp
  · intro v r hr
    obtain ⟨x, -, hx⟩ := Res.bind_eq_ok.1 hr
    simp only [Res.ok.injEq, Prod.mk.injEq] at hx
    rw [← hx.2, List.length_drop]

theorem dropSepBack_defined {b : Bytes} (h : b ≠ []) : dropSepBack b ≠ .ub ∧ ∀ r, dropSepBack b = .ok r → r.length = b.length ∨ r.length = b.length - 1 := by
  unfold dropSepBack
  cases hl : b.getLast? with
  | none => exact absurd (List.getLast?_eq_none_iff.1 hl) h
  | some c =>
    refine ⟨by simp, fun r hr => ?_⟩
    simp only [Res.ok.injEq] at hr
    split at hr <;> subst hr <;> simp

theorem dropSepFront_defined {b : Bytes} (h : b ≠ []) : dropSepFront b ≠ .ub ∧ ∀ r, dropSepFront b = .ok r → r.length = b.length ∨ r.length = b.length - 1 := by
  unfold dropSepFront
  cases b with
  | nil => exact absurd rfl h
  | cons c cs =>
    refine ⟨by simp, fun r hr => ?_⟩
    simp only [Res.ok.injEq] at hr
    split at hr <;> subst hr <;> simp

theorem ne_nil_of_len {b : Bytes} (h : 0 < b.length) : b ≠ [] := by
  rintro rfl
  simp at h

theorem ensure_ne_ub' (b : Bool) (e : Err) : ensure b e ≠ .ub := by cases b <;> simp [ensure]

theorem parseIsoDate_defined {b : Bytes} (h : 6 ≤ b.length) (h' : b.length ≤ 13) : parseIsoDate b ≠ .ub := by
  unfold parseIsoDate
  have h1 := popBackTwo_defined (b := b) (by omega)
  refine Res.bind_ne_ub h1.1 fun x hx => ?_
  obtain ⟨d, b1⟩ := x
  have l1 := h1.2 _ _ hx
  refine Res.bind_ne_ub (ensure_ne_ub' _ _) fun _ _ => ?_
  have h2 := dropSepBack_defined (b := b1) (ne_nil_of_len (by omega))
  refine Res.bind_ne_ub h2.1 fun b2 hb2 => ?_
  have l2 := h2.2 _ hb2
  have h3 := popBackTwo_defined (b := b2) (by omega)
  refine Res.bind_ne_ub h3.1 fun x hx => ?_
  obtain ⟨m, b3⟩ := x
  have l3 := h3.2 _ _ hx
  refine Res.bind_ne_ub (ensure_ne_ub' _ _) fun _ _ => ?_
  have h4 := dropSepBack_defined (b := b3) (ne_nil_of_len (by omega))
  refine Res.bind_ne_ub h4.1 fun b4 hb4 => ?_
  have l4 := h4.2 _ hb4
  exact Res.bind_ne_ub (parseYear_defined (by omega)) fun _ _ => by simp

theorem parseFrac_defined {b : Bytes} (h : b.length ≤ 9) : parseFrac b ≠ .ub := by
  unfold parseFrac
  rw [List.take_of_length_le h]
  cases b with
  | nil => simp
  | cons c cs =>
    refine Res.bind_ne_ub (parseDigits_defined 9 0 _ ?_ (by decide)) fun _ _ => ?_
    · split
      · simp only [List.length_cons] at h; omega
      · exact h
    · rw [if_neg (by omega)]; simp

theorem parseIsoSecond_defined {b : Bytes} (h : b = [] ∨ 3 ≤ b.length ∧ b.length ≤ 11) : parseIsoSecond b ≠ .ub := by
  unfold parseIsoSecond
  rcases h with rfl | ⟨h, h'⟩
  · simp
  · rw [if_neg (by cases b <;> simp_all)]
    have h1 := dropSepFront_defined (b := b) (ne_nil_of_len (by omega))
    refine Res.bind_ne_ub h1.1 fun b1 hb1 => ?_
    have l1 := h1.2 _ hb1
    have h2 := popFrontTwo_defined (b := b1) (by omega)
    refine Res.bind_ne_ub h2.1 fun x hx => ?_
    obtain ⟨s, b2⟩ := x
    have l2 := h2.2 _ _ hx
    refine Res.bind_ne_ub (ensure_ne_ub' _ _) fun _ _ => ?_
    cases b2 with
    | nil => simp
    | cons c cs =>
      have h3 := dropSepFront_defined (b := c :: cs) (by simp)
      simp only [List.isEmpty_cons, Bool.false_eq_true, if_false]
      refine Res.bind_ne_ub h3.1 fun b3 hb3 => ?_
      have l3 := h3.2 _ hb3
      exact Res.bind_ne_ub (parseFrac_defined (by omega)) fun _ _ => by simp

/-- Two characters, a third that is no digit, and two more; or more of any kind. -/
theorem parseIsoTime_defined {b : Bytes} (h : (b.length = 5 ∧ ∃ c, b[2]? = some c ∧ isDigitCh c = false) ∨ 8 ≤ b.length ∧ b.length ≤ 15) :
    parseIsoTime b ≠ .ub := by
  unfold parseIsoTime
  have h1 := popFrontTwo_defined (b := b) (by omega)
  refine Res.bind_ne_ub h1.1 fun x hx => ?_
  obtain ⟨hh, b1⟩ := x
  have l1 := h1.2 _ _ hx
  have hb1 : b1 = b.drop 2 := by
    unfold popFrontTwo at hx
    rw [if_neg (by omega)] at hx
    obtain ⟨y, -, hy⟩ := Res.bind_eq_ok.1 hx
    simp only [Res.ok.injEq, Prod.mk.injEq] at hy
    exact hy.2.symm
  refine Res.bind_ne_ub (ensure_ne_ub' _ _) fun _ _ => ?_
  have h2 := dropSepFront_defined (b := b1) (ne_nil_of_len (by omega))
  refine Res.bind_ne_ub h2.1 fun b2 hb2 => ?_
  have l2 := h2.2 _ hb2
  have h3 := popFrontTwo_defined (b := b2) (by omega)
  refine Res.bind_ne_ub h3.1 fun x hx => ?_
  obtain ⟨mi, b3⟩ := x
  have l3 := h3.2 _ _ hx
  refine Res.bind_ne_ub (ensure_ne_ub' _ _) fun _ _ => ?_
  refine Res.bind_ne_ub (parseIsoSecond_defined ?_) fun _ _ => by simp
  rcases h with ⟨hl, c, hc, hd⟩ | ⟨h, h'⟩
  · left
    have hb2l : b2.length = 2 := by
      unfold dropSepFront at hb2
      cases hb : b1 with
      | nil => rw [hb] at l1; simp at l1; omega
      | cons a as =>
        rw [hb] at hb2 l1
        have : a = c := by
          have h0 : (b.drop 2)[0]? = some c := by rw [List.getElem?_drop]; exact hc
          rw [← hb1, hb] at h0
          simpa using h0
        subst this
        dsimp only at hb2
        rw [if_neg (by simp [hd])] at hb2
        simp only [Res.ok.injEq] at hb2
        subst hb2
        simp only [List.length_cons] at l1
        omega
    exact List.eq_nil_of_length_eq_zero (by omega)
  · right
    omega

theorem applyZone_defined (z : Bytes) (h mi : Nat) : applyZone z h mi ≠ .ub := by
  unfold applyZone
  cases z with
  | nil => simp
  | cons c cs =>
    dsimp only
    split
    · simp
    · cases hl : ((c :: cs).length == 5 || (c :: cs).length == 6) with
      | false => simp [ensure]
      | true =>
        have hl' : 4 ≤ cs.length := by
          simp only [List.length_cons, Bool.or_eq_true, beq_iff_eq] at hl
          omega
        refine Res.bind_ne_ub (ensure_ne_ub' _ _) fun _ _ => Res.bind_ne_ub (ensure_ne_ub' _ _) fun _ _ => ?_
        refine Res.bind_ne_ub (parseTwo_defined (by omega)) fun _ _ => Res.bind_ne_ub (ensure_ne_ub' _ _) fun _ _ => ?_
        refine Res.bind_ne_ub (parseTwo_defined ?_) fun _ _ => Res.bind_ne_ub (ensure_ne_ub' _ _) fun _ _ => ?_
        · split
          · rw [List.length_tail]; omega
          · omega
        · split <;> simp

/-- **C125, partial.**  A string of any content whose date has six to thirteen characters and whose time has five, the third being no digit, or eight to fifteen, is read
or rejected, whatever the time zone: nothing outside of it is looked at and nothing overflows.  Missing: other lengths, see `C125_false`. -/
theorem C125_defined_partial (date time zone : Bytes) (hT : 0x54 ∉ date) (hd : 6 ≤ date.length ∧ date.length ≤ 13)
    (ht : ∀ c ∈ time, isDigitCh c = true ∨ c = 0x3A ∨ c = 0x2E) (hz : ∀ c, zone.head? = some c → isDigitCh c = false ∧ c ≠ 0x3A ∧ c ≠ 0x2E)
    (hl : (time.length = 5 ∧ ∃ c, time[2]? = some c ∧ isDigitCh c = false) ∨ 8 ≤ time.length ∧ time.length ≤ 15) :
    parseTimestamp (date ++ 0x54 :: (time ++ zone)) ≠ .ub := by
  have key : ∀ l : Bytes, 0x54 ∉ l → (l ++ 0x54 :: (time ++ zone)).takeWhile (· != chUT) = l ∧
      (l ++ 0x54 :: (time ++ zone)).dropWhile (· != chUT) = 0x54 :: (time ++ zone) := by
    intro l
    induction l with
    | nil => intro _; simp
    | cons c cs ih =>
      intro h0
      simp only [List.mem_cons, not_or] at h0
      have hc : (fun x : UInt8 => x != 0x54) c = true := by simpa using fun e => h0.1 e.symm
      obtain ⟨i1, i2⟩ := ih h0.2
      rw [List.cons_append, List.takeWhile_cons_of_pos (p := fun x : UInt8 => x != 0x54) hc, List.dropWhile_cons_of_pos (p := fun x : UInt8 => x != 0x54) hc, i1, i2]
      exact ⟨rfl, rfl⟩
  have key2 : ∀ l : Bytes, (∀ c ∈ l, isDigitCh c = true ∨ c = 0x3A ∨ c = 0x2E) →
      (l ++ zone).takeWhile (fun c => isDigitCh c || c == chColon || c == chDot) = l := by
    intro l
    induction l with
    | nil =>
      intro _
      cases hzz : zone with
      | nil => rfl
      | cons z zs =>
        obtain ⟨a, b, c⟩ := hz z (by rw [hzz]; rfl)
        rw [List.nil_append, List.takeWhile_cons_of_neg (by simp [a, b, c])]
    | cons c cs ih =>
      intro h0
      have hc : (fun c : UInt8 => isDigitCh c || c == chColon || c == chDot) c = true := by
        rcases h0 c (by simp) with h | h | h <;> simp [h]
      rw [List.cons_append, List.takeWhile_cons_of_pos (p := fun c : UInt8 => isDigitCh c || c == chColon || c == chDot) hc, ih fun x hx => h0 x (by simp [hx])]
  unfold parseTimestamp
  obtain ⟨k1, k2⟩ := key date hT
  dsimp only
  rw [k1, k2, List.tail_cons]
  split
  · simp
  · refine Res.bind_ne_ub (parseIsoDate_defined hd.1 hd.2) fun _ _ => ?_
    rw [key2 time ht]
    refine Res.bind_ne_ub (parseIsoTime_defined hl) fun _ _ => Res.bind_ne_ub (applyZone_defined _ _ _) fun _ _ => by simp

/-- Non-vacuity: a date that is none, and a time without colons. -/
example : parseTimestamp asc! "20x3-1/1xT1:2.3:4:5+1:234" ≠ .ub ∧ parseTimestamp asc! "2023-01-01T12:34Q" = .err .invalidTimestamp :=
  ⟨C125_defined_partial asc! "20x3-1/1x" asc! "1:2.3:4:5" asc! "+1:234" (by decide) (by decide) (by decide) (by simp; decide) (.inr (by decide)), by decide +kernel⟩

/-- **C125 is false for short texts.**  Too few characters in front of the `T` or behind it: more is removed from the `string_view` than there is, whatever the text.
More than nine characters of a fraction: the power of ten has a negative exponent. -/
theorem C125_false (date rest : Bytes) (hT : 0x54 ∉ date) (hd : date.length < 2) (hr : rest ≠ []) :
    parseTimestamp (date ++ 0x54 :: rest) = .ub ∧ parseTimestamp asc! "2023-01-01T12:34:" = .ub ∧ parseTimestamp asc! "2023-01-01TZ" = .ub ∧
      parseTimestamp asc! "2023-01-01T12:34:56.1234567890Z" = .ub := by
  refine ⟨?_, by decide +kernel, by decide +kernel, by decide +kernel⟩
  have hr' : rest.isEmpty = false := by cases rest <;> simp_all
  unfold parseTimestamp
  have : ∀ d : Bytes, 0x54 ∉ d → (d ++ 0x54 :: rest).takeWhile (· != chUT) = d ∧ ((d ++ 0x54 :: rest).dropWhile (· != chUT)).tail = rest := by
    intro l
    induction l with
    | nil => intro _; simp
    | cons c cs ih =>
      intro h0
      simp only [List.mem_cons, not_or] at h0
      have hc : (fun x : UInt8 => x != 0x54) c = true := by simpa using fun e => h0.1 e.symm
      obtain ⟨i1, i2⟩ := ih h0.2
      rw [List.cons_append, List.takeWhile_cons_of_pos (p := fun x : UInt8 => x != 0x54) hc, List.dropWhile_cons_of_pos (p := fun x : UInt8 => x != 0x54) hc, i1, i2]
      exact ⟨rfl, rfl⟩
  obtain ⟨k1, k2⟩ := this date hT
  dsimp only
  rw [k1, k2, hr']
  simp [parseIsoDate, popBackTwo, hd]

example : parseTimestamp asc! "1T2" = .ub := (C125_false asc! "1" asc! "2" (by decide) (by decide) (by decide)).1

/-- **C125, partial**, for documents: `from_json` of a string that is a date of such lengths gives a value or an exception, whatever follows it. -/
theorem C125_document_partial (t : TCfg) (hck : t.cfg.checked = true) (Δ : Env) (f : Nat) (date time zone k : Bytes) (hT : 0x54 ∉ date)
    (hd : 6 ≤ date.length ∧ date.length ≤ 13) (ht : ∀ c ∈ time, isDigitCh c = true ∨ c = 0x3A ∨ c = 0x2E)
    (hz : ∀ c, zone.head? = some c → isDigitCh c = false ∧ c ≠ 0x3A ∧ c ≠ 0x2E)
    (hl : (time.length = 5 ∧ ∃ c, time[2]? = some c ∧ isDigitCh c = false) ∨ 8 ≤ time.length ∧ time.length ≤ 15)
    (hb : IsStrBody (date ++ 0x54 :: (time ++ zone))) (hs : (date ++ 0x54 :: (time ++ zone)).length < 2 ^ 63) (hk : k.getLast? ≠ some 0) :
    fromJson t Δ (f + 1) (.txt .date) (0x22 :: ((date ++ 0x54 :: (time ++ zone)) ++ 0x22 :: k)) ≠ .ub := by
  have hts := C125_defined_partial date time zone hT hd ht hz hl
  generalize date ++ 0x54 :: (time ++ zone) = b at hts hb hs ⊢
  have hlast : ((0x22 : UInt8) :: (b ++ 0x22 :: k)).getLast? ≠ some 0 := by
    rw [show (0x22 : UInt8) :: (b ++ 0x22 :: k) = (0x22 :: (b ++ [0x22])) ++ k by simp, List.getLast?_append]
    cases hkl : k.getLast? with
    | none => rw [← List.cons_append, List.getLast?_concat]; simp
    | some c => rw [hkl] at hk; simpa using hk
  obtain ⟨r, hr, hrt⟩ : ∃ r : Range, skipString t.cfg false (0x22 :: (b ++ 0x22 :: k)) = .ok (r, k) ∧ r.text = b :=
    ⟨_, skipString_body t.cfg hb (by unfold npos; omega) k, rfl⟩
  unfold fromJson
  dsimp only
  rw [if_neg hlast]
  simp only [List.isEmpty_cons, Bool.not_false, ensure_true, Res.ok_bind]
  refine Res.bind_ne_ub ?_ fun x _ => ?_
  · rw [parseU]
    simp only [parseTxt, parseDate, hck, List.isEmpty_cons, Bool.not_false, assertWeak_tt, Res.ok_bind, hr, hrt]
    exact Res.bind_ne_ub (Res.bind_ne_ub hts fun _ _ => by simp) fun _ _ => by simp
  · split
    · rw [trim_ck hck]
      exact Res.bind_ne_ub (by simp) fun _ _ => Res.bind_ne_ub (ensure_ne_ub' _ _) fun _ _ => by simp
    · simp

/-- Non-vacuity. -/
example : fromJson {} exEnv 9 (.txt .date) asc! "\"2023-13-01T12:34Z\"," ≠ .ub ∧ fromJson {} exEnv 9 (.txt .date) asc! "\"2023-13-01T12:34Z\"," = .err .invalidTimestamp :=
  ⟨C125_document_partial {} rfl exEnv 8 asc! "2023-13-01" asc! "12:34" asc! "Z" asc! "," (by decide) (by decide) (by decide) (by simp; decide)
    (.inl ⟨rfl, 0x3A, rfl, by decide⟩) (by repeat' first | exact .nil | refine .plain (by decide) (by decide) (by decide) ?_) (by decide) (by decide), by decide +kernel⟩

end Verif
