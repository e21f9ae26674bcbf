import Verif.Model.ZeroTerm
import Verif.Proof.TypedMain

/-!
# Zero terminated documents: skipping and scalars
-/

namespace Verif

open Spec

/-! ## The part of the buffer in front of `last` -/

theorem beforeZ_append {k : Nat} (a b : Bytes) (h : k ≤ b.length) : beforeZ k (a ++ b) = a ++ beforeZ k b := by
  unfold beforeZ
  rw [List.take_append, List.take_of_length_le (by rw [List.length_append]; omega)]
  congr 2
  rw [List.length_append]; omega

theorem behindZ_append {k : Nat} (a b : Bytes) (h : k ≤ b.length) : behindZ k (a ++ b) = behindZ k b := by
  unfold behindZ
  rw [List.drop_append, List.drop_eq_nil_of_le (by rw [List.length_append]; omega), List.nil_append]
  congr 1
  rw [List.length_append]; omega

theorem before_behind (k : Nat) (s : Bytes) : beforeZ k s ++ behindZ k s = s := List.take_append_drop _ _

theorem beforeZ_self (a b : Bytes) : beforeZ b.length (a ++ b) = a := by
  rw [beforeZ_append _ _ (Nat.le_refl _)]
  simp [beforeZ]

theorem behindZ_self (a b : Bytes) : behindZ b.length (a ++ b) = b := by
  rw [behindZ_append _ _ (Nat.le_refl _)]
  simp [behindZ]

theorem moreZ_cons {k : Nat} {c : UInt8} {s : Bytes} (h : k ≤ s.length) : moreZ k (c :: s) = true := by
  simp [moreZ]; omega

theorem moreZ_of_lt {k : Nat} {s : Bytes} (h : k < s.length) : moreZ k s = true := by simp [moreZ, h]

theorem moreZ_append {k : Nat} {a s : Bytes} (h : k ≤ s.length) (ha : a ≠ []) : moreZ k (a ++ s) = true := by
  have := List.length_pos_iff.2 ha
  apply moreZ_of_lt
  rw [List.length_append]; omega

theorem frontZ_cons (c : UInt8) (s : Bytes) : frontZ (c :: s) = c := rfl

theorem emptyZ_cons {k : Nat} {c : UInt8} {s : Bytes} (h : k ≤ s.length) (hc : c ≠ 0) : emptyZ k (c :: s) = false := by
  simp [emptyZ, moreZ_cons h, frontZ_cons, hc]

theorem atZ_cons {k : Nat} {c : UInt8} {s : Bytes} (h : k ≤ s.length) : atZ c k (c :: s) = true := by
  simp [atZ, moreZ_cons h, frontZ_cons]

theorem dropWs_len (s : Bytes) : (dropWs s).length ≤ s.length := by
  obtain ⟨w, -, h⟩ := dropWs_trimEq s
  have := congrArg List.length h
  rw [List.length_append] at this
  omega

theorem NoDig_before {s : Bytes} (h : NoDig s) (k : Nat) : NoDig (beforeZ k s) := by
  intro x hx
  apply h x
  unfold beforeZ at hx
  cases s with
  | nil => simp at hx
  | cons y t =>
    cases hn : (y :: t).length - k with
    | zero => rw [hn] at hx; simp at hx
    | succ n => rw [hn] at hx; simpa using hx

/-! ## Strings -/

theorem strBody_ne_zero {b : Bytes} (h : IsStrBody b) : ∀ c ∈ b, c ≠ 0 := by
  have hex : ∀ c : UInt8, IsHex c → c ≠ 0 := by rintro c hc rfl; revert hc; simp [IsHex, IsDig]
  induction h with
  | nil => simp
  | @plain c cs h1 _ _ _ ih =>
    intro d hd
    rcases List.mem_cons.1 hd with rfl | hd
    · rintro rfl; simp at h1
    · exact ih d hd
  | @esc c cs h1 _ ih =>
    intro d hd
    rcases List.mem_cons.1 hd with rfl | hd
    · decide
    rcases List.mem_cons.1 hd with rfl | hd
    · rintro rfl; revert h1; simp [isSimpleEsc]
    · exact ih d hd
  | @uni a b c d cs h1 h2 h3 h4 _ ih =>
    intro x hx
    simp only [List.mem_cons] at hx
    rcases hx with rfl | rfl | rfl | rfl | rfl | rfl | hx
    · decide
    · decide
    · exact hex _ h1
    · exact hex _ h2
    · exact hex _ h3
    · exact hex _ h4
    · exact ih x hx

/-- Without a zero byte in front of the closing quote, the scan is the one of a string with an end. -/
theorem nqScanZ_of_some {off slow : Nat} {s : Bytes} {r : Nat × Nat} (h : nqScan off slow s = some r)
    (hz : ∀ c ∈ s.take (r.2 - off), c ≠ 0) : nqScanZ off slow s = .ok r := by
  have mono : ∀ {off slow s} {r : Nat × Nat}, nqScan off slow s = some r → off ≤ r.2 := by
    intro off slow s r h
    fun_induction nqScan off slow s <;> simp_all <;> first | omega | (subst h; simp)
  fun_induction nqScan off slow s with
  | case1 => simp at h
  | case2 off slow cs =>
    simp at h
    subst h
    rw [nqScanZ.eq_def]; simp
  | case3 => simp_all
  | case4 off slow d cs hq ih =>
    have hm := mono h
    have h2 : r.2 - off = (r.2 - (off + 2)) + 2 := by omega
    rw [nqScanZ.eq_def]
    simp only
    rw [if_neg (by decide), if_neg (by decide), if_pos trivial]
    apply ih h
    intro c hc
    apply hz c
    rw [h2]
    simp [hc]
  | case5 off slow c cs hq hb ih =>
    have hm := mono h
    have h2 : r.2 - off = (r.2 - (off + 1)) + 1 := by omega
    have h0 : c ≠ 0 := hz c (by rw [h2]; simp)
    rw [nqScanZ.eq_def]
    simp only
    rw [if_neg hq, if_neg h0, if_neg hb]
    apply ih h
    intro c hc
    apply hz c
    rw [h2]
    simp [hc]

theorem nqScanExclZ_of_ok {off slow k : Nat} {s : Bytes} {r : Nat × Nat} (h : nqScanExcl off slow s = .ok r)
    (hk : r.2 - off + k < s.length) : nqScanExclZ k off slow s = .ok r := by
  have mono : ∀ {off slow s} {r : Nat × Nat}, nqScanExcl off slow s = .ok r → off ≤ r.2 := by
    intro off slow s r h
    fun_induction nqScanExcl off slow s <;> simp_all <;> first | omega | (subst h; simp)
  fun_induction nqScanExcl off slow s with
  | case1 => simp at h
  | case2 => simp at h
  | case3 => simp at h
  | case4 off slow d cs h2 h1 ih =>
    have hm := mono h
    rw [nqScanExclZ.eq_def]
    simp only
    rw [if_neg h1, if_pos trivial, if_pos (by simp only [List.length_cons] at hk ⊢; omega), if_pos h2]
    apply ih h
    simp only [List.length_cons] at hk
    omega
  | case5 => simp at h
  | case6 off slow cs h1 h2 =>
    simp at h
    subst h
    rw [nqScanExclZ.eq_def]
    simp
  | case7 off slow c cs h1 h2 h3 ih =>
    have hm := mono h
    rw [nqScanExclZ.eq_def]
    simp only
    rw [if_neg h1, if_neg h2, if_neg h3]
    apply ih h
    simp only [List.length_cons] at hk
    omega

theorem parseNqZ_body (cfg : Cfg) {b : Bytes} (h : IsStrBody b) (hl : b.length < npos) {k : Nat} {c : Bytes}
    (hk : k ≤ c.length) : parseNqZ cfg k (b ++ chQuote :: c) = .ok (firstEsc b, b.length) := by
  have hnq := parseNq_firstEsc { cfg with checked := true } h hl c
  unfold parseNq at hnq
  rw [if_pos rfl] at hnq
  unfold parseNqZ
  cases hx : cfg.exclSpecial with
  | true =>
    simp only [hx, parseNqCheck, if_true] at hnq ⊢
    apply nqScanExclZ_of_ok hnq
    simp only [List.length_append, List.length_cons]
    omega
  | false =>
    simp only [hx, parseNqCheck_false, Bool.false_eq_true, if_false] at hnq ⊢
    have hnq' : nqScan 0 npos (b ++ chQuote :: c) = some (firstEsc b, b.length) := by
      revert hnq
      cases nqScan 0 npos (b ++ chQuote :: c) <;> simp
    obtain ⟨h1, h2⟩ := preSkip_spec (beforeZ k (b ++ chQuote :: c))
    generalize preSkip (beforeZ k (b ++ chQuote :: c)) = n at h1 h2 ⊢
    have hnl : n ≤ (b ++ chQuote :: c).length := by
      refine Nat.le_trans h1 ?_
      simp [beforeZ]
    have ht : (beforeZ k (b ++ chQuote :: c)).take n = (b ++ chQuote :: c).take n := by
      unfold beforeZ at h1 ⊢
      rw [List.take_take]
      congr 1
      rw [List.length_take] at h1
      omega
    rw [ht] at h2
    have hp := nqScan_plain 0 npos ((b ++ chQuote :: c).take n) ((b ++ chQuote :: c).drop n) h2
    rw [List.take_append_drop, hnq', List.length_take, Nat.zero_add, Nat.min_eq_left hnl] at hp
    apply nqScanZ_of_some hp.symm
    intro x hx
    have hnb : n ≤ b.length := by
      refine Nat.le_of_not_lt fun hcon => ?_
      have := (h2 chQuote (by
        rw [List.take_append]
        obtain ⟨j, hj⟩ : ∃ j, n - b.length = j + 1 := ⟨n - b.length - 1, by omega⟩
        rw [hj]; simp)).1
      exact this rfl
    dsimp only at hx
    rw [List.drop_append_of_le_length hnb, List.take_append_of_le_length (by rw [List.length_drop])] at hx
    exact strBody_ne_zero h x (List.mem_of_mem_drop (List.mem_of_mem_take hx))

theorem skipStringNqZ_body (cfg : Cfg) {b : Bytes} (h : IsStrBody b) (hl : b.length < npos) {k : Nat} {c : Bytes}
    (hk : k ≤ c.length) : skipStringNqZ cfg k (b ++ chQuote :: c)
      = .ok ({ s := b ++ chQuote :: c, k := c.length + 1, counter := firstEsc b }, c) := by
  unfold skipStringNqZ
  rw [parseNqZ_body cfg h hl hk]
  simp

theorem skipStringZ_body (cfg : Cfg) {b : Bytes} (h : IsStrBody b) (hl : b.length < npos) {k : Nat} {c : Bytes}
    (hk : k ≤ c.length) : skipStringZ cfg k (chQuote :: (b ++ chQuote :: c))
      = .ok ({ s := b ++ chQuote :: c, k := c.length + 1, counter := firstEsc b }, c) := by
  have h1 : k ≤ (b ++ chQuote :: c).length := by rw [List.length_append, List.length_cons]; omega
  have h2 : moreZ k (b ++ chQuote :: c) = true := by
    apply moreZ_of_lt; rw [List.length_append, List.length_cons]; omega
  unfold skipStringZ
  rw [emptyZ_cons h1 (by decide)]
  simp only [Bool.false_eq_true, if_false, frontZ_cons, beq_self_eq_true, ensure_true, Res.ok_bind, List.tail_cons, h2,
    skipStringNqZ_body cfg h hl hk]

theorem parseStrRangeZ_body (cfg : Cfg) (hck : cfg.checked = true) (ah : Bool) {b s : Bytes} (h : Unesc b s)
    (hl : b.length < 2 ^ 63) (c : Bytes) :
    parseStrRangeZ cfg ah { s := b ++ chQuote :: c, k := c.length + 1, counter := firstEsc b } = .ok s := by
  unfold parseStrRangeZ ZRange.text
  have h1 := beforeZ_self b (chQuote :: c)
  have h2 := behindZ_self b (chQuote :: c)
  rw [List.length_cons] at h1 h2
  simp only [h1, h2, List.cons_append]
  exact parseStrRange_body cfg ah h hl (c ++ [0]) (Or.inr (Or.inl hck))

theorem parseStrZ_body (cfg : Cfg) (hck : cfg.checked = true) (ah : Bool) {b s : Bytes} (h : Unesc b s)
    (hl : b.length < 2 ^ 63) {k : Nat} {c : Bytes} (hk : k ≤ c.length) :
    parseStrZ cfg ah k (chQuote :: (b ++ chQuote :: c)) = .ok (s, c) := by
  have hnp : (2 : Nat) ^ 63 < npos := by decide
  have h1 : k ≤ (b ++ chQuote :: c).length := by rw [List.length_append, List.length_cons]; omega
  unfold parseStrZ
  rw [emptyZ_cons h1 (by decide), skipStringZ_body cfg (unesc_isStrBody h) (by omega) hk]
  simp only [Bool.not_false, ensure_true, Res.ok_bind, parseStrRangeZ_body cfg hck ah h hl c]

/-! ## Literals -/

theorem endOfLiteralZ_after {k : Nat} {c : Bytes} (e : Err) (h : AfterValue c) :
    endOfLiteralZ k e c = .ok (dropWs c) := by
  unfold endOfLiteralZ
  rw [trimChecked_after h]
  rcases dropWs_after h with hd | ⟨x, t, hd, hx⟩
  · rw [hd]; simp [moreZ]
  · rw [hd]; simp [frontZ, hx]

/-! ## Numbers -/

theorem skipDigitsZ_digits {k : Nat} {ds r : Bytes} (hd : ∀ c ∈ ds, IsDig c) (hr : NoDig r) (hk : k ≤ r.length) :
    skipDigitsZ k (ds ++ r) = r := by
  unfold skipDigitsZ
  split
  · exact skipDigits_digits ds r hd hr
  · rename_i h
    cases ds with
    | nil => rfl
    | cons c cs => exact absurd (moreZ_append hk (by simp)) h

theorem skipFracZ_spec {k : Nat} {f r : Bytes} (hf : IsFrac f) (hr : ∀ x, r.head? = some x → ¬ IsDig x ∧ x ≠ chDot)
    (hk : k ≤ r.length) : skipFracZ k (f ++ r) = r := by
  have hnd : NoDig r := fun x hx => (hr x hx).1
  unfold skipFracZ
  rcases hf with rfl | ⟨ds, hd, rfl⟩
  · cases r with
    | nil => rfl
    | cons x t => exact if_neg (hr x rfl).2
  · simp only [List.cons_append, frontZ_cons, if_true, List.tail_cons]
    exact skipDigitsZ_digits hd.2 hnd hk

theorem skipExpZ_spec {k : Nat} {e c : Bytes} (he : IsExp e) (hc : NumEnd c) (hk : k ≤ c.length) :
    skipExpZ k (e ++ c) = .ok c := by
  have hnd : NoDig c := fun x hx => (hc x hx).1
  unfold skipExpZ
  rcases he with rfl | ⟨y, s, ds, hy, hs, hd, rfl⟩
  · cases c with
    | nil => rfl
    | cons x t =>
      refine if_neg ?_
      rintro (h | h)
      · exact (hc x rfl).2.2.1 h
      · exact (hc x rfl).2.2.2 h
  · obtain ⟨d, t, rfl, hdd⟩ := isDigits_head hd
    have hdn := dig_ne hdd
    have hm1 : moreZ k (s ++ d :: t ++ c) = true := by
      apply moreZ_of_lt; simp only [List.length_append, List.length_cons]; omega
    have hm2 : moreZ k (d :: t ++ c) = true := by
      apply moreZ_of_lt; simp only [List.length_append, List.length_cons]; omega
    have hb : (if frontZ (s ++ d :: t ++ c) = chPlus ∨ frontZ (s ++ d :: t ++ c) = chMinus
        then (s ++ d :: t ++ c).tail else (s ++ d :: t ++ c)) = d :: t ++ c := by
      rcases hs with rfl | rfl | rfl
      · refine if_neg ?_
        rintro (h | h)
        · exact hdn.1 h
        · exact hdn.2.1 h
      · simp [frontZ]
      · simp [frontZ]
    have hy' : frontZ (y :: (s ++ d :: t) ++ c) = chLe ∨ frontZ (y :: (s ++ d :: t) ++ c) = chUe := by
      simpa [frontZ] using hy
    rw [if_pos hy']
    have htl : (y :: (s ++ d :: t) ++ c).tail = s ++ d :: t ++ c := rfl
    rw [htl, hm1]
    simp only [ensure_true, Res.ok_bind]
    rw [hb, hm2]
    have hdg : isDigit (frontZ (d :: t ++ c)) = true := (isDigit_iff d).2 hdd
    rw [hdg]
    simp only [Bool.and_self, ensure_true, Res.ok_bind]
    rw [skipDigitsZ_digits hd.2 hnd hk]

/-- What `skip_number` keeps of a number: where its characters, its fraction and its exponent are. -/
theorem skipNumberZ_range {k : Nat} (neg : Bool) (i f x c : Bytes) (hi : IsInt i) (hf : IsFrac f) (hx : IsExp x)
    (hc : NumEnd c) (hk : k ≤ c.length) :
    skipNumberZ k ((numRange neg i f x).text ++ c)
      = .ok ({ s := (numRange neg i f x).text ++ c, k := c.length, dec := (numRange neg i f x).dec
               exp := (numRange neg i f x).exp }, c) := by
  have hid := isInt_digits hi
  obtain ⟨d, t, rfl, hd⟩ := isDigits_head hid
  have hmore : moreZ k ((numRange neg (d :: t) f x).text ++ c) = true := by
    apply moreZ_of_lt; simp only [numRange, List.length_append, List.length_cons]; omega
  have hb : (if frontZ ((numRange neg (d :: t) f x).text ++ c) = chMinus
      then ((numRange neg (d :: t) f x).text ++ c).tail
      else (numRange neg (d :: t) f x).text ++ c) = d :: t ++ (f ++ (x ++ c)) := by
    cases neg
    · simp only [numRange, Bool.false_eq_true, if_false, List.nil_append, List.append_assoc]
      refine if_neg fun h => ?_
      exact (dig_ne hd).2.1 h
    · simp [numRange, frontZ]
  have hdot : (frontZ (f ++ (x ++ c)) = chDot) ↔ f ≠ [] := by
    rcases hf with rfl | ⟨ds, -, rfl⟩
    · simp only [List.nil_append, ne_eq, not_true_eq_false, iff_false]
      intro h
      cases hxc : x ++ c with
      | nil => rw [hxc] at h; exact absurd h (by decide)
      | cons y ys =>
        rw [hxc] at h
        exact (IsExp.head hx hc y (by rw [hxc]; rfl)).2 h
    · simp [frontZ]
  have hexp : (frontZ (x ++ c) = chLe ∨ frontZ (x ++ c) = chUe) ↔ x ≠ [] := by
    rcases hx with rfl | ⟨y, s, ds, hy, -, -, rfl⟩
    · simp only [List.nil_append, ne_eq, not_true_eq_false, iff_false]
      intro h
      cases c with
      | nil => exact absurd h (by decide)
      | cons y ys =>
        have := hc y rfl
        rcases h with h | h
        · exact this.2.2.1 h
        · exact this.2.2.2 h
    · simp only [List.cons_append, frontZ_cons, ne_eq, reduceCtorEq, not_false_eq_true, iff_true]
      exact hy
  unfold skipNumberZ
  rw [hmore]
  simp only [ensure_true, Res.ok_bind]
  rw [hb]
  rw [skipDigitsZ_digits hid.2 (IsFrac.head hf hx hc) (by simp only [List.length_append]; omega),
    skipFracZ_spec hf (IsExp.head hx hc) (by simp only [List.length_append]; omega), skipExpZ_spec hx hc hk]
  simp only [Res.ok_bind]
  congr 3
  · simp only [hdot]
    by_cases h : f = []
    · simp [numRange, h]
    · simp only [ne_eq, h, not_false_eq_true, if_true, numRange, if_false]
      cases neg <;> simp <;> omega
  · simp only [hexp]
    by_cases h : x = []
    · simp [numRange, h]
    · simp only [ne_eq, h, not_false_eq_true, if_true, numRange, if_false]
      cases neg <;> simp <;> omega

theorem skipNumberZ_spec {k : Nat} (n c : Bytes) (hn : IsNumber n) (hc : NumEnd c) (hk : k ≤ c.length) :
    ∃ dec exp, skipNumberZ k (n ++ c) = .ok ({ s := n ++ c, k := c.length, dec := dec, exp := exp }, c) ∧
      NumPos (.num n) dec exp := by
  obtain ⟨m, i, f, e, hm, hi, hf, he, rfl⟩ := hn
  obtain ⟨neg, rfl⟩ : ∃ neg : Bool, m = if neg then [chMinus] else [] := by
    rcases hm with rfl | rfl
    · exact ⟨false, rfl⟩
    · exact ⟨true, rfl⟩
  have h1 := skipNumberZ_range neg i f e c hi hf he hc hk
  refine ⟨_, _, h1, ?_⟩
  intro neg' i' f' e' h hi' hf' he'
  have h2 := skipNumberZ_range neg' i' f' e' c hi' hf' he' hc hk
  have h3 : (numRange neg' i' f' e').text = (numRange neg i f e).text := by
    injection h with h
    exact h.symm
  rw [h3, h1] at h2
  injection h2 with h2
  have h4 := congrArg (fun q : ZRange × Bytes => (q.1.dec, q.1.exp)) h2
  exact ⟨congrArg Prod.fst h4, congrArg Prod.snd h4⟩

/-! ## Containers -/

theorem skipBracketedZ_of_loop {br : Brackets} {k : Nat} (body c : Bytes) (n : Nat) (hk : k ≤ c.length)
    (h : ∀ c', brLoop br 1 0 0 (body ++ c') = .ok (n, c')) :
    skipBracketedZ br k (br.primLeft :: (body ++ c))
      = .ok ({ s := br.primLeft :: (body ++ c), k := c.length, counter := n }, c) := by
  have e : br.primLeft :: (body ++ c) = (br.primLeft :: body) ++ c := rfl
  have h1 : beforeZ k (br.primLeft :: (body ++ c)) = br.primLeft :: (body ++ beforeZ k c) := by
    rw [e, beforeZ_append _ _ hk]; rfl
  have h2 : behindZ k (br.primLeft :: (body ++ c)) = behindZ k c := by rw [e, behindZ_append _ _ hk]
  have h3 : k ≤ (body ++ c).length := by rw [List.length_append]; omega
  unfold skipBracketedZ
  rw [moreZ_cons h3]
  simp only [if_true, frontZ_cons, h1, h2, List.tail_cons, h, Res.ok_bind, before_behind]

/-- The loop over the rest of a container. -/
theorem skipBracketedZ_rest {br : Brackets} {k : Nat} (body c : Bytes) (n : Nat) (hk : k ≤ c.length) (hne : body ≠ [])
    (hh : body.head? ≠ some br.primLeft) (h : ∀ c', brLoop br 1 0 0 (body ++ c') = .ok (n, c')) :
    ∃ r, skipBracketedZ br k (body ++ c) = .ok (r, c) := by
  unfold skipBracketedZ
  rw [moreZ_append hk hne, beforeZ_append _ _ hk, behindZ_append _ _ hk]
  cases body with
  | nil => exact absurd rfl hne
  | cons x t =>
    have hx : ¬ (frontZ (x :: t ++ c) = br.primLeft) := by simpa [frontZ] using hh
    rw [if_pos rfl, if_neg hx]
    dsimp only
    rw [h]
    simp only [Res.ok_bind, before_behind]
    exact ⟨_, rfl⟩

/-! ## Values -/

/-- The range kept for a skipped member with value `d`: the characters of the value, of which `last` is the end, and
what follows them. -/
def StoredZ (d : JVal) (r : ZRange) : Prop :=
  d ≠ .null ∧ r.null = false ∧ ∃ aft, r.s = rangeText false d ++ aft ∧ r.k = aft.length ∧
    (d.closed = false → AfterValue aft) ∧
    (∀ b, d = .str b → r.counter = firstEsc b ∧ ∃ c, aft = chQuote :: c) ∧ r.quoted = headIs (· == chQuote) d.text ∧
    NumPos d r.dec r.exp

theorem skipBoolZ_spec {k n c : Nat} {a rest : Bytes} (hn : a.length = n) (h : AfterValue rest) :
    skipBoolZ n c k (a ++ rest) = .ok ({ s := a ++ rest, k := rest.length, counter := c }, dropWs rest) := by
  unfold skipBoolZ
  rw [if_neg (by rw [List.length_append]; omega)]
  have h1 : (a ++ rest).drop n = rest := by rw [← hn]; exact List.drop_left
  have h2 : (a ++ rest).length - n = rest.length := by rw [List.length_append]; omega
  rw [h1, h2, endOfLiteralZ_after _ h]
  rfl

theorem skipNullZ_spec {k : Nat} {a rest : Bytes} (hn : a.length = 4) (h : AfterValue rest) (hk : k < rest.length) :
    skipNullZ k (a ++ rest) = .ok ({ s := [], k := 0, null := true }, dropWs rest) := by
  unfold skipNullZ
  have h1 : (a ++ rest).drop 4 = rest := by rw [← hn]; exact List.drop_left
  rw [h1, moreZ_of_lt hk, endOfLiteralZ_after _ h]
  rfl

/-- The brackets of a container and what the loop does behind the opening one. -/
theorem container_loop {tc : Bool} {d : JVal} (hd : d.WFt tc) (hdep : d.depth < 4294967296)
    (hc : (∃ w es, d = .arr w es) ∨ ∃ w ms, d = .obj w ms) :
    ∃ br body n, (br = arrBr ∧ (∃ w es, d = .arr w es) ∨ br = objBr ∧ ∃ w ms, d = .obj w ms) ∧
      d.text = br.primLeft :: body ∧ ∀ c', brLoop br 1 0 0 (body ++ c') = .ok (n, c') := by
  rcases hc with ⟨w, es, rfl⟩ | ⟨w, ms, rfl⟩
  · simp only [JVal.WFt] at hd
    simp only [JVal.depth] at hdep
    have hk : IsBr arrBr := Or.inl rfl
    match es with
    | .nil =>
      refine ⟨arrBr, w ++ [chRBrack], w.count chComma, Or.inl ⟨rfl, _, _, rfl⟩, by simp [JVal.text, arrBr], fun c' => ?_⟩
      rw [List.append_assoc, brLoop_tail hk hd.1]
      have := brLoop_primR hk 1 0 (w.count chComma) c'
      simpa [arrBr, dec32] using this
    | .cons pre x post tl =>
      have h2 := hd.2
      simp only [JElems.WFt] at h2
      simp only [JElems.depth] at hdep
      refine ⟨arrBr, pre ++ (x.text ++ (post ++ (tl.text ++ (w ++ [chRBrack])))), tl.length + w.count chComma, Or.inl ⟨rfl, _, _, rfl⟩,
        by simp [JVal.text, arrBr], fun c' => ?_⟩
      simp only [List.append_assoc]
      rw [brLoop_neutral hk _ _ _ _ _ (ws_neutral h2.1),
        brLoop_val hk x h2.2.1 _ _ _ _ (by omega) (by omega) (by omega),
        brLoop_neutral hk _ _ _ _ _ (ws_neutral h2.2.2.1),
        brLoop_elems hk tl h2.2.2.2 _ _ _ _ (by omega) (by omega) (by omega), brLoop_tail hk hd.1]
      have := brLoop_primR hk 1 0 (tl.length + w.count chComma) c'
      simpa [arrBr, dec32] using this
  · simp only [JVal.WFt] at hd
    simp only [JVal.depth] at hdep
    have hk : IsBr objBr := Or.inr rfl
    match ms with
    | .nil =>
      refine ⟨objBr, w ++ [chRBrace], w.count chComma, Or.inr ⟨rfl, _, _, rfl⟩, by simp [JVal.text, objBr], fun c' => ?_⟩
      rw [List.append_assoc, brLoop_tail hk hd.1]
      have := brLoop_primR hk 1 0 (w.count chComma) c'
      simpa [objBr, dec32] using this
    | .cons pre n pc qc x post tl =>
      have h2 := hd.2
      simp only [JMems.WFt] at h2
      obtain ⟨hpre, hn', hpc, hqc, hx, hpost, htl⟩ := h2
      simp only [JMems.depth] at hdep
      refine ⟨objBr, pre ++ (0x22 :: (n ++ (0x22 :: (pc ++ (0x3A :: (qc ++ (x.text ++ (post ++
        (tl.text ++ (w ++ [0x7D])))))))))), tl.length + w.count chComma,
        Or.inr ⟨rfl, _, _, rfl⟩, by simp [JVal.text, objBr], fun c' => ?_⟩
      simp only [List.append_assoc, List.cons_append]
      rw [brLoop_neutral hk _ _ _ _ _ (ws_neutral hpre),
        brLoop_string _ _ _ hn',
        brLoop_neutral hk _ _ _ _ _ (ws_neutral hpc),
        brLoop_neutral1 hk _ _ _ _ (by simp [Neutral]),
        brLoop_neutral hk _ _ _ _ _ (ws_neutral hqc),
        brLoop_val hk x hx _ _ _ _ (by omega) (by omega) (by omega),
        brLoop_neutral hk _ _ _ _ _ (ws_neutral hpost),
        brLoop_mems hk tl htl _ _ _ _ (by omega) (by omega) (by omega), brLoop_tail hk hd.1]
      have := brLoop_primR hk 1 0 (tl.length + w.count chComma) c'
      simpa [objBr, dec32] using this

theorem skipValueZ_stored {cfg : Cfg} {tc : Bool} {d : JVal} (hd : d.WFt tc) (hdep : d.depth < 4294967296)
    (hlen : d.text.length < 2 ^ 63) {k : Nat} {rest : Bytes} (ha : AfterValue rest) (hk : k < rest.length) :
    ∃ r b, skipValueZ cfg k (d.text ++ rest) = .ok (r, b) ∧ TrimEq b rest ∧
      (d = .null ∧ r.null = true ∨ StoredZ d (markRangeZ (d.text ++ rest) r)) := by
  have hne : d.text ≠ [] := by
    obtain ⟨c, cs, h, -⟩ := text_head d hd
    rw [h]; simp
  have hm : moreZ k (d.text ++ rest) = true := moreZ_append (Nat.le_of_lt hk) hne
  have hmark : ∀ r : ZRange, (markRangeZ (d.text ++ rest) r).quoted = headIs (· == chQuote) d.text := by
    obtain ⟨c, cs, hc, -⟩ := text_head d hd
    intro r
    simp only [markRangeZ, hc, List.cons_append, headIs, frontZ_cons]
  unfold skipValueZ
  rw [hm]
  simp only [ensure_true, Res.ok_bind]
  match d with
  | .null =>
    have h1 := skipNullZ_spec (k := k) (a := JVal.text .null) (by decide) ha hk
    simp only [JVal.text, List.cons_append, frontZ_cons, List.nil_append] at h1 ⊢
    simp only [if_neg (show ¬ ((0x6E : UInt8) = 0x22) by decide), if_neg (show ¬ ((0x6E : UInt8) = 0x5B) by decide),
      if_neg (show ¬ ((0x6E : UInt8) = 0x7B) by decide), if_neg (show ¬ ((0x6E : UInt8) = 0x74) by decide),
      if_neg (show ¬ ((0x6E : UInt8) = 0x66) by decide), if_true]
    exact ⟨_, _, h1, dropWs_trimEq _, Or.inl ⟨trivial, rfl⟩⟩
  | .tru =>
    have h1 := skipBoolZ_spec (k := k) (c := 1) (n := 4) (a := JVal.text .tru) (by decide) ha
    have h2 : frontZ (JVal.text .tru ++ rest) = chT := rfl
    rw [h2, if_neg (by decide), if_neg (by decide), if_neg (by decide), if_pos rfl, h1]
    refine ⟨_, _, rfl, dropWs_trimEq _, Or.inr ⟨by simp, rfl, rest, rfl, rfl, fun _ => ha, by simp, hmark _, ?_⟩⟩
    exact nofun
  | .fls =>
    have h1 := skipBoolZ_spec (k := k) (c := 0) (n := 5) (a := JVal.text .fls) (by decide) ha
    have h2 : frontZ (JVal.text .fls ++ rest) = chF := rfl
    rw [h2, if_neg (by decide), if_neg (by decide), if_neg (by decide), if_neg (by decide), if_pos rfl, h1]
    refine ⟨_, _, rfl, dropWs_trimEq _, Or.inr ⟨by simp, rfl, rest, rfl, rfl, fun _ => ha, by simp, hmark _, ?_⟩⟩
    exact nofun
  | .num n =>
    have ht : IsNumber n := by simpa [JVal.WFt] using hd
    obtain ⟨dec, exp, h1, hp⟩ := skipNumberZ_spec n rest ht (numEnd_after ha) (Nat.le_of_lt hk)
    obtain ⟨x, t', rfl, hx⟩ : ∃ x t', n = x :: t' ∧ (x = chMinus ∨ IsDig x) := by
      clear hm h1 hp
      obtain ⟨m, i, f, e, hm, hi, _, _, rfl⟩ := ht
      obtain ⟨y, i', rfl, hy⟩ := isDigits_head (isInt_digits hi)
      rcases hm with rfl | rfl
      · exact ⟨y, _, rfl, Or.inr hy⟩
      · exact ⟨_, _, rfl, Or.inl rfl⟩
    rw [← isDigit_iff] at hx
    have hne : x ≠ chQuote ∧ x ≠ chLBrack ∧ x ≠ chLBrace ∧ x ≠ chT ∧ x ≠ chF ∧ x ≠ chN := by
      rcases hx with rfl | hx
      · decide
      · refine ⟨?_, ?_, ?_, ?_, ?_, ?_⟩ <;> rintro rfl <;> revert hx <;> decide
    have h2 : frontZ (JVal.text (.num (x :: t')) ++ rest) = x := rfl
    rw [h2, if_neg hne.1, if_neg hne.2.1, if_neg hne.2.2.1, if_neg hne.2.2.2.1, if_neg hne.2.2.2.2.1,
      if_neg hne.2.2.2.2.2, if_pos hx]
    refine ⟨_, _, h1, TrimEq.refl _, Or.inr ⟨by simp, rfl, rest, rfl, rfl, fun _ => ha, by simp, hmark _, ?_⟩⟩
    exact hp
  | .str b =>
    have hb : IsStrBody b := by simpa [JVal.WFt] using hd
    have hl : b.length < npos := by
      have : b.length < 2 ^ 63 := by
        simp only [JVal.text, List.length_cons, List.length_append] at hlen; omega
      exact Nat.lt_trans this (by decide)
    have h1 := skipStringZ_body cfg hb hl (Nat.le_of_lt hk)
    have h2 : JVal.text (.str b) ++ rest = chQuote :: (b ++ chQuote :: rest) := by simp [JVal.text]
    rw [h2, frontZ_cons, if_pos rfl, h1]
    refine ⟨_, _, rfl, TrimEq.refl _, Or.inr ⟨by simp, rfl, chQuote :: rest, rfl, rfl, by simp [JVal.closed], ?_, ?_⟩⟩
    · intro b' hb'
      cases hb'
      exact ⟨rfl, rest, rfl⟩
    · exact ⟨h2 ▸ hmark _, nofun⟩
  | .arr w es =>
    obtain ⟨br, body, n, h1, h2, h3⟩ := container_loop hd hdep (Or.inl ⟨w, es, rfl⟩)
    have hbr : br = arrBr := by
      rcases h1 with h | ⟨_, _, _, h⟩
      · exact h.1
      · cases h
    subst hbr
    have h4 := skipBracketedZ_of_loop body rest n (Nat.le_of_lt hk) h3
    rw [h2]
    have h5 : frontZ (arrBr.primLeft :: body ++ rest) = chLBrack := rfl
    rw [h5, if_neg (by decide), if_pos rfl]
    refine ⟨_, _, h4, TrimEq.refl _, Or.inr ⟨by simp, rfl, rest, ?_, rfl, by simp [JVal.closed], by simp, ?_⟩⟩
    · simp only [markRangeZ, rangeText, h2]; rfl
    · exact ⟨h2 ▸ hmark _, nofun⟩
  | .obj w ms =>
    obtain ⟨br, body, n, h1, h2, h3⟩ := container_loop hd hdep (Or.inr ⟨w, ms, rfl⟩)
    have hbr : br = objBr := by
      rcases h1 with ⟨_, _, _, h⟩ | h
      · cases h
      · exact h.1
    subst hbr
    have h4 := skipBracketedZ_of_loop body rest n (Nat.le_of_lt hk) h3
    rw [h2]
    have h5 : frontZ (objBr.primLeft :: body ++ rest) = chLBrace := rfl
    rw [h5, if_neg (by decide), if_neg (by decide), if_pos rfl]
    refine ⟨_, _, h4, TrimEq.refl _, Or.inr ⟨by simp, rfl, rest, ?_, rfl, by simp [JVal.closed], by simp, ?_⟩⟩
    · simp only [markRangeZ, rangeText, h2]; rfl
    · exact ⟨h2 ▸ hmark _, nofun⟩

end Verif
