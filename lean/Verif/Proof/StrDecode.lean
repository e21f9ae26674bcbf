import Verif.Proof.StrCode
import Verif.Proof.SkipAgree

/-!
# Decoding a string body
-/

namespace Verif

open Spec

theorem plainRun_run (run : Bytes) (hr : ∀ c ∈ run, IsPlain c) (x : UInt8) (hx : x = chQuote ∨ x = chBslash)
    (t : Bytes) : plainRun (run ++ x :: t) = (run, x :: t) := by
  induction run with
  | nil => rw [List.nil_append, plainRun, if_pos hx]
  | cons c cs ih =>
    obtain ⟨-, h2, h3⟩ := hr c (by simp)
    rw [List.cons_append, plainRun, if_neg (by simp [h2, h3]), ih (fun d hd => hr d (by simp [hd]))]

theorem strLoop_stop {cfg : Cfg} {ah hq : Bool} {cap tl : Nat} {buf out : Bytes}
    (h : strMore cfg tl buf = .ok false) : strLoop cfg ah hq cap tl buf out = .ok out := by
  rw [strLoop]; split <;> simp_all

theorem strLoop_step {cfg : Cfg} {ah hq : Bool} {cap tl : Nat} {buf out b o : Bytes}
    (h : strMore cfg tl buf = .ok true) (hs : strStep cfg ah hq cap tl buf out = .ok (b, o)) :
    strLoop cfg ah hq cap tl buf out = strLoop cfg ah hq cap tl b o := by
  conv => lhs; rw [strLoop]
  split
  · simp_all
  · simp_all
  · simp_all
  · split <;> simp_all

theorem strMore_quote (cfg : Cfg) (tl : Nat) (c : Bytes) : strMore cfg tl (chQuote :: c) = .ok false := by
  unfold strMore
  cases cfg.checked
  · simp
  · simp

theorem strMore_cons (cfg : Cfg) {tl : Nat} {x : UInt8} {c : Bytes} (hx : x ≠ chQuote)
    (hl : tl < (x :: c).length) : strMore cfg tl (x :: c) = .ok true := by
  unfold strMore
  cases cfg.checked
  · simp [hx]
  · rw [if_pos rfl, if_pos hl]; simp [hx]

/-- One iteration up to an escape. -/
theorem strStep_escape {cfg : Cfg} {ah hq : Bool} {cap tl : Nat} {run e out w b : Bytes}
    (hr : ∀ c ∈ run, IsPlain c) (hd : decodeEscape cfg ah tl e = .ok (w, b))
    (hcap : out.length + run.length + w.length ≤ cap) (htl : hq = true → tl < b.length) :
    strStep cfg ah hq cap tl (run ++ chBslash :: e) out = .ok (b, out ++ run ++ w) := by
  unfold strStep
  rw [plainRun_run run hr _ (Or.inr rfl)]
  have h1 : assertWeak cfg.checked (decide (run.length ≤ cap - out.length)) .unexpectedEndOfData = .ok () := by
    rw [decide_eq_true (by omega)]; cases cfg.checked <;> rfl
  have h2 : assertWeak cfg.checked (!hq || decide (tl < b.length)) .unexpectedEndOfData = .ok () := by
    cases hq with
    | false => cases cfg.checked <;> rfl
    | true => rw [decide_eq_true (htl rfl)]; cases cfg.checked <;> rfl
  simp only [deref_cons, Res.ok_bind, h1, List.tail_cons, if_true, hd]
  unfold put
  rw [if_pos (by omega), Res.ok_bind, if_pos (by rw [List.length_append]; omega)]
  simp only [Res.ok_bind, h2]

/-- One iteration up to the closing quote. -/
theorem strStep_quote {cfg : Cfg} {ah hq : Bool} {cap tl : Nat} {run c out : Bytes}
    (hr : ∀ c ∈ run, IsPlain c) (hcap : out.length + run.length ≤ cap) (htl : hq = true → tl ≤ c.length) :
    strStep cfg ah hq cap tl (run ++ chQuote :: c) out = .ok (chQuote :: c, out ++ run) := by
  unfold strStep
  rw [plainRun_run run hr _ (Or.inl rfl)]
  have h1 : assertWeak cfg.checked (decide (run.length ≤ cap - out.length)) .unexpectedEndOfData = .ok () := by
    rw [decide_eq_true (by omega)]; cases cfg.checked <;> rfl
  have h2 : ∀ e, assertWeak cfg.checked (!hq || decide (tl < (chQuote :: c).length)) e = .ok () := by
    intro e
    cases hq with
    | false => cases cfg.checked <;> rfl
    | true =>
      rw [decide_eq_true (by have := htl rfl; simp; omega)]; cases cfg.checked <;> rfl
  simp only [deref_cons, Res.ok_bind, h1]
  unfold put
  rw [if_pos (by omega)]
  simp only [Res.ok_bind]
  rw [if_neg (by decide)]
  simp only [h2, Res.ok_bind]

theorem decodeEscape_simple (cfg : Cfg) (ah : Bool) (tl : Nat) {c : UInt8} (h : isSimpleEsc c) (t : Bytes) :
    decodeEscape cfg ah tl (c :: t) = .ok ([escChar c], t) := by
  unfold decodeEscape
  have h1 : assertWeak cfg.checked (!isSpace c) .invalidUTFCodepoint = .ok () := by
    have : isSpace c = false := by
      rcases h with rfl | rfl | rfl | rfl | rfl | rfl | rfl | rfl <;> decide
    rw [this]; cases cfg.checked <;> rfl
  dsimp only
  rw [h1, Res.ok_bind]
  rcases h with rfl | rfl | rfl | rfl | rfl | rfl | rfl | rfl <;> rfl

theorem decodeEscape_u (cfg : Cfg) (ah : Bool) (tl : Nat) (t : Bytes) :
    decodeEscape cfg ah tl (chU :: t) = decodeUtf16 cfg tl (chU :: t) := by
  unfold decodeEscape
  have h1 : assertWeak cfg.checked (!isSpace chU) .invalidUTFCodepoint = .ok () := by
    have : isSpace chU = false := by decide
    rw [this]; cases cfg.checked <;> rfl
  dsimp only
  rw [h1, Res.ok_bind]
  rfl

theorem utf8Enc_one {n : Nat} (h : n ≤ 0x7F) : utf8Enc n = [u32toC n] := by
  unfold utf8Enc u32toC; rw [if_pos (by omega)]

theorem hex4_lt {x y z w : UInt8} (hx : IsHex x) (hy : IsHex y) (hz : IsHex z) (hw : IsHex w) :
    hex4 x y z w < 65536 := by
  have := (toNibble_hex hx).2
  have := (toNibble_hex hy).2
  have := (toNibble_hex hz).2
  have := (toNibble_hex hw).2
  unfold hex4; omega

theorem decodeUtf16_scalar (cfg : Cfg) {tl : Nat} {x y z w : UInt8} (hx : IsHex x) (hy : IsHex y) (hz : IsHex z)
    (hw : IsHex w) (hs : IsScalar (hex4 x y z w)) (t : Bytes) (htl : tl ≤ t.length) :
    decodeUtf16 cfg tl (chU :: x :: y :: z :: w :: t) = .ok (utf8Enc (hex4 x y z w), t) := by
  unfold decodeUtf16
  have h1 : assertWeak cfg.checked (decide (tl + 5 ≤ (chU :: x :: y :: z :: w :: t).length)) .unexpectedEndOfData
      = .ok () := by
    rw [decide_eq_true (by simp; omega)]; cases cfg.checked <;> rfl
  have hlt := hex4_lt hx hy hz hw
  rw [h1, Res.ok_bind, List.drop_one, List.tail_cons, fourNibbles_hex cfg t hx hy hz hw, Res.ok_bind]
  dsimp only
  by_cases h : hex4 x y z w ≤ 0x7F
  · rw [if_pos h, utf8Enc_one h]
  · rw [if_neg h, if_neg (by have := hs.2; omega), encodeWide_eq (by omega) (by omega)]

theorem decodeUtf16_pair (cfg : Cfg) {tl : Nat} {x y z w x' y' z' w' : UInt8}
    (hx : IsHex x) (hy : IsHex y) (hz : IsHex z) (hw : IsHex w)
    (hx' : IsHex x') (hy' : IsHex y') (hz' : IsHex z') (hw' : IsHex w')
    (h1 : 0xD800 ≤ hex4 x y z w ∧ hex4 x y z w ≤ 0xDBFF)
    (h2 : 0xDC00 ≤ hex4 x' y' z' w' ∧ hex4 x' y' z' w' ≤ 0xDFFF) (t : Bytes) (htl : tl ≤ t.length) :
    decodeUtf16 cfg tl (chU :: x :: y :: z :: w :: 0x5C :: chU :: x' :: y' :: z' :: w' :: t) =
      .ok (utf8Enc (0x10000 + (hex4 x y z w - 0xD800) * 0x400 + (hex4 x' y' z' w' - 0xDC00)), t) := by
  unfold decodeUtf16
  have g1 : assertWeak cfg.checked (decide (tl + 5 ≤ (chU :: x :: y :: z :: w :: 0x5C :: chU :: x' :: y' :: z' ::
      w' :: t).length)) .unexpectedEndOfData = .ok () := by
    rw [decide_eq_true (by simp; omega)]; cases cfg.checked <;> rfl
  have g2 : assertWeak cfg.checked (decide (tl + 5 ≤ (chU :: x' :: y' :: z' :: w' :: t).length) &&
      (chU :: x' :: y' :: z' :: w' :: t).head? == some chU) .invalidUTFEscape = .ok () := by
    rw [decide_eq_true (by simp; omega)]; cases cfg.checked <;> rfl
  have hlt := hex4_lt hx hy hz hw
  rw [g1, Res.ok_bind, List.drop_one, List.tail_cons, fourNibbles_hex cfg _ hx hy hz hw, Res.ok_bind]
  dsimp only
  rw [if_neg (by omega), if_pos h1]
  simp only [List.drop_one, List.tail_cons]
  rw [g2, Res.ok_bind, fourNibbles_hex cfg t hx' hy' hz' hw', Res.ok_bind]
  dsimp only
  unfold sub32
  rw [show ((hex4 x y z w - 0xD800) * 0x400 + (4294967296 + hex4 x' y' z' w' - 0xDC00) % 4294967296 + 0x10000) %
      4294967296 = 0x10000 + (hex4 x y z w - 0xD800) * 0x400 + (hex4 x' y' z' w' - 0xDC00) by omega]
  rw [encodeWide_eq (by omega) (by omega)]

/-- A body splits into a run of plain bytes and a rest that is empty or starts with an escape. -/
theorem unesc_split {b s : Bytes} (h : Unesc b s) :
    ∃ run b' s', b = run ++ b' ∧ s = run ++ s' ∧ (∀ c ∈ run, IsPlain c) ∧ Unesc b' s' ∧
      (b' = [] ∨ ∃ r, b' = 0x5C :: r) := by
  induction h with
  | nil => exact ⟨[], [], [], rfl, rfl, by simp, Unesc.nil, Or.inl rfl⟩
  | @plain c b s h1 h2 h3 _ ih =>
    obtain ⟨run, b', s', rfl, rfl, i1, i2, i3⟩ := ih
    refine ⟨c :: run, b', s', rfl, rfl, ?_, i2, i3⟩
    intro d hd
    simp only [List.mem_cons] at hd
    rcases hd with rfl | hd
    · exact ⟨h1, h2, h3⟩
    · exact i1 d hd
  | @esc c b s h1 h => exact ⟨[], 0x5C :: c :: b, escChar c :: s, rfl, rfl, by simp, Unesc.esc h1 h, Or.inr ⟨c :: b, rfl⟩⟩
  | @uni x y z w b s h1 h2 h3 h4 h5 h =>
    exact ⟨[], _, _, (List.nil_append _).symm, (List.nil_append _).symm, by simp, Unesc.uni h1 h2 h3 h4 h5 h,
      Or.inr ⟨0x75 :: x :: y :: z :: w :: b, rfl⟩⟩
  | @pair x y z w x' y' z' w' b s h1 h2 h3 h4 h5 h6 h7 h8 h9 h10 h =>
    exact ⟨[], _, _, (List.nil_append _).symm, (List.nil_append _).symm, by simp,
      Unesc.pair h1 h2 h3 h4 h5 h6 h7 h8 h9 h10 h,
      Or.inr ⟨0x75 :: x :: y :: z :: w :: 0x5C :: 0x75 :: x' :: y' :: z' :: w' :: b, rfl⟩⟩

/-- One escape at the front of a body. -/
theorem decodeEscape_body (cfg : Cfg) (ah : Bool) {tl : Nat} {r s : Bytes} (h : Unesc (0x5C :: r) s)
    (c : Bytes) (htl : tl ≤ c.length) :
    ∃ w b' s', decodeEscape cfg ah tl (r ++ c) = .ok (w, b' ++ c) ∧ s = w ++ s' ∧ Unesc b' s' ∧
      b'.length < r.length := by
  generalize hb : (0x5C :: r : Bytes) = b at h
  cases h with
  | nil => simp at hb
  | plain h1 h2 h3 h =>
    injection hb with hb1 hb2
    exact absurd hb1.symm h3
  | @esc x b s h1 h =>
    injection hb with hb1 hb2
    subst hb2
    exact ⟨_, b, s, decodeEscape_simple cfg ah tl h1 (b ++ c), rfl, h, by simp⟩
  | @uni x y z w b s h1 h2 h3 h4 h5 h =>
    injection hb with hb1 hb2
    subst hb2
    refine ⟨_, b, s, ?_, rfl, h, by simp; omega⟩
    simp only [List.cons_append]
    rw [decodeEscape_u, decodeUtf16_scalar cfg h1 h2 h3 h4 h5 _ (by simp; omega)]
  | @pair x y z w x' y' z' w' b s h1 h2 h3 h4 h5 h6 h7 h8 h9 h10 h =>
    injection hb with hb1 hb2
    subst hb2
    refine ⟨_, b, s, ?_, rfl, h, by simp; omega⟩
    simp only [List.cons_append]
    rw [decodeEscape_u, decodeUtf16_pair cfg h1 h2 h3 h4 h5 h6 h7 h8 h9 h10 _ (by simp; omega)]

/-- The loop decodes a body up to its closing quote. -/
theorem strLoop_body (cfg : Cfg) (ah hq : Bool) (cap tl : Nat) (c : Bytes) (htl : tl ≤ c.length + 1)
    (hq' : hq = true → tl ≤ c.length) (b : Bytes) : ∀ (s out : Bytes), Unesc b s → out.length + s.length ≤ cap →
    strLoop cfg ah hq cap tl (b ++ chQuote :: c) out = .ok (out ++ s) := by
  induction hn : b.length using Nat.strongRecOn generalizing b with
  | _ n ih =>
    subst hn
    intro s out h hcap
    obtain ⟨run, b', s', rfl, rfl, i1, i2, i3⟩ := unesc_split h
    rcases i3 with rfl | ⟨r, rfl⟩
    · cases i2
      simp only [List.append_nil] at *
      cases run with
      | nil =>
        rw [List.nil_append, strLoop_stop (strMore_quote cfg tl c), List.append_nil]
      | cons x xs =>
        obtain ⟨-, hx, -⟩ := i1 x (by simp)
        have hm : strMore cfg tl (x :: xs ++ chQuote :: c) = .ok true :=
          strMore_cons cfg hx (by simp; omega)
        rw [strLoop_step hm (strStep_quote i1 (by simpa using hcap) hq'),
          strLoop_stop (strMore_quote cfg tl c)]
    · obtain ⟨w, b'', s'', j1, rfl, j3, j4⟩ := decodeEscape_body cfg ah i2 (chQuote :: c) (by simpa using htl)
      have hm : strMore cfg tl (run ++ 0x5C :: (r ++ chQuote :: c)) = .ok true := by
        cases run with
        | nil => exact strMore_cons cfg (by decide) (by simp; omega)
        | cons x xs =>
          obtain ⟨-, hx, -⟩ := i1 x (by simp)
          exact strMore_cons cfg hx (by simp; omega)
      have hs := strStep_escape (cfg := cfg) (ah := ah) (hq := hq) (cap := cap) (tl := tl) (run := run)
        (e := r ++ chQuote :: c) (out := out) (w := w) (b := b'' ++ chQuote :: c) i1 j1
        (by simp only [List.length_append] at hcap; omega)
        (by intro hh; have := hq' hh; simp; omega)
      rw [List.append_assoc, List.cons_append, strLoop_step hm hs]
      have := ih b''.length (by simp; omega) b'' rfl s'' (out ++ run ++ w) j3
        (by simp only [List.length_append] at hcap ⊢; omega)
      rw [this]
      simp

/-! ## The position of the first escape -/

theorem nqScan_keep {off slow : Nat} {bs : Bytes} {sl n : Nat} (hs : slow ≠ npos)
    (h : nqScan off slow bs = some (sl, n)) : sl = slow := by
  fun_induction nqScan off slow bs with
  | case1 => simp at h
  | case2 => simp at h; exact h.1.symm
  | case3 => simp at h
  | case4 =>
    rename_i ih
    rw [if_neg hs] at h ih
    exact ih hs h
  | case5 =>
    rename_i ih
    exact ih hs h

theorem unesc_isStrBody {b s : Bytes} (h : Unesc b s) : IsStrBody b := by
  induction h with
  | nil => exact IsStrBody.nil
  | plain h1 h2 h3 _ ih => exact IsStrBody.plain h1 h2 h3 ih
  | esc h1 _ ih => exact IsStrBody.esc h1 ih
  | uni h1 h2 h3 h4 _ _ ih => exact IsStrBody.uni h1 h2 h3 h4 ih
  | pair h1 h2 h3 h4 h5 h6 h7 h8 _ _ _ ih => exact IsStrBody.uni h1 h2 h3 h4 (IsStrBody.uni h5 h6 h7 h8 ih)

/-- A body splits into a run of plain bytes and a rest that is empty or starts with a backslash and a byte. -/
theorem isStrBody_split {b : Bytes} (h : IsStrBody b) :
    ∃ run b', b = run ++ b' ∧ (∀ c ∈ run, IsPlain c) ∧ (b' = [] ∨ ∃ d r, b' = 0x5C :: d :: r) := by
  induction h with
  | nil => exact ⟨[], [], rfl, by simp, Or.inl rfl⟩
  | @plain c b h1 h2 h3 _ ih =>
    obtain ⟨run, b', rfl, i1, i3⟩ := ih
    refine ⟨c :: run, b', rfl, ?_, i3⟩
    intro d hd
    simp only [List.mem_cons] at hd
    rcases hd with rfl | hd
    · exact ⟨h1, h2, h3⟩
    · exact i1 d hd
  | @esc c b h1 h => exact ⟨[], _, (List.nil_append _).symm, by simp, Or.inr ⟨c, b, rfl⟩⟩
  | @uni x y z w b h1 h2 h3 h4 h =>
    exact ⟨[], _, (List.nil_append _).symm, by simp, Or.inr ⟨0x75, x :: y :: z :: w :: b, rfl⟩⟩

/-- The offset of the first backslash, or `npos`. -/
def firstEsc (b : Bytes) : Nat := if 0x5C ∈ b then (b.takeWhile (· ≠ 0x5C)).length else npos

theorem firstEsc_none {run : Bytes} (hr : ∀ c ∈ run, IsPlain c) : firstEsc run = npos := by
  unfold firstEsc
  rw [if_neg]
  intro h
  exact (hr _ h).2.2 rfl

theorem firstEsc_some {run r : Bytes} (hr : ∀ c ∈ run, IsPlain c) : firstEsc (run ++ 0x5C :: r) = run.length := by
  unfold firstEsc
  rw [if_pos (by simp)]
  rw [List.takeWhile_append_of_pos]
  · simp
  · intro a ha
    have := (hr a ha).2.2
    simpa using this

/-- The scan reports the offset of the first escape. -/
theorem parseNq_firstEsc (cfg : Cfg) {b : Bytes} (h : IsStrBody b) (hl : b.length < npos) (c : Bytes) :
    parseNq cfg (b ++ chQuote :: c) = .ok (firstEsc b, b.length) := by
  have key : nqScan 0 npos (b ++ chQuote :: c) = some (firstEsc b, b.length) := by
    obtain ⟨sl, hs⟩ := nqScan_body h 0 npos c
    rw [Nat.zero_add] at hs
    rw [hs]
    obtain ⟨run, b', rfl, i1, i2⟩ := isStrBody_split h
    have hp := nqScan_plain 0 npos run (b' ++ chQuote :: c) (fun x hx => ⟨(i1 x hx).2.1, (i1 x hx).2.2⟩)
    rw [List.append_assoc, hp] at hs
    rcases i2 with rfl | ⟨d, r, rfl⟩
    · rw [List.nil_append, nqScan_cons_quote] at hs
      rw [List.append_nil, firstEsc_none i1]
      simp at hs ⊢
      exact hs.symm
    · rw [List.cons_append, List.cons_append, nqScan_cons_esc] at hs
      rw [if_pos rfl] at hs
      have := nqScan_keep (by simp at hl ⊢; omega) hs
      rw [this, firstEsc_some i1]
      simp
  obtain ⟨sl, hs⟩ := parseNq_body cfg h c
  rw [hs]
  unfold parseNq at hs
  split at hs
  · cases hx : cfg.exclSpecial
    · rw [hx, parseNqCheck_false, key] at hs
      simp at hs ⊢
      exact hs.symm
    · rw [hx] at hs
      simp only [parseNqCheck, if_true] at hs
      have := nqScan_of_excl hs
      rw [key] at this
      simp at this ⊢
      exact this.symm
  · rw [parseNqUncheck_eq, nqScanUnchecked_of_some key] at hs
    exact hs.symm ▸ rfl

theorem skipString_body (cfg : Cfg) {b : Bytes} (h : IsStrBody b) (hl : b.length < npos) (c : Bytes) :
    skipString cfg false (chQuote :: (b ++ chQuote :: c)) = .ok ({ text := b, counter := firstEsc b }, c) := by
  unfold skipString skipStringNq
  have h1 : assertWeak cfg.checked (!(b ++ chQuote :: c).isEmpty) .invalidString = .ok () := by
    have : (b ++ chQuote :: c).isEmpty = false := by simp
    rw [this]; cases cfg.checked <;> rfl
  simp only [beq_self_eq_true, ensure_true, Res.ok_bind, h1, parseNq_firstEsc cfg h hl c]
  simp

theorem unesc_length {b s : Bytes} (h : Unesc b s) : s.length ≤ b.length := by
  induction h with
  | nil => simp
  | plain _ _ _ _ ih => simpa using ih
  | esc _ _ ih => simp; omega
  | @uni x y z w _ _ _ _ _ _ _ _ ih =>
    have := utf8Enc_length_le (hex4 x y z w)
    simp; omega
  | @pair x y z w x' y' z' w' _ _ _ _ _ _ _ _ _ _ _ _ _ ih =>
    have := utf8Enc_length_le (0x10000 + (hex4 x y z w - 0xD800) * 0x400 + (hex4 x' y' z' w' - 0xDC00))
    simp; omega

/-- Decoding the range of a string. -/
theorem parseStrRange_body (cfg : Cfg) (ah : Bool) {b s : Bytes} (h : Unesc b s) (hl : b.length < 2 ^ 63) (c : Bytes)
    (hne : ah = true ∨ cfg.checked = true ∨ b ≠ []) :
    parseStrRange cfg ah { text := b, counter := firstEsc b } (chQuote :: c) = .ok s := by
  obtain ⟨run, b', s', rfl, rfl, i1, i2, i3⟩ := unesc_split h
  have hnp : (2 : Nat) ^ 63 < npos := by decide
  have hslen := unesc_length h
  unfold parseStrRange
  rcases i3 with rfl | ⟨r, rfl⟩
  · cases i2
    simp only [List.append_nil] at *
    rw [firstEsc_none i1]
    cases ah with
    | true => rfl
    | false =>
      simp only [Bool.not_false, Bool.true_or, if_true]
      unfold parseStdString
      cases run with
      | nil =>
        have hck : cfg.checked = true := by simpa using hne
        simp only [List.nil_append, deref_cons, Res.ok_bind, beq_self_eq_true, if_true, List.tail_cons]
        rw [if_neg (by decide)]
        apply strLoop_stop
        unfold strMore
        rw [if_pos hck, if_neg (by simp)]
      | cons x xs =>
        obtain ⟨-, hx, -⟩ := i1 x (by simp)
        simp only [List.cons_append, deref_cons, Res.ok_bind]
        rw [if_neg (by simp [npos])]
        have : (x == chQuote) = false := by simpa using hx
        rw [this]
        have := strLoop_body cfg false false ((x :: xs).length + 1) (chQuote :: c).length c (by simp) (by simp)
          (x :: xs) (x :: xs) [] h (by simp)
        simpa using this
  · rw [firstEsc_some i1]
    have hrl : run.length < 2 ^ 63 := by simp at hl; omega
    have : needsSlowPath run.length = true := by simpa [needsSlowPath] using hrl
    simp only [this, Bool.or_true, if_true]
    unfold parseStdString
    have hd : ∃ x t, run ++ 0x5C :: r ++ chQuote :: c = x :: t ∧ x ≠ chQuote := by
      cases run with
      | nil => exact ⟨0x5C, r ++ chQuote :: c, by simp, by decide⟩
      | cons x xs => exact ⟨x, xs ++ 0x5C :: r ++ chQuote :: c, by simp, (i1 x (by simp)).2.1⟩
    obtain ⟨x, t, hxt, hx⟩ := hd
    have hq : (x == chQuote) = false := by simpa using hx
    dsimp only
    rw [hxt]
    simp only [deref_cons, Res.ok_bind, hq, Bool.false_eq_true, if_false]
    rw [← hxt]
    by_cases hfs : 1 < run.length - 1
    · rw [if_pos ⟨hfs, hrl⟩, if_pos (by simp; omega)]
      have e1 : (run ++ 0x5C :: r ++ chQuote :: c).take (run.length - 1) = run.take (run.length - 1) := by
        rw [List.append_assoc, List.take_append_of_le_length (by omega)]
      have e2 : (run ++ 0x5C :: r ++ chQuote :: c).drop (run.length - 1)
          = (run.drop (run.length - 1) ++ 0x5C :: r) ++ chQuote :: c := by
        rw [List.append_assoc, List.drop_append_of_le_length (by omega), List.append_assoc]
      rw [e1, e2]
      have hsp : run = run.take (run.length - 1) ++ run.drop (run.length - 1) := (List.take_append_drop _ _).symm
      have hu : Unesc (run.drop (run.length - 1) ++ 0x5C :: r) (run.drop (run.length - 1) ++ s') :=
        unesc_plain (fun c hc => i1 c (List.mem_of_mem_drop hc)) i2
      have := strLoop_body cfg ah false ((run ++ 0x5C :: r).length + 1) (chQuote :: c).length c (by simp) (by simp)
        _ _ (run.take (run.length - 1)) hu (by simp at hslen ⊢; omega)
      rw [this, ← List.append_assoc, List.take_append_drop]
    · rw [if_neg (by omega)]
      have := strLoop_body cfg ah false ((run ++ 0x5C :: r).length + 1) (chQuote :: c).length c (by simp) (by simp)
        _ _ [] h (by simp at hslen ⊢; omega)
      simpa using this

/-- Parsing a string value. -/
theorem parseStr_body (cfg : Cfg) (ah : Bool) {b s : Bytes} (h : Unesc b s) (hl : b.length < 2 ^ 63) (c : Bytes)
    (hne : ah = true ∨ cfg.checked = true ∨ b ≠ []) :
    parseStr cfg ah (chQuote :: (b ++ chQuote :: c)) = .ok (s, c) := by
  have hnp : (2 : Nat) ^ 63 < npos := by decide
  unfold parseStr
  rw [skipString_body cfg (unesc_isStrBody h) (by omega) c]
  simp only [List.isEmpty_cons, Bool.not_false, ensure_true, Res.ok_bind]
  have : (chQuote :: (b ++ chQuote :: c)).drop (b.length + 1) = chQuote :: c := by simp
  rw [this, parseStrRange_body cfg ah h hl c hne]
  rfl

end Verif
