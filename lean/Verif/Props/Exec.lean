import Verif.Proof.ExecEsc
import Verif.Proof.StrSafe

/-!
# Properties C07, C56, C57: strings in the three execution modes
-/

namespace Verif

open Spec

/-- `nqScan` finds the same place as the other scanners. -/
theorem nqScan_close {bs : Bytes} {n : Nat} (h : closeE false bs = some n) (off slow : Nat) :
    ∃ sl, nqScan off slow bs = some (sl, off + n) := by
  induction hn : bs.length using Nat.strongRecOn generalizing bs n off slow with
  | ind k ih =>
    cases bs with
    | nil => simp [closeE] at h
    | cons c cs =>
      rw [nqScan.eq_def]
      dsimp only
      by_cases hq : c = chQuote
      · subst hq
        rw [closeE_quote] at h
        cases h
        exact ⟨slow, by simp⟩
      · rw [if_neg hq]
        by_cases hb : c = chBslash
        · subst hb
          rw [if_pos rfl]
          cases cs with
          | nil => simp [closeE] at h
          | cons d ds =>
            rw [closeE_esc] at h
            obtain ⟨m, hm, rfl⟩ := Option.map_eq_some_iff.1 h
            obtain ⟨sl, hs⟩ := ih ds.length (by subst hn; simp; omega) hm (off + 2) (if slow = npos then off else slow) rfl
            exact ⟨sl, by dsimp only; rw [hs]; congr 2; omega⟩
        · rw [if_neg hb]
          rw [closeE_plain hq hb] at h
          obtain ⟨m, hm, rfl⟩ := Option.map_eq_some_iff.1 h
          obtain ⟨sl, hs⟩ := ih cs.length (by subst hn; simp) hm (off + 1) slow rfl
          exact ⟨sl, by rw [hs]; congr 2; omega⟩

/-- A text with an escaped quote behind three backslashes, and a later closing quote: `ab\\\"c"]`. -/
def closeDoc : Bytes := [0x61, 0x62, 0x5C, 0x5C, 0x5C, 0x22, 0x63, 0x22, 0x5D]

theorem closeDoc_first : FirstClose closeDoc 7 := by decide

/-- Forty bytes whose last block ends with an escaping backslash, which escapes the quote that follows; the string
ends two bytes later. -/
def tailDoc : Bytes := List.replicate 15 0x61 ++ [0x5C, 0x22, 0x62, 0x22, 0x5D]

/-! ## C07 -/

/-- **C07**, compile-time mode.  The functions that look for the end of a string (`mem_skip_until_end_of_string` in
skipped containers, `parse_nq` elsewhere) stop at the first quote preceded by an even number of backslashes, for
every text. -/
theorem C07_constexpr (cfg : Cfg) (hx : cfg.exclSpecial = false) (bs : Bytes) (n : Nat) (h : FirstClose bs n) :
    memSkipStr bs = bs.drop n ∧ ∃ sl, parseNqX .constexpr cfg bs = .ok (sl, n) := by
  have hc := closeE_firstClose h
  refine ⟨by rw [memSkipStr_fromClose, fromClose, hc], ?_⟩
  obtain ⟨sl, hs⟩ := nqScan_close hc 0 npos
  rw [Nat.zero_add] at hs
  refine ⟨sl, ?_⟩
  show parseNq cfg bs = _
  unfold parseNq
  split
  · rw [hx, parseNqCheck_false, hs]
  · rw [parseNqUncheck_eq, nqScanUnchecked_of_some hs]

example : FirstClose closeDoc 7 ∧ ({} : Cfg).exclSpecial = false := ⟨closeDoc_first, rfl⟩

theorem drop_head? {bs : Bytes} {n : Nat} {c : UInt8} (h : bs[n]? = some c) : (bs.drop n).head? = some c := by
  rw [List.head?_drop, h]

/-- **C07**, run-time mode, every text, both functions, checked and unchecked. -/
theorem C07_runtime (cfg : Cfg) (bs : Bytes) (n : Nat) (h : FirstClose bs n) :
    rtSkip cfg.checked bs = .ok (bs.drop n) ∧ ∃ sl, parseNqX .runtime cfg bs = .ok (sl, n) := by
  have hc := closeE_firstClose h
  have hlt := closeE_lt hc
  have hne : bs.isEmpty = false := by cases bs <;> simp_all
  refine ⟨?_, ?_⟩
  · unfold rtSkip
    simp only [hne, Bool.not_false, Bool.or_true, ensure_true, Res.ok_bind]
    rw [rtLoop_eq, closeRes, hc]
  · obtain ⟨fe, e1, -⟩ := rtSkipEsc_close cfg.checked bs hc
    refine ⟨toSizeT fe, ?_⟩
    have hq := drop_head? h.1.1
    unfold parseNqX
    rw [e1]
    simp only [Res.ok_bind, hq, beq_self_eq_true]
    have : assertWeak cfg.checked true .invalidString = .ok () := by cases cfg.checked <;> rfl
    rw [this]
    simp only [Res.ok_bind, List.length_drop]
    congr 2
    omega

example : FirstClose closeDoc 7 := closeDoc_first

/-- **C07**, SIMD mode, the part that holds: the search is right for every text in which the closing quote lies in one
of the blocks of sixteen bytes read from the start of the string, or else in which the bytes left over after the last
full block are not preceded by an odd run of backslashes.  In particular `find_escaped_branchless` passes the escape
state rightly from block to block.  Missing: the bytes left over, when the last block ends in the middle of an escape
(`C07_simd_false`). -/
theorem C07_simd_partial (cfg : Cfg) (bs : Bytes) (n : Nat) (h : FirstClose bs n)
    (ht : n / 16 * 16 + 16 ≤ bs.length ∨ slashesBefore bs (bs.length / 16 * 16) % 2 = 0) :
    simdSkip cfg.checked bs = .ok (bs.drop n) ∧ ∃ sl, parseNqX .simd cfg bs = .ok (sl, n) := by
  have hc := closeE_firstClose h
  have hlt := closeE_lt hc
  have ht' : n / 16 * 16 + 16 ≤ bs.length ∨ escAt false bs (bs.length / 16 * 16) = false := by
    rcases ht with ht | ht
    · exact Or.inl ht
    · right; rw [escAt_slashes bs _ (by omega)]; simp [ht]
  refine ⟨?_, ?_⟩
  · unfold simdSkip
    rw [← bit01_false, simdLoop_eq cfg.checked false bs (by
      rcases ht' with h1 | h1
      · exact Or.inl ⟨n, hc, h1⟩
      · exact Or.inr h1), closeRes, hc]
  · obtain ⟨fe, e1, -⟩ := simdEscLoop_pos cfg.checked false bs.length (-1) bs hc ht'
    refine ⟨toSizeT fe, ?_⟩
    have hq := drop_head? h.1.1
    unfold parseNqX simdSkipEsc
    rw [← bit01_false, e1]
    simp only [Res.ok_bind, hq, beq_self_eq_true]
    have : assertWeak cfg.checked true .invalidString = .ok () := by cases cfg.checked <;> rfl
    rw [this]
    simp only [Res.ok_bind, List.length_drop]
    congr 2
    omega

example : FirstClose (List.replicate 15 0x61 ++ [0x5C, 0x22] ++ closeDoc ++ List.replicate 30 0x20) 24 ∧
    24 / 16 * 16 + 16 ≤ (List.replicate 15 (0x61 : UInt8) ++ [0x5C, 0x22] ++ closeDoc ++ List.replicate 30 0x20).length := by
  decide +kernel

/-- **C07 is false of the code** in SIMD mode: the loop over the bytes after the last block does not use the escape
state of that block.  Of the text `aaaaaaaaaaaaaaa\"b"]`, in which the first quote is escaped and the string ends at the
second, the search and `parse_nq` take the escaped quote. -/
theorem C07_simd_false :
    FirstClose tailDoc 18 ∧ simdSkip true tailDoc = .ok (tailDoc.drop 16) ∧
    ∃ sl, parseNqX .simd {} tailDoc = .ok (sl, 16) := by
  refine ⟨by decide, by decide +kernel, ?_⟩
  exact ⟨15, by decide +kernel⟩

/-- **C07**, strings without an end: compile-time and run-time mode run to the end of the text; SIMD mode too when
the bytes after the last block are not preceded by an odd run of backslashes. -/
theorem C07_unterminated_partial (bs : Bytes) (hne : bs ≠ []) (h : ∀ n, ¬ ClosesAt bs n) :
    memSkipStr bs = [] ∧ rtSkip true bs = .ok [] ∧
    (slashesBefore bs (bs.length / 16 * 16) % 2 = 0 → simdSkip true bs = .ok []) := by
  have hc := closeE_noClose h
  refine ⟨by rw [memSkipStr_fromClose, fromClose, hc], ?_, ?_⟩
  · unfold rtSkip
    have : bs.isEmpty = false := by cases bs <;> simp_all
    simp only [this, Bool.not_false, Bool.or_true, ensure_true, Res.ok_bind]
    rw [rtLoop_eq, closeRes, hc]
    rfl
  · intro ht
    unfold simdSkip
    rw [← bit01_false, simdLoop_eq true false bs (Or.inr (by
      rw [escAt_slashes bs _ (by omega)]; simp [ht])), closeRes, hc]
    rfl

example : ∀ n, ¬ ClosesAt [0x61, 0x5C, 0x22] n := by
  intro n
  by_cases h : n < 3
  · revert n; decide
  · intro hc
    have := (List.getElem?_eq_some_iff.1 hc.1).1
    simp at this
    omega

/-! ## C56 -/

/-- Decoding with a recorded position that does not lie behind the first escape. -/
theorem parseStd_before (cfg : Cfg) (ah : Bool) {b s : Bytes} (h : Unesc b s) (run r : Bytes) (hb : b = run ++ r)
    (hr : ∀ c ∈ run, IsPlain c) (k : Nat) (hk : k ≤ run.length ∨ 2 ^ 63 ≤ k) (c : Bytes)
    (hne : b ≠ []) : parseStdString cfg ah b k (chQuote :: c) = .ok s := by
  have hslen := unesc_length h
  have hq : ∃ x t, b ++ chQuote :: c = x :: t ∧ x ≠ chQuote := by
    cases h with
    | nil => exact absurd rfl hne
    | plain _ h2 _ _ => exact ⟨_, _, rfl, h2⟩
    | esc _ _ => exact ⟨_, _, rfl, by decide⟩
    | uni => exact ⟨_, _, rfl, by decide⟩
    | pair => exact ⟨_, _, rfl, by decide⟩
  obtain ⟨x, t, hxt, hx⟩ := hq
  have hq : (x == chQuote) = false := by simpa using hx
  unfold parseStdString
  dsimp only
  rw [hxt]
  simp only [deref_cons, Res.ok_bind, hq, Bool.false_eq_true, if_false]
  rw [← hxt]
  have whole := strLoop_body cfg ah false (b.length + 1) (chQuote :: c).length c (by simp) (by simp)
    _ _ [] h (by simp; omega)
  by_cases hfs : 1 < k - 1 ∧ k < 2 ^ 63
  · have hk' : k ≤ run.length := by
      rcases hk with hk | hk <;> omega
    rw [if_pos hfs, if_pos (by subst hb; simp; omega)]
    have hs : ∃ s', s = run.take (k - 1) ++ s' ∧ Unesc (b.drop (k - 1)) s' := by
      have key : ∀ (m : Nat) (run b s : Bytes), Unesc b s → (∃ r, b = run ++ r) → (∀ c ∈ run, IsPlain c) → m ≤ run.length →
          ∃ s', s = run.take m ++ s' ∧ Unesc (b.drop m) s' := by
        intro m
        induction m with
        | zero => intro run b s h _ _ _; exact ⟨s, by simp, by simpa using h⟩
        | succ m ih =>
          intro run b s h hb hr hm
          cases run with
          | nil => simp at hm
          | cons x xs =>
            obtain ⟨r, rfl⟩ := hb
            obtain ⟨p1, p2, p3⟩ := hr x (by simp)
            rw [List.cons_append] at h ⊢
            generalize hw : xs ++ r = w at h ⊢
            cases h with
            | plain _ _ _ h' =>
              obtain ⟨s', e1, e2⟩ := ih xs _ _ h' ⟨r, hw.symm⟩ (fun c hc => hr c (by simp [hc])) (by simpa using hm)
              exact ⟨s', by rw [e1]; simp, by simpa using e2⟩
            | esc _ _ => exact absurd rfl p3
            | uni => exact absurd rfl p3
            | pair => exact absurd rfl p3
      exact key (k - 1) run b s h ⟨r, hb⟩ hr (by omega)
    obtain ⟨s', e1, e2⟩ := hs
    have t1 : (b ++ chQuote :: c).take (k - 1) = run.take (k - 1) := by
      rw [hb, List.append_assoc, List.take_append_of_le_length (by omega)]
    have t2 : (b ++ chQuote :: c).drop (k - 1) = b.drop (k - 1) ++ chQuote :: c := by
      rw [List.drop_append_of_le_length (by rw [hb]; simp; omega)]
    rw [t1, t2]
    have := strLoop_body cfg ah false (b.length + 1) (chQuote :: c).length c (by simp) (by simp)
      _ _ (run.take (k - 1)) e2 (by
        rw [e1] at hslen
        simp at hslen ⊢
        omega)
    rw [this, e1]
  · rw [if_neg hfs]
    simpa using whole

/-- The first range found in run-time mode. -/
theorem skipStringX_close (m : Exec) (cfg : Cfg) {b : Bytes} (c : Bytes) {sl : Nat}
    (h : parseNqX m cfg (b ++ chQuote :: c) = .ok (sl, b.length)) :
    skipStringX m cfg false (chQuote :: (b ++ chQuote :: c)) = .ok ({ text := b, counter := sl }, c) := by
  unfold skipStringX skipStringNqX
  have h1 : assertWeak cfg.checked (!(b ++ chQuote :: c).isEmpty) .invalidString = .ok () := by
    have : (b ++ chQuote :: c).isEmpty = false := by simp
    rw [this]; cases cfg.checked <;> rfl
  simp only [beq_self_eq_true, ensure_true, Res.ok_bind, h1, h]
  simp

theorem parseStrX_close (m : Exec) (cfg : Cfg) (ah : Bool) {b : Bytes} (c : Bytes) {sl : Nat} {s : Bytes}
    (h : parseNqX m cfg (b ++ chQuote :: c) = .ok (sl, b.length))
    (hs : parseStrRange cfg ah { text := b, counter := sl } (chQuote :: c) = .ok s) :
    parseStrX m cfg ah (chQuote :: (b ++ chQuote :: c)) = .ok (s, c) := by
  unfold parseStrX
  rw [skipStringX_close m cfg c h]
  simp only [List.isEmpty_cons, Bool.not_false, ensure_true, Res.ok_bind]
  have : (chQuote :: (b ++ chQuote :: c)).drop (b.length + 1) = chQuote :: c := by simp
  rw [this, hs]
  rfl

theorem unesc_noSlash {b s : Bytes} (h : Unesc b s) (hb : 0x5C ∉ b) : s = b := by
  induction h with
  | nil => rfl
  | plain _ _ _ _ ih => rw [ih (by simp at hb; exact hb.2)]
  | esc _ _ _ => simp at hb
  | uni => simp at hb
  | pair => simp at hb

theorem parseNqX_runtime_body (cfg : Cfg) {b : Bytes} (h : IsStrBody b) (c : Bytes) :
    ∃ fe, parseNqX .runtime cfg (b ++ chQuote :: c) = .ok (toSizeT fe, b.length) ∧
      (0x5C ∉ b → fe = -1) ∧ (b.head? = some 0x5C → fe = 0) ∧
      (b.head? ≠ some 0x5C → fe < 0 ∧ (fe = -1 ∨ -((b ++ chQuote :: c).length : Int) ≤ fe)) := by
  have hc := closeE_body h c
  obtain ⟨fe, e1, e2, e3, e4⟩ := rtSkipEsc_close cfg.checked _ hc
  rw [show (b ++ chQuote :: c).drop b.length = chQuote :: c by simp] at e1
  rw [show (b ++ chQuote :: c).take b.length = b by simp] at e2
  refine ⟨fe, ?_, ?_, ?_, ?_⟩
  · unfold parseNqX
    rw [e1]
    simp only [Res.ok_bind, List.head?_cons, beq_self_eq_true]
    have : assertWeak cfg.checked true .invalidString = .ok () := by cases cfg.checked <;> rfl
    rw [this]
    simp
  · intro hb
    exact e2 (fun x hx he => hb (he ▸ hx))
  · intro hb
    refine e3 ?_
    cases b <;> simp_all
  · intro hb
    refine e4 ?_
    cases b
    · simp
    · simpa using hb

/-- **C56**, compile-time mode: every well formed string is decoded to the bytes it stands for. -/
theorem C56_constexpr (cfg : Cfg) (ah : Bool) {b s : Bytes} (h : Unesc b s) (hl : b.length < 2 ^ 63) (c : Bytes)
    (hne : b ≠ []) : parseStrX .constexpr cfg ah (chQuote :: (b ++ chQuote :: c)) = .ok (s, c) := by
  have hnp : (2 : Nat) ^ 63 < npos := by decide
  have h1 := parseNq_firstEsc cfg (unesc_isStrBody h) (by omega) c
  exact parseStrX_close .constexpr cfg ah c h1 (parseStrRange_body cfg ah h hl c (Or.inr (Or.inr hne)))

/-- The body `é\n` and what it stands for. -/
theorem exUnesc : Unesc [0xC3, 0xA9, 0x5C, 0x6E] [0xC3, 0xA9, 0x0A] :=
  .plain (by decide) (by decide) (by decide) (.plain (by decide) (by decide) (by decide) (.esc (c := 0x6E) (by unfold isSimpleEsc; decide) .nil))

example : Unesc [0xC3, 0xA9, 0x5C, 0x6E] [0xC3, 0xA9, 0x0A] ∧ [0xC3, 0xA9, 0x5C, 0x6E].length < 2 ^ 63 :=
  ⟨exUnesc, by decide⟩

/-- **C56**, run-time mode, the part that holds: a string is decoded rightly when it has no escape, when its first
character is one, or when the member disallows high bytes (`ah = false`).  Missing: `C56_runtime_false`. -/
theorem C56_runtime_partial (cfg : Cfg) (ah : Bool) {b s : Bytes} (h : Unesc b s) (c : Bytes)
    (hl : (b ++ chQuote :: c).length < 2 ^ 63) (hne : b ≠ [])
    (hb : 0x5C ∉ b ∨ b.head? = some 0x5C ∨ ah = false) :
    parseStrX .runtime cfg ah (chQuote :: (b ++ chQuote :: c)) = .ok (s, c) := by
  obtain ⟨fe, e1, e2, e3, e4⟩ := parseNqX_runtime_body cfg (unesc_isStrBody h) c
  refine parseStrX_close .runtime cfg ah c e1 ?_
  unfold parseStrRange
  by_cases hh : b.head? = some 0x5C
  · have := e3 hh
    subst this
    have h0 : toSizeT 0 = 0 := by decide
    rw [h0, if_pos (by simp [needsSlowPath])]
    exact parseStd_before cfg ah h [] b rfl (by simp) 0 (Or.inl (Nat.le_refl _)) c hne
  · have hneg := e4 hh
    have hbig : 2 ^ 63 ≤ toSizeT fe := toSizeT_neg hneg.1 (by rcases hneg.2 with h | h <;> omega)
    have hn : needsSlowPath (toSizeT fe) = false := by
      simp only [needsSlowPath, decide_eq_false_iff_not]; omega
    rw [hn]
    cases ah with
    | true =>
      have hno : 0x5C ∉ b := by
        rcases hb with hb | hb | hb
        · exact hb
        · exact absurd hb hh
        · simp at hb
      simp only [Bool.not_true, Bool.or_false, Bool.false_eq_true, if_false]
      rw [unesc_noSlash h hno]
    | false =>
      rw [if_pos (by simp)]
      exact parseStd_before cfg false h [] b rfl (by simp) _ (Or.inr hbig) c hne

example : Unesc [0x5C, 0x6E] [0x0A] ∧ [(0x5C : UInt8), 0x6E].head? = some 0x5C :=
  ⟨.esc (c := 0x6E) (by unfold isSimpleEsc; decide) .nil, rfl⟩

/-- **C56 is false of the code** in run-time mode.  Whenever a string does not begin with an escape, the position of the
first escape is recorded with the wrong sign, the string is taken to have none, and its raw text is returned: `"é\n"`
is read as the four bytes `é\n`. -/
theorem C56_runtime_false :
    (∀ (cfg : Cfg) (b s c : Bytes), Unesc b s → (b ++ chQuote :: c).length < 2 ^ 63 → b.head? ≠ some 0x5C →
      parseStrX .runtime cfg true (chQuote :: (b ++ chQuote :: c)) = .ok (b, c)) ∧
    ¬ ∀ (b s c : Bytes), Unesc b s → (b ++ chQuote :: c).length < 2 ^ 63 → b ≠ [] →
      parseStrX .runtime {} true (chQuote :: (b ++ chQuote :: c)) = .ok (s, c) := by
  have gen : ∀ (cfg : Cfg) (b s c : Bytes), Unesc b s → (b ++ chQuote :: c).length < 2 ^ 63 → b.head? ≠ some 0x5C →
      parseStrX .runtime cfg true (chQuote :: (b ++ chQuote :: c)) = .ok (b, c) := by
    intro cfg b s c h hl hh
    obtain ⟨fe, e1, e2, e3, e4⟩ := parseNqX_runtime_body cfg (unesc_isStrBody h) c
    refine parseStrX_close .runtime cfg true c e1 ?_
    have hneg := e4 hh
    have hbig : 2 ^ 63 ≤ toSizeT fe := toSizeT_neg hneg.1 (by rcases hneg.2 with h | h <;> omega)
    have hn : needsSlowPath (toSizeT fe) = false := by
      simp only [needsSlowPath, decide_eq_false_iff_not]; omega
    unfold parseStrRange
    rw [hn]
    rfl
  refine ⟨gen, fun hall => ?_⟩
  have h1 := hall _ _ [] exUnesc (by decide) (by decide)
  have h2 := gen {} _ _ [] exUnesc (by decide) (by decide)
  rw [h1] at h2
  simp at h2

/-- **C56**, SIMD mode, the part that holds: strings whose first escape, and whose closing quote, lie in full blocks
of sixteen bytes read from the start of the string.  Missing: escapes in the bytes after the last block
(`C56_simd_tail_false`); for strings without escape see `C56_simd_plain_partial`. -/
theorem C56_simd_partial (cfg : Cfg) (ah : Bool) {run r s : Bytes} (hr : ∀ x ∈ run, IsPlain x)
    (h : Unesc (run ++ 0x5C :: r) s) (c : Bytes)
    (hfull : (run ++ 0x5C :: r).length / 16 * 16 + 16 ≤ (run ++ 0x5C :: r ++ chQuote :: c).length) :
    parseStrX .simd cfg ah (chQuote :: (run ++ 0x5C :: r ++ chQuote :: c)) = .ok (s, c) := by
  have hc := closeE_body (unesc_isStrBody h) c
  have happ : run ++ 0x5C :: r ++ chQuote :: c = run ++ chBslash :: (r ++ chQuote :: c) := by simp
  have hlen : (run ++ 0x5C :: r).length = run.length + (r.length + 1) := by simp
  have e1 := simdEscLoop_first cfg.checked (run ++ 0x5C :: r ++ chQuote :: c).length run (r ++ chQuote :: c)
    (n := (run ++ 0x5C :: r).length)
    (fun x hx => ⟨(hr x hx).2.1, (hr x hx).2.2⟩) (by rw [← happ]; omega) (by rw [← happ]; exact hc)
    (Or.inl (by rw [← happ]; exact hfull))
  rw [← happ, show (run ++ 0x5C :: r ++ chQuote :: c).drop (run ++ 0x5C :: r).length = chQuote :: c by
    rw [List.drop_left]] at e1
  have e2 : parseNqX .simd cfg (run ++ 0x5C :: r ++ chQuote :: c)
      = .ok (toSizeT ((run.length % 16 : Nat) : Int), (run ++ 0x5C :: r).length) := by
    unfold parseNqX simdSkipEsc
    rw [e1]
    simp only [Res.ok_bind, List.head?_cons, beq_self_eq_true]
    have : assertWeak cfg.checked true .invalidString = .ok () := by cases cfg.checked <;> rfl
    rw [this]
    simp
    omega
  refine parseStrX_close .simd cfg ah c e2 ?_
  have hk : toSizeT ((run.length % 16 : Nat) : Int) = run.length % 16 := by
    unfold toSizeT; omega
  have hlt := Nat.mod_lt run.length (show 16 > 0 by omega)
  unfold parseStrRange
  rw [hk, if_pos (by simp only [needsSlowPath, Bool.or_eq_true, decide_eq_true_eq]; right; omega)]
  exact parseStd_before cfg ah h run (0x5C :: r) rfl hr _ (Or.inl (Nat.mod_le _ _)) c (by simp)

example : (∀ x ∈ ([0xC3, 0xA9] : Bytes), IsPlain x) ∧ Unesc ([0xC3, 0xA9] ++ 0x5C :: [0x6E]) [0xC3, 0xA9, 0x0A] ∧
    ([0xC3, 0xA9] ++ 0x5C :: [(0x6E : UInt8)]).length / 16 * 16 + 16 ≤
      ([0xC3, 0xA9] ++ 0x5C :: [0x6E] ++ chQuote :: List.replicate 20 (0x20 : UInt8)).length :=
  ⟨by unfold IsPlain; decide, exUnesc, by decide⟩

/-- **C56**, SIMD mode, strings without escapes: read as they stand when no backslash follows in the rest of the block of
sixteen bytes in which the string ends.  Missing: `C56_simd_overrun_false`. -/
theorem C56_simd_plain_partial (cfg : Cfg) {b : Bytes} (hb : IsStrBody b) (c : Bytes)
    (hs : ∀ x ∈ (b ++ chQuote :: c).take (b.length / 16 * 16 + 16), x ≠ 0x5C) :
    parseStrX .simd cfg true (chQuote :: (b ++ chQuote :: c)) = .ok (b, c) := by
  have hc := closeE_body hb c
  have e1 := simdEscLoop_none cfg.checked (b ++ chQuote :: c).length (-1) _ hc hs
  rw [List.drop_left] at e1
  refine parseStrX_close .simd cfg true c (sl := npos) ?_ ?_
  · unfold parseNqX simdSkipEsc
    rw [e1]
    simp only [Res.ok_bind, List.head?_cons, beq_self_eq_true]
    have : assertWeak cfg.checked true .invalidString = .ok () := by cases cfg.checked <;> rfl
    rw [this, show toSizeT (-1) = npos by decide]
    simp
  · rfl

example : IsStrBody [0xC3, 0xA9, 0x62] ∧ (∀ x ∈ ([0xC3, 0xA9, 0x62] ++ chQuote :: ([0x2C] ++ List.replicate 12 0x20 ++ [0x5C])).take
    (([0xC3, 0xA9, 0x62] : Bytes).length / 16 * 16 + 16), x ≠ 0x5C) :=
  ⟨.plain (by decide) (by decide) (by decide) (.plain (by decide) (by decide) (by decide)
    (.plain (by decide) (by decide) (by decide) .nil)), by decide⟩

/-- **C56 is false of the code** in SIMD mode for the bytes after the last full block: `"é\n"` at the end of a document
is read as the four bytes `é\n`. -/
theorem C56_simd_tail_false :
    Unesc [0xC3, 0xA9, 0x5C, 0x6E] [0xC3, 0xA9, 0x0A] ∧
    parseStrX .simd {} true (chQuote :: ([0xC3, 0xA9, 0x5C, 0x6E] ++ [chQuote])) = .ok ([0xC3, 0xA9, 0x5C, 0x6E], []) :=
  ⟨exUnesc, by decide +kernel⟩

/-- **C56 is false of the code** in SIMD mode for strings without escape: the backslash of a later string in the same
block is recorded, and more characters are copied than the result has room for.  `"a"` followed by
`,"bbbbbbbbbb\n"]` writes out of bounds. -/
theorem C56_simd_overrun_false :
    Unesc [0x61] [0x61] ∧
    parseStrX .simd {} true (chQuote :: ([0x61] ++ chQuote ::
      ([0x2C, chQuote] ++ List.replicate 10 0x62 ++ [0x5C, 0x6E, chQuote, chRBrack]))) = .ub :=
  ⟨.plain (by decide) (by decide) (by decide) .nil, by decide +kernel⟩

/-! ## The search used while decoding -/

theorem foldl_or_bit (f : UInt8 → BitVec 32) (keys : List UInt8) (a : BitVec 32) (i : Nat) :
    (keys.foldl (fun a k => a ||| f k) a).getLsbD i = (a.getLsbD i || keys.any (fun k => (f k).getLsbD i)) := by
  induction keys generalizing a with
  | nil => simp
  | cons k ks ih => rw [List.foldl_cons, ih, BitVec.getLsbD_or, List.any_cons, Bool.or_assoc]

theorem keyPos_bit (keys : List UInt8) (blk : Bytes) (i : Nat) (hi : i < 32) :
    (keys.foldl (fun a k => a ||| memFindEq k blk) 0#32).getLsbD i
      = (match blk[i]? with | some c => decide (c ∈ keys) | none => false) := by
  rw [foldl_or_bit]
  simp only [BitVec.getLsbD_zero, Bool.false_or, memFindEq_bit _ _ _ hi]
  cases blk[i]? with
  | none => simp
  | some c => simp [List.any_beq]

/-- One block of the search. -/
theorem keyPos_block (keys : List UInt8) (blk : Bytes) (hl : blk.length ≤ 32) :
    (keys.foldl (fun a k => a ||| memFindEq k blk) 0#32 = 0#32 ∧ ∀ c ∈ blk, c ∉ keys) ∨
    ∃ l c r, blk = l ++ c :: r ∧ (∀ c ∈ l, c ∉ keys) ∧ c ∈ keys ∧
      keys.foldl (fun a k => a ||| memFindEq k blk) 0#32 ≠ 0#32 ∧
      findLsbSet (keys.foldl (fun a k => a ||| memFindEq k blk) 0#32) = l.length := by
  have split : (∀ c ∈ blk, c ∉ keys) ∨ ∃ l c r, blk = l ++ c :: r ∧ (∀ c ∈ l, c ∉ keys) ∧ c ∈ keys := by
    clear hl
    induction blk with
    | nil => exact Or.inl (by simp)
    | cons x xs ih =>
      by_cases hx : x ∈ keys
      · exact Or.inr ⟨[], x, xs, rfl, by simp, hx⟩
      · rcases ih with h | ⟨l, c, r, rfl, h1, h2⟩
        · exact Or.inl (by simpa [hx] using h)
        · exact Or.inr ⟨x :: l, c, r, rfl, by simpa [hx] using h1, h2⟩
  rcases split with h | ⟨l, c, r, rfl, h1, h2⟩
  · left
    refine ⟨?_, h⟩
    apply BitVec.eq_of_getLsbD_eq
    intro i hi
    rw [keyPos_bit keys blk i hi]
    cases hb : blk[i]? with
    | none => simp
    | some c => simpa using h c (List.mem_of_getElem? hb)
  · right
    have hlt : l.length < 32 := by simp at hl; omega
    have hb : (keys.foldl (fun a k => a ||| memFindEq k (l ++ c :: r)) 0#32).getLsbD l.length = true := by
      rw [keyPos_bit _ _ _ hlt]; simpa using h2
    refine ⟨l, c, r, rfl, h1, h2, ?_, findLsbSet_eq _ _ hlt ?_ hb⟩
    · intro h0; rw [h0] at hb; simp at hb
    · intro i hi
      rw [keyPos_bit _ _ _ (by omega), List.getElem?_append_left hi, List.getElem?_eq_getElem hi]
      simpa using h1 _ (List.getElem_mem hi)

theorem moveNextOf_run {keys : List UInt8} {l : Bytes} (h : ∀ c ∈ l, c ∉ keys) (bs : Bytes) :
    moveNextOf true keys (l ++ bs) = moveNextOf true keys bs := by
  induction l with
  | nil => rfl
  | cons c cs ih =>
    rw [List.cons_append, moveNextOf, if_neg (h c (by simp)), ih (fun x hx => h x (by simp [hx]))]

/-- **C56**, the search for the next quote or backslash (or any other set of characters) in SIMD mode is the one of
run-time mode, for every set of characters and every text. -/
theorem C56_simd_next (keys : List UInt8) (bs : Bytes) : moveNextOf true keys bs = .ok (simdMoveNextOf keys bs) := by
  induction hn : bs.length using Nat.strongRecOn generalizing bs with
  | ind n ih =>
    rw [simdMoveNextOf.eq_def]
    by_cases hl : 16 ≤ bs.length
    · rw [dif_pos hl]
      dsimp only
      have hbs : bs = bs.take 16 ++ bs.drop 16 := (List.take_append_drop 16 bs).symm
      rcases keyPos_block keys (bs.take 16) (by simp; omega) with ⟨h1, h2⟩ | ⟨l, c, r, h1, h2, h3, h4, h5⟩
      · rw [if_neg (by rw [h1]; simp), ← ih _ (by subst hn; simp; omega) (bs.drop 16) rfl]
        conv => lhs; rw [hbs]
        exact moveNextOf_run h2 _
      · rw [if_pos h4, h5]
        rw [h1, List.append_assoc] at hbs
        conv => lhs; rw [hbs]
        rw [moveNextOf_run h2, List.cons_append, moveNextOf, if_pos h3]
        conv => rhs; rw [hbs]
        simp
    · rw [dif_neg hl]
      dsimp only
      rcases keyPos_block keys (bs ++ List.replicate (16 - bs.length) 0) (by simp; omega) with
        ⟨h1, h2⟩ | ⟨l, c, r, h1, h2, h3, h4, h5⟩
      · rw [if_neg (by rw [h1]; simp)]
        have := moveNextOf_run (keys := keys) (l := bs) (fun c hc => h2 c (by simp [hc])) []
        rw [List.append_nil] at this
        rw [this]
        rfl
      · rw [if_pos h4, h5]
        split
        · rename_i hle
          have hbl : ∀ c ∈ bs, c ∉ keys := by
            intro x hx
            have ht := congrArg (List.take bs.length) h1
            rw [List.take_left, List.take_append_of_le_length hle] at ht
            rw [ht] at hx
            exact h2 x (List.mem_of_mem_take hx)
          have := moveNextOf_run (keys := keys) (l := bs) hbl []
          rw [List.append_nil] at this
          rw [this]
          rfl
        · rename_i hgt
          have ht := congrArg (List.take bs.length) h1
          rw [List.take_left, List.take_append, List.take_of_length_le (by omega),
            show bs.length - l.length = (bs.length - l.length - 1) + 1 by omega, List.take_succ_cons] at ht
          generalize r.take (bs.length - l.length - 1) = r' at ht
          rw [ht, moveNextOf_run h2, moveNextOf, if_pos h3]
          simp

example : simdMoveNextOf [chQuote, chBslash] (List.replicate 20 0x61 ++ [0x5C, 0x6E]) = [0x5C, 0x6E] := by
  decide +kernel

/-- Bounding the search by the end of the string does not change where it stops, because the closing quote stands
there: what `mem_move_to_next_of` returns inside the string, followed by what comes after it, is what the unbounded
search leaves. -/
theorem plainRun_bounded (t c : Bytes) :
    ∃ r, moveNextOf true [chQuote, chBslash] t = .ok r ∧ (plainRun (t ++ chQuote :: c)).2 = r ++ chQuote :: c := by
  induction t with
  | nil => exact ⟨[], rfl, by simp [plainRun]⟩
  | cons x xs ih =>
    by_cases hx : x = chQuote ∨ x = chBslash
    · exact ⟨x :: xs, by rw [moveNextOf, if_pos (by simpa using hx)], by simp [plainRun, hx]⟩
    · obtain ⟨r, h1, h2⟩ := ih
      refine ⟨r, by rw [moveNextOf, if_neg (by simpa using hx), h1], ?_⟩
      rw [List.cons_append, plainRun, if_neg hx]
      exact h2

/-! ## C57 -/

theorem nqScanExcl_clean {off slow : Nat} {bs : Bytes} {r : Nat × Nat} (h : nqScanExcl off slow bs = .ok r) :
    off ≤ r.2 ∧ ∀ x ∈ bs.take (r.2 - off), 0x20 ≤ x.toNat := by
  fun_induction nqScanExcl off slow bs with
  | case1 => simp at h
  | case2 => simp at h
  | case3 => simp at h
  | case4 off slow d cs' hd hlow ih =>
    obtain ⟨h1, h2⟩ := ih h
    refine ⟨by omega, ?_⟩
    intro x hx
    rw [show r.2 - off = (r.2 - (off + 2)) + 1 + 1 by omega, List.take_succ_cons, List.take_succ_cons] at hx
    rcases List.mem_cons.1 hx with rfl | hx
    · decide
    · rcases List.mem_cons.1 hx with rfl | hx
      · revert hd
        refine forall_uint8 (P := fun d => isStdEscape d = true → 0x20 ≤ d.toNat) (by decide +kernel) x
      · exact h2 x hx
  | case5 => simp at h
  | case6 off slow cs hc hq =>
    simp at h
    subst h
    exact ⟨Nat.le_refl _, by simp⟩
  | case7 off slow c cs hc hb hq ih =>
    obtain ⟨h1, h2⟩ := ih h
    refine ⟨by omega, ?_⟩
    intro x hx
    rw [show r.2 - off = (r.2 - (off + 1)) + 1 by omega, List.take_succ_cons] at hx
    rcases List.mem_cons.1 hx with rfl | hx
    · omega
    · exact h2 x hx

/-- **C57**, compile-time mode: with `ExcludeSpecialEscapes`, in checked mode, a string that is accepted contains no raw
control character. -/
theorem C57_constexpr (cfg : Cfg) (hck : cfg.checked = true) (hx : cfg.exclSpecial = true) (bs : Bytes) {sl n : Nat}
    (h : parseNqX .constexpr cfg bs = .ok (sl, n)) : ∀ x ∈ bs.take n, 0x20 ≤ x.toNat := by
  have h' : parseNq cfg bs = .ok (sl, n) := h
  unfold parseNq at h'
  rw [hck, hx] at h'
  simp only [if_true, parseNqCheck] at h'
  exact (nqScanExcl_clean h').2

example : parseNqX .constexpr { exclSpecial := true } [0x61, 0x5C, 0x6E, 0x22] = .ok (1, 3) := by decide

/-- **C57 is false of the code** in run-time and SIMD mode: the option is not looked at, so `"a<tab>b"` is accepted. -/
theorem C57_false :
    (∀ (m : Exec) (cfg : Cfg) (x : Bool) (bs : Bytes), m ≠ .constexpr →
      parseNqX m { cfg with exclSpecial := x } bs = parseNqX m cfg bs) ∧
    parseNqX .runtime { exclSpecial := true } [0x61, 0x09, 0x62, 0x22] = .ok (npos, 3) ∧
    parseNqX .simd { exclSpecial := true } [0x61, 0x09, 0x62, 0x22] = .ok (npos, 3) := by
  refine ⟨?_, by decide +kernel, by decide +kernel⟩
  intro m cfg x bs hm
  cases m
  · exact absurd rfl hm
  · rfl
  · rfl

end Verif
