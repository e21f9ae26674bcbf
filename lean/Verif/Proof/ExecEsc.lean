import Verif.Proof.Exec

/-! # Lemmas about the recorded position of the first escape -/

namespace Verif

open Spec

theorem bit01_false : bit01 false = 0#32 := rfl

theorem closeE_lt {p : Bool} {bs : Bytes} {n : Nat} (h : closeE p bs = some n) : n < bs.length := by
  induction bs generalizing p n with
  | nil => simp [closeE] at h
  | cons c cs ih =>
    unfold closeE at h
    split at h
    · simp at h; subst h; simp
    · obtain ⟨m, hm, rfl⟩ := Option.map_eq_some_iff.1 h
      have := ih hm
      simp; omega

theorem closeE_body {b : Bytes} (h : IsStrBody b) (c : Bytes) : closeE false (b ++ chQuote :: c) = some b.length := by
  have h1 := memSkipStr_body h c
  rw [memSkipStr_fromClose] at h1
  unfold fromClose at h1
  cases hc : closeE false (b ++ chQuote :: c) with
  | none => rw [hc] at h1; simp at h1
  | some n =>
    rw [hc] at h1
    dsimp only at h1
    have h2 := closeE_lt hc
    have h3 := congrArg List.length h1
    simp at h2 h3
    congr 1
    omega

theorem closeE_quote (cs : Bytes) : closeE false (chQuote :: cs) = some 0 := by simp [closeE]

theorem closeE_plain {c : UInt8} (h1 : c ≠ chQuote) (h2 : c ≠ chBslash) (cs : Bytes) :
    closeE false (c :: cs) = (closeE false cs).map (· + 1) := by
  rw [closeE, if_neg (by simp [h1])]
  simp [h2]

theorem closeE_esc (d : UInt8) (cs : Bytes) :
    closeE false (chBslash :: d :: cs) = (closeE false cs).map (· + 2) := by
  rw [closeE, if_neg (by decide)]
  simp only [decide_true, Bool.not_false, Bool.and_true]
  rw [closeE, if_neg (by simp)]
  simp [Function.comp_def]

theorem moveNextOf_keys (ck : Bool) (bs : Bytes) :
    moveNextOf ck [chQuote, chBslash] bs = moveNextOf ck [chBslash, chQuote] bs := by
  induction bs with
  | nil => rfl
  | cons c cs ih =>
    rw [moveNextOf, moveNextOf, ih]
    simp only [mem_keys1, mem_keys2]

/-- The recording loop as a function of what `mem_move_to_next_of` returns. -/
def escAfter (ck : Bool) (total : Nat) (fe : Int) : Res Bytes → Res (Int × Bytes)
  | .ub => .ub
  | .err e => .err e
  | .ok [] => .ok (fe, [])
  | .ok (c :: cs) =>
    if c = chQuote then .ok (fe, c :: cs)
    else rtEscLoop ck total (if fe < 0 then -((total : Int) - ((c :: cs).length : Int)) else fe) (cs.drop 1)

theorem rtEscLoop_def (ck : Bool) (total : Nat) (fe : Int) (bs : Bytes) :
    rtEscLoop ck total fe bs = escAfter ck total fe (moveNextOf ck [chBslash, chQuote] bs) := by
  rw [rtEscLoop.eq_def]
  split <;> (rename_i h; rw [h]; rfl)

theorem simdEscTail_eq (ck : Bool) (total : Nat) (fe : Int) (bs : Bytes) :
    simdEscTail ck total fe bs = rtEscLoop ck total fe bs := by
  induction hn : bs.length using Nat.strongRecOn generalizing bs fe with
  | ind n ih =>
    rw [simdEscTail.eq_def, rtEscLoop_def, ← moveNextOf_keys]
    split
    · rename_i h; rw [h]; rfl
    · rename_i h; rw [h]; rfl
    · rename_i h; rw [h]; rfl
    · rename_i c cs h
      rw [h]
      simp only [escAfter]
      split
      · rfl
      · have := moveNextOf_length h
        exact ih _ (by subst hn; simp at this ⊢; omega) _ _ rfl

theorem rtEscLoop_quote (ck : Bool) (total : Nat) (fe : Int) (cs : Bytes) :
    rtEscLoop ck total fe (chQuote :: cs) = .ok (fe, chQuote :: cs) := by
  rw [rtEscLoop_def, moveNextOf, if_pos (by simp)]
  simp [escAfter]

theorem rtEscLoop_plain {ck : Bool} {total : Nat} {fe : Int} {c : UInt8} (h1 : c ≠ chQuote) (h2 : c ≠ chBslash)
    (cs : Bytes) : rtEscLoop ck total fe (c :: cs) = rtEscLoop ck total fe cs := by
  rw [rtEscLoop_def, moveNextOf, if_neg (by simp [h1, h2]), ← rtEscLoop_def]

theorem rtEscLoop_esc (ck : Bool) (total : Nat) (fe : Int) (cs : Bytes) :
    rtEscLoop ck total fe (chBslash :: cs)
      = rtEscLoop ck total (if fe < 0 then -((total : Int) - ((chBslash :: cs).length : Int)) else fe) (cs.drop 1) := by
  rw [rtEscLoop_def, moveNextOf, if_pos (by simp)]
  simp only [escAfter]
  rw [if_neg (by decide)]

/-- What the recording loop returns when the string is closed. -/
theorem rtEscLoop_close (ck : Bool) (total : Nat) (fe : Int) (bs : Bytes) {n : Nat} (h : closeE false bs = some n) :
    ∃ fe', rtEscLoop ck total fe bs = .ok (fe', bs.drop n) ∧ (0 ≤ fe → fe' = fe) ∧
      (fe < 0 → bs.length < total → fe' < 0 ∧ (fe' = fe ∨ -(total : Int) ≤ fe')) ∧
      ((∀ c ∈ bs.take n, c ≠ chBslash) → fe' = fe) := by
  induction hn : bs.length using Nat.strongRecOn generalizing bs fe n with
  | ind k ih =>
    cases bs with
    | nil => simp [closeE] at h
    | cons c cs =>
      by_cases hq : c = chQuote
      · subst hq
        rw [closeE_quote] at h
        cases h
        exact ⟨fe, by rw [rtEscLoop_quote]; rfl, fun _ => rfl, fun h _ => ⟨h, Or.inl rfl⟩, fun _ => rfl⟩
      · by_cases hb : c = chBslash
        · subst hb
          cases cs with
          | nil => simp [closeE] at h
          | cons d ds =>
            rw [closeE_esc] at h
            obtain ⟨m, hm, rfl⟩ := Option.map_eq_some_iff.1 h
            obtain ⟨fe', e1, e2, e3, e4⟩ := ih ds.length (by subst hn; simp; omega)
              (if fe < 0 then -((total : Int) - ((chBslash :: d :: ds).length : Int)) else fe) ds hm rfl
            refine ⟨fe', ?_, ?_, ?_, ?_⟩
            · rw [rtEscLoop_esc, List.drop_one, List.tail_cons, e1]
              simp
            · intro h0
              rw [if_neg (by omega)] at e2
              exact e2 h0
            · intro h0 hlt
              have hg : (if fe < 0 then -((total : Int) - ((chBslash :: d :: ds).length : Int)) else fe)
                  = -((total : Int) - ((ds.length : Int) + 2)) := by
                rw [if_pos h0]; simp only [List.length_cons]; omega
              rw [hg] at e3
              simp only [List.length_cons] at hn
              obtain ⟨a1, a2⟩ := e3 (by omega) (by omega)
              refine ⟨a1, Or.inr ?_⟩
              rcases a2 with a2 | a2 <;> omega
            · intro h0
              exact absurd rfl (h0 chBslash (by simp))
        · rw [closeE_plain hq hb] at h
          obtain ⟨m, hm, rfl⟩ := Option.map_eq_some_iff.1 h
          obtain ⟨fe', e1, e2, e3, e4⟩ := ih cs.length (by subst hn; simp) fe cs hm rfl
          refine ⟨fe', ?_, e2, ?_, ?_⟩
          · rw [rtEscLoop_plain hq hb, e1]; simp
          · intro h0 hlt
            exact e3 h0 (by simp at hn; omega)
          · intro h0
            exact e4 (fun x hx => h0 x (by simp [hx]))

theorem toSizeT_nonneg {n : Int} (h0 : 0 ≤ n) (h : n < 18446744073709551616) : (toSizeT n : Int) = n := by
  unfold toSizeT
  omega

theorem toSizeT_neg {n : Int} (h0 : n < 0) (h : -9223372036854775808 ≤ n) : 9223372036854775808 ≤ toSizeT n := by
  unfold toSizeT
  omega

/-- What is recorded in run-time mode: nothing if there is no escape, 0 if the string begins with one, and a negative
value otherwise. -/
theorem rtSkipEsc_close (ck : Bool) (bs : Bytes) {n : Nat} (h : closeE false bs = some n) :
    ∃ fe, rtSkipEsc ck bs = .ok (fe, bs.drop n) ∧
      ((∀ c ∈ bs.take n, c ≠ chBslash) → fe = -1) ∧
      (bs.head? = some chBslash → fe = 0) ∧
      (bs.head? ≠ some chBslash → fe < 0 ∧ (fe = -1 ∨ -(bs.length : Int) ≤ fe)) := by
  have hne : bs.isEmpty = false := by
    have := closeE_lt h
    cases bs <;> simp_all
  unfold rtSkipEsc
  simp only [hne, Bool.not_false, Bool.or_true, ensure_true, Res.ok_bind]
  obtain ⟨fe, e1, -, -, e4⟩ := rtEscLoop_close ck bs.length (-1) bs h
  refine ⟨fe, e1, e4, ?_, ?_⟩
  · intro hh
    cases bs with
    | nil => simp at hh
    | cons c cs =>
      simp at hh
      subst hh
      cases cs with
      | nil => simp [closeE] at h
      | cons d ds =>
        rw [closeE_esc] at h
        obtain ⟨m, hm, rfl⟩ := Option.map_eq_some_iff.1 h
        rw [rtEscLoop_esc] at e1
        simp only [List.length_cons, List.drop_one, List.tail_cons] at e1
        obtain ⟨fe', f1, f2, -, -⟩ := rtEscLoop_close ck (ds.length + 1 + 1)
          (if (-1 : Int) < 0 then -(((ds.length + 1 + 1 : Nat) : Int) - ((ds.length + 1 + 1 : Nat) : Int)) else -1) ds hm
        rw [f1] at e1
        simp only [Res.ok.injEq, Prod.mk.injEq] at e1
        rw [← e1.1]
        rw [f2 (by simp)]
        simp
  · intro hh
    cases bs with
    | nil => simp at hne
    | cons c cs =>
      have hb : c ≠ chBslash := by simpa using hh
      by_cases hq : c = chQuote
      · subst hq
        rw [rtEscLoop_quote] at e1
        simp only [Res.ok.injEq, Prod.mk.injEq] at e1
        rw [← e1.1]
        exact ⟨by omega, Or.inl rfl⟩
      · rw [closeE_plain hq hb] at h
        obtain ⟨m, hm, rfl⟩ := Option.map_eq_some_iff.1 h
        obtain ⟨fe', f1, -, f3, -⟩ := rtEscLoop_close ck (c :: cs).length (-1) cs hm
        rw [rtEscLoop_plain hq hb, f1] at e1
        simp only [Res.ok.injEq, Prod.mk.injEq] at e1
        rw [← e1.1]
        exact f3 (by omega) (by simp)

/-! ## SIMD -/

theorem memFindEq_zero {k : UInt8} {bs : Bytes} (h : ∀ c ∈ bs, c ≠ k) : memFindEq k bs = 0#32 := by
  induction bs with
  | nil => rfl
  | cons c cs ih =>
    rw [memFindEq, ih (fun x hx => h x (by simp [hx])), if_neg (h c (by simp))]
    rfl

theorem memFindEq_first {k : UInt8} {run bs : Bytes} (h : ∀ c ∈ run, c ≠ k) (hl : run.length < 32) :
    memFindEq k (run ++ k :: bs) ≠ 0#32 ∧ findLsbSet (memFindEq k (run ++ k :: bs)) = run.length := by
  have hb : (memFindEq k (run ++ k :: bs)).getLsbD run.length = true := by
    rw [memFindEq_bit _ _ _ hl]; simp
  refine ⟨?_, findLsbSet_eq _ _ hl ?_ hb⟩
  · intro h0
    rw [h0] at hb
    simp at hb
  · intro i hi
    rw [memFindEq_bit _ _ _ (by omega), List.getElem?_append_left hi]
    have := h run[i] (List.getElem_mem _)
    rw [List.getElem?_eq_getElem hi]
    simpa using this

/-- The recording SIMD loop finds the same place as the other one. -/
theorem simdEscLoop_pos (ck p : Bool) (total : Nat) (fe : Int) (bs : Bytes) {n : Nat} (hc : closeE p bs = some n)
    (h : n / 16 * 16 + 16 ≤ bs.length ∨ escAt p bs (bs.length / 16 * 16) = false) :
    ∃ fe', simdEscLoop ck total (bit01 p) fe bs = .ok (fe', bs.drop n) ∧ (0 ≤ fe → fe' = fe) := by
  induction hn : bs.length using Nat.strongRecOn generalizing bs p fe n with
  | ind k ih =>
    rw [simdEscLoop.eq_def]
    by_cases hl : 16 ≤ bs.length
    · rw [dif_pos hl]
      obtain ⟨blk, rest, rfl, hb⟩ : ∃ blk rest, bs = blk ++ rest ∧ blk.length = 16 :=
        ⟨bs.take 16, bs.drop 16, (List.take_append_drop 16 bs).symm, by simp; omega⟩
      have ht : (blk ++ rest).take 16 = blk := by rw [← hb, List.take_left]
      have hd : (blk ++ rest).drop 16 = rest := by rw [← hb, List.drop_left]
      obtain ⟨hcarry, -⟩ := findEscaped_spec p blk hb
      have hbc := block_close p blk hb
      simp only [ht, hd]
      rw [closeE_append] at hc
      cases hcl : closeE p blk with
      | some m =>
        rw [hcl] at hbc hc
        obtain ⟨h1, h2, h3⟩ := hbc
        cases hc
        rw [if_pos h2, h3]
        exact ⟨_, rfl, fun h0 => by rw [if_neg (by omega)]⟩
      | none =>
        rw [hcl] at hbc hc
        dsimp only at hc
        rw [hb] at hc
        obtain ⟨m, hm, rfl⟩ := Option.map_eq_some_iff.1 hc
        rw [if_neg (by rw [hbc]; simp), hcarry]
        obtain ⟨fe', e1, e2⟩ := ih rest.length (by subst hn; simp; omega) (escAt p blk 16)
          (if memFindEq chBslash blk ≠ 0#32 ∧ fe < 0 then (findLsbSet (memFindEq chBslash blk) : Int) else fe)
          rest hm (by
            rcases h with h | h
            · left; rw [List.length_append, hb] at h; omega
            · right
              rw [List.length_append, hb,
                show (16 + rest.length) / 16 * 16 = 16 + rest.length / 16 * 16 by omega] at h
              have := escAt_append p blk rest (rest.length / 16 * 16)
              rw [hb] at this
              rw [← this, h]) rfl
        refine ⟨fe', ?_, ?_⟩
        · rw [e1, show m + 16 = blk.length + m by omega, List.drop_append]
          simp
        · intro h0
          rw [if_neg (by omega)] at e2
          exact e2 h0
    · rw [dif_neg hl, simdEscTail_eq]
      rcases h with h | h
      · have := closeE_lt hc; omega
      · rw [show bs.length / 16 * 16 = 0 by omega] at h
        have : p = false := by cases bs <;> simpa [escAt] using h
        subst this
        obtain ⟨fe', e1, e2, -, -⟩ := rtEscLoop_close ck total fe bs hc
        exact ⟨fe', e1, e2⟩

/-- When the first backslash is in a full block and precedes the closing quote, it is recorded by its place in its
block. -/
theorem simdEscLoop_first (ck : Bool) (total : Nat) (run r : Bytes) {n : Nat}
    (hr : ∀ c ∈ run, c ≠ chQuote ∧ c ≠ chBslash) (hfull : run.length / 16 * 16 + 16 ≤ (run ++ chBslash :: r).length)
    (hc : closeE false (run ++ chBslash :: r) = some n)
    (h : n / 16 * 16 + 16 ≤ (run ++ chBslash :: r).length ∨
      escAt false (run ++ chBslash :: r) ((run ++ chBslash :: r).length / 16 * 16) = false) :
    simdEscLoop ck total 0#32 (-1) (run ++ chBslash :: r)
      = .ok (((run.length % 16 : Nat) : Int), (run ++ chBslash :: r).drop n) := by
  induction hn : run.length using Nat.strongRecOn generalizing run n with
  | ind k ih =>
    rcases Nat.lt_or_ge run.length 16 with hlt | hge
    · obtain ⟨fe, e1, e2⟩ := simdEscLoop_pos ck false total (-1) _ hc h
      have hl : 16 ≤ (run ++ chBslash :: r).length := by omega
      have e1' := e1
      rw [simdEscLoop.eq_def, dif_pos hl] at e1'
      have ht : (run ++ chBslash :: r).take 16 = run ++ chBslash :: r.take (15 - run.length) := by
        rw [List.take_append, List.take_of_length_le (by omega), show 16 - run.length = (15 - run.length) + 1 by omega,
          List.take_succ_cons]
      obtain ⟨g1, g2⟩ := memFindEq_first (bs := r.take (15 - run.length)) (fun c hc => (hr c hc).2) (by omega : run.length < 32)
      rw [← bit01_false, e1]
      congr 2
      simp only [ht] at e1'
      rw [g2] at e1'
      have hif : (if memFindEq chBslash (run ++ chBslash :: r.take (15 - run.length)) ≠ 0#32 ∧ (-1 : Int) < 0
          then ((run.length : Nat) : Int) else -1) = ((run.length : Nat) : Int) := if_pos ⟨g1, by omega⟩
      rw [hif] at e1'
      rw [← hn, Nat.mod_eq_of_lt hlt]
      split at e1'
      · simp only [Res.ok.injEq, Prod.mk.injEq] at e1'
        exact e1'.1.symm
      · rename_i hz
        have hblk : (run ++ chBslash :: r.take (15 - run.length)).length = 16 := by
          have := congrArg List.length ht; simp at this ⊢; simp at hl; omega
        have hcl : closeE false (run ++ chBslash :: r.take (15 - run.length)) = none := by
          have hbc := block_close false _ hblk
          cases hcl : closeE false (run ++ chBslash :: r.take (15 - run.length)) with
          | none => rfl
          | some m =>
            rw [hcl] at hbc
            exact absurd hbc.2.1 hz
        obtain ⟨hcarry, -⟩ := findEscaped_spec false _ hblk
        rw [hcarry] at e1'
        have hsplit : run ++ chBslash :: r = (run ++ chBslash :: r.take (15 - run.length)) ++ (run ++ chBslash :: r).drop 16 := by
          rw [← ht, List.take_append_drop]
        have hc' := hc
        rw [hsplit, closeE_append, hcl, hblk] at hc'
        dsimp only at hc'
        obtain ⟨m, hm, rfl⟩ := Option.map_eq_some_iff.1 hc'
        obtain ⟨fe', f1, f2⟩ := simdEscLoop_pos ck _ total ((run.length : Nat) : Int) _ hm (by
          rcases h with h | h
          · left; simp only [List.length_drop]; omega
          · right
            have hlen : (run ++ chBslash :: r).length / 16 * 16
                = 16 + ((run ++ chBslash :: r).drop 16).length / 16 * 16 := by
              simp only [List.length_drop]; omega
            rw [hlen, hsplit] at h
            have := escAt_append false (run ++ chBslash :: r.take (15 - run.length)) ((run ++ chBslash :: r).drop 16)
              (((run ++ chBslash :: r).drop 16).length / 16 * 16)
            rw [hblk] at this
            rw [← this]
            rw [← hsplit] at h ⊢
            exact h)
        rw [f1] at e1'
        simp only [Res.ok.injEq, Prod.mk.injEq] at e1'
        rw [← e1'.1, f2 (by omega)]
    · obtain ⟨blk, run', rfl, hb⟩ : ∃ blk run', run = blk ++ run' ∧ blk.length = 16 :=
        ⟨run.take 16, run.drop 16, (List.take_append_drop 16 run).symm, by simp; omega⟩
      have hl : 16 ≤ (blk ++ run' ++ chBslash :: r).length := by simp; omega
      have ht : (blk ++ run' ++ chBslash :: r).take 16 = blk := by rw [List.append_assoc, ← hb, List.take_left]
      have hd : (blk ++ run' ++ chBslash :: r).drop 16 = run' ++ chBslash :: r := by
        rw [List.append_assoc, ← hb, List.drop_left]
      have hplain : ∀ c ∈ blk, c ≠ chQuote ∧ c ≠ chBslash := fun c hc => hr c (by simp [hc])
      have hcl : closeE false blk = none := closeE_none (by
        intro m hm
        exact absurd rfl (hplain _ (List.mem_of_getElem? hm)).1)
      have hesc : escAt false blk 16 = false := by
        rw [show (16 : Nat) = 15 + 1 from rfl, escAt_succ]
        have h15 : blk[15]? = some blk[15] := List.getElem?_eq_getElem (by omega)
        have := (hplain blk[15] (List.getElem_mem _)).2
        rw [h15]
        simp [this]
      rw [simdEscLoop.eq_def, dif_pos hl]
      simp only [ht, hd]
      have hz := memFindEq_zero (k := chBslash) (bs := blk) (fun c hc => (hplain c hc).2)
      obtain ⟨hcarry, -⟩ := findEscaped_spec false blk hb
      have hbc := block_close false blk hb
      rw [hcl] at hbc
      rw [hesc, bit01_false] at hcarry
      rw [bit01_false] at hbc
      dsimp only at hbc
      rw [if_neg (by rw [hbc]; simp), hcarry, if_neg (by rw [hz]; simp)]
      rw [List.append_assoc, closeE_append, hcl, hb] at hc
      dsimp only at hc
      rw [hesc] at hc
      obtain ⟨m, hm, rfl⟩ := Option.map_eq_some_iff.1 hc
      have := ih run'.length (by subst hn; simp; omega) run' (fun c hc => hr c (by simp [hc])) (by
          simp only [List.length_append, List.length_cons] at hfull ⊢; omega) hm (by
          rcases h with h | h
          · left; simp only [List.length_append, List.length_cons] at h ⊢; omega
          · right
            have hlen : (blk ++ run' ++ chBslash :: r).length / 16 * 16
                = 16 + (run' ++ chBslash :: r).length / 16 * 16 := by
              simp only [List.length_append, List.length_cons]; omega
            have := escAt_append false blk (run' ++ chBslash :: r) ((run' ++ chBslash :: r).length / 16 * 16)
            rw [hb, hesc] at this
            rw [hlen, List.append_assoc] at h
            rw [← this, h]) rfl
      rw [this]
      congr 2
      · rw [← hn]; simp only [List.length_append, hb]; congr 1; omega
      · rw [show m + 16 = blk.length + m by omega, List.append_assoc, List.drop_append]; simp [List.drop_append]

/-- Without a backslash up to the end of the block of the closing quote, nothing is recorded. -/
theorem simdEscLoop_none (ck : Bool) (total : Nat) (fe : Int) (bs : Bytes) {n : Nat} (hc : closeE false bs = some n)
    (hs : ∀ c ∈ bs.take (n / 16 * 16 + 16), c ≠ chBslash) :
    simdEscLoop ck total 0#32 fe bs = .ok (fe, bs.drop n) := by
  induction hn : bs.length using Nat.strongRecOn generalizing bs n with
  | ind k ih =>
    rw [simdEscLoop.eq_def]
    by_cases hl : 16 ≤ bs.length
    · rw [dif_pos hl]
      obtain ⟨blk, rest, rfl, hb⟩ : ∃ blk rest, bs = blk ++ rest ∧ blk.length = 16 :=
        ⟨bs.take 16, bs.drop 16, (List.take_append_drop 16 bs).symm, by simp; omega⟩
      have ht : (blk ++ rest).take 16 = blk := by rw [← hb, List.take_left]
      have hd : (blk ++ rest).drop 16 = rest := by rw [← hb, List.drop_left]
      have hplain : ∀ c ∈ blk, c ≠ chBslash := by
        intro c hcm
        refine hs c ?_
        rw [List.take_append]
        refine List.mem_append_left _ ?_
        rw [List.take_of_length_le (by omega)]
        exact hcm
      have hz := memFindEq_zero (k := chBslash) (bs := blk) hplain
      obtain ⟨hcarry, -⟩ := findEscaped_spec false blk hb
      have hesc : escAt false blk 16 = false := by
        rw [show (16 : Nat) = 15 + 1 from rfl, escAt_succ]
        have h15 : blk[15]? = some blk[15] := List.getElem?_eq_getElem (by omega)
        have := hplain blk[15] (List.getElem_mem _)
        rw [h15]
        simp [this]
      rw [hesc, bit01_false] at hcarry
      have hbc := block_close false blk hb
      simp only [ht, hd]
      rw [if_neg (c := memFindEq chBslash blk ≠ 0#32 ∧ fe < 0) (by rw [hz]; simp)]
      rw [closeE_append] at hc
      rw [bit01_false] at hbc
      cases hcl : closeE false blk with
      | some m =>
        rw [hcl] at hbc hc
        obtain ⟨h1, h2, h3⟩ := hbc
        cases hc
        rw [if_pos h2, h3]
      | none =>
        rw [hcl] at hbc hc
        dsimp only at hc hbc
        rw [hb, hesc] at hc
        obtain ⟨m, hm, rfl⟩ := Option.map_eq_some_iff.1 hc
        rw [if_neg (by rw [hbc]; simp), hcarry]
        rw [ih rest.length (by subst hn; simp; omega) rest hm (by
          intro c hcm
          refine hs c ?_
          rw [List.take_append]
          refine List.mem_append_right _ ?_
          rw [show (m + 16) / 16 * 16 + 16 - blk.length = m / 16 * 16 + 16 by omega]
          exact hcm) rfl]
        rw [show m + 16 = blk.length + m by omega, List.drop_append]
        simp
    · rw [dif_neg hl, simdEscTail_eq]
      obtain ⟨fe', e1, -, -, e4⟩ := rtEscLoop_close ck total fe bs hc
      rw [e1, e4 (by
        intro c hcm
        refine hs c ?_
        have hlt := closeE_lt hc
        rw [List.take_of_length_le (by omega)]
        exact List.mem_of_mem_take hcm)]

end Verif
