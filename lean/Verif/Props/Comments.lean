import Verif.Proof.Comments
import Verif.Spec.Sample

/-!
# C42: comments
-/

namespace Verif

open Spec

/-! ## Hash comments -/

/-- **C42, trimming, hash comments.**  Any run of whitespace and comments in front of a token is passed over; likewise at the end of
the text. -/
theorem C42_hash_trim (g : Bytes) (hg : HashGap g) :
    (∀ x r, 0x20 < x → x ≠ 0x23 → trimCmt .hash (g ++ x :: r) = .ok (x :: r)) ∧ trimCmt .hash g = .ok [] := by
  refine ⟨fun x r h1 h2 => by rw [trimCmt_hash hg]; exact trimCmt_stop (p := .hash) h1 h2 r, ?_⟩
  have := trimCmt_hash hg []
  rw [List.append_nil] at this
  rw [this, trimCmt_nil]

/-- Two gaps and a comma between two values are passed over too. -/
theorem C42_hash_next (g₁ g₂ : Bytes) (h₁ : HashGap g₁) (h₂ : HashGap g₂) (x : UInt8) (r : Bytes) (hx : 0x20 < x) (hx2 : x ≠ 0x23) :
    moveNextCmt .hash (g₁ ++ 0x2C :: (g₂ ++ x :: r)) = .ok (x :: r) := by
  simp [moveNextCmt, trimCmt_hash h₁, trimCmt_hash h₂, trimCmt_stop (p := .hash) (c := 0x2C) (by decide) (by decide),
    trimCmt_stop (p := .hash) hx hx2]

/-- **C42, skipping, hash comments.**  A value with comments between any of its tokens, followed by a gap with comments, is skipped
exactly, as without comments. -/
theorem C42_hash_skip (excl kq : Bool) (v : JVal) (hv : v.WFg HashGap) (hd : v.depth < 4294967296) (g t : Bytes)
    (hg : HashGap g) (ht : EndToken t) (hn : v = .null → g ++ t ≠ []) :
    ∃ r, skipValueCmt .hash excl kq (v.text ++ (g ++ t)) = .ok (r, if v.isLiteral then t else g ++ t) ∧
      r.text = rangeText kq v ∧ (r.null = true ↔ v = .null) ∧
      ((∃ w es, v = .arr w es) ∨ (∃ w ms, v = .obj w ms) → r.counter = extraElems v) := by
  refine skipValueCmt_exact (G := HashGap) (G' := HashGap) excl kq (fun k hk p s cnt g cs h => brLoopHash_gap hk p s cnt g cs h)
    (fun g rest h => trimCmt_hash h rest) ?_ v hv hd g t hg ht hn
  rintro g x g' (_ | ⟨h, _⟩ | ⟨_, _⟩) e
  · simp at e
  · simp at e; rw [← e.1]; exact Or.inl h
  · simp at e; rw [← e.1]; exact Or.inr rfl

/-- `#]"⏎ ` -/
def exHash : Bytes := [0x23, 0x5D, 0x22, 0x0A, 0x20]

theorem exHash_gap : HashGap exHash := .comment (t := [0x5D, 0x22]) (by decide) (.ws (by simp [isWsByte]) .nil)

/-- Non-vacuity: `[⟨gap⟩1⟨gap⟩,null]⟨gap⟩,`. -/
example : ∃ r, skipValueCmt .hash false false
    ((JVal.arr [] (.cons exHash sampleOne exHash (.cons [] .null [] .nil))).text ++ (exHash ++ [0x2C])) = .ok (r, exHash ++ [0x2C]) ∧
    r.counter = 1 := by
  obtain ⟨r, h1, _, _, h4⟩ := C42_hash_skip false false (JVal.arr [] (.cons exHash sampleOne exHash (.cons [] .null [] .nil)))
    ⟨.nil, exHash_gap, sampleOne_wf, exHash_gap, .nil, trivial, .nil, trivial⟩ (by decide) exHash [0x2C] exHash_gap
    (Or.inr ⟨0x2C, [], rfl, Or.inl rfl⟩) (by simp)
  exact ⟨r, h1, h4 (Or.inl ⟨_, _, rfl⟩)⟩

example : trimCmt .hash (exHash ++ [0x5B]) = .ok [0x5B] := (C42_hash_trim exHash exHash_gap).1 0x5B [] (by decide) (by decide)

/-- **C42 is false of the code** for a hash comment at the end of the text without a newline: the byte after the text is read. -/
theorem C42_hash_end_false (t : Bytes) (h : 0x0A ∉ t) : trimCmt .hash (0x23 :: t) = .ub := by
  rw [trimCmt_def]
  have : skipHash (chHash :: t) = .ub := by
    rw [skipHash.eq_def]
    have e : moveTo chNl t = [] := by
      induction t with
      | nil => rfl
      | cons c t ih =>
        rw [moveTo, if_neg (by rintro rfl; simp at h)]
        exact ih (fun hm => h (List.mem_cons_of_mem _ hm))
    simp only [if_true]
    split
    · rfl
    · rename_i hm; rw [e] at hm; simp at hm
  show trimAfter _ (skipHash _) = _
  rw [this]
  rfl

/-! ## C++ comments -/

/-- **C42, trimming, C++ comments, partial.**  Any run of whitespace, line comments and block comments in front of a token is passed
over, if no block comment has an odd number of stars in front of its `*/`.  Missing: those, see `C42_cpp_stars_false`. -/
theorem C42_cpp_trim_partial (g : Bytes) (hg : CppGapOf EvenStars g) :
    (∀ x r, 0x20 < x → x ≠ 0x2F → trimCmt .cpp (g ++ x :: r) = .ok (x :: r)) ∧ trimCmt .cpp g = .ok [] := by
  refine ⟨fun x r h1 h2 => by rw [trimCmt_cpp hg]; exact trimCmt_stop (p := .cpp) h1 h2 r, ?_⟩
  have := trimCmt_cpp hg []
  rw [List.append_nil] at this
  rw [this, trimCmt_nil]

/-- Two gaps and a comma between two values are passed over too. -/
theorem C42_cpp_next_partial (g₁ g₂ : Bytes) (h₁ : CppGapOf EvenStars g₁) (h₂ : CppGapOf EvenStars g₂) (x : UInt8) (r : Bytes)
    (hx : 0x20 < x) (hx2 : x ≠ 0x2F) : moveNextCmt .cpp (g₁ ++ 0x2C :: (g₂ ++ x :: r)) = .ok (x :: r) := by
  simp [moveNextCmt, trimCmt_cpp h₁, trimCmt_cpp h₂, trimCmt_stop (p := .cpp) (c := 0x2C) (by decide) (by decide),
    trimCmt_stop (p := .cpp) hx hx2]

theorem trimCmt_length {p : Cmt} {bs r : Bytes} (h : trimCmt p bs = .ok r) : r.length ≤ bs.length := by
  induction hn : bs.length using Nat.strongRecOn generalizing bs with
  | _ n ih =>
    rw [trimCmt_def] at h
    cases hs : skipCmt p bs with
    | ok b =>
      rw [hs] at h
      have hl := skipCmt_length hs
      cases b with
      | nil => simp [trimAfter] at h; simp [h]
      | cons c cs =>
        simp only [trimAfter] at h
        simp at hl
        split at h
        · have := ih cs.length (by omega) h rfl
          omega
        · simp at h; rw [← h]; simp; omega
    | err e => rw [hs] at h; simp [trimAfter] at h
    | ub => rw [hs] at h; simp [trimAfter] at h

/-- **C42 is false of the code** for every block comment with an odd number of stars in front of its `*/`, as in `/***/`: the text
after it is never reached. -/
theorem C42_cpp_stars_false (t : Bytes) (ht : NoClose (t ++ [0x2A])) (hodd : endStars t % 2 = 1) (x : UInt8) (r : Bytes) :
    trimCmt .cpp (0x2F :: 0x2A :: (t ++ 0x2A :: 0x2F :: x :: r)) ≠ .ok (x :: r) := by
  intro h
  have e : trimCmt .cpp (0x2F :: 0x2A :: (t ++ 0x2A :: 0x2F :: x :: r)) = trimCmt .cpp (blockEnd (x :: r)) := by
    refine trimCmt_skip (p := .cpp) ?_
    show skipCpp _ = skipCpp _
    rw [skipCpp_block, blockEnd_comment ht, if_neg (by omega)]
  rw [e] at h
  have h1 := trimCmt_length h
  have h2 : (blockEnd (x :: r)).length ≤ r.length := by
    rw [blockEnd.eq_def]
    simp only
    split
    · cases r with
      | nil => simp
      | cons d r =>
        simp only
        split
        · simp
        · have := blockEnd_length r; simp; omega
    · exact blockEnd_length r
  simp at h1
  omega

/-- Such a comment: `/***/`. -/
example : trimCmt .cpp [0x2F, 0x2A, 0x2A, 0x2A, 0x2F, 0x31] ≠ .ok [0x31] :=
  C42_cpp_stars_false [0x2A] (by simp [NoClose]) (by decide) 0x31 []

theorem simpleBlock_even {g : Bytes} (hg : CppGapOf SimpleBlock g) : CppGapOf EvenStars g := by
  induction hg with
  | nil => exact .nil
  | ws h _ ih => exact .ws h ih
  | line h _ ih => exact .line h ih
  | @block t g h hb _ ih =>
    refine .block h ?_ ih
    have : endStars t = 0 := by
      unfold endStars
      cases hr : t.reverse with
      | nil => rfl
      | cons c u =>
        have : c ≠ chStar := by
          rintro rfl
          exact hb.1 (by rw [← List.mem_reverse, hr]; exact List.mem_cons_self)
        simp [this]
    show endStars t % 2 = 0
    rw [this]

/-- **C42, skipping, C++ comments, partial.**  A value with line comments between any of its tokens, and with those block comments that
have no stars and slashes in them and two bytes of whitespace after them, is skipped exactly.  Missing: all other block comments, see
`C42_cpp_skip_false`. -/
theorem C42_cpp_skip_partial (excl kq : Bool) (v : JVal) (hv : v.WFg (CppGapOf SimpleBlock)) (hd : v.depth < 4294967296) (g t : Bytes)
    (hg : CppGapOf EvenStars g) (ht : EndToken t) (hn : v = .null → g ++ t ≠ []) :
    ∃ r, skipValueCmt .cpp excl kq (v.text ++ (g ++ t)) = .ok (r, if v.isLiteral then t else g ++ t) ∧
      r.text = rangeText kq v ∧ (r.null = true ↔ v = .null) ∧
      ((∃ w es, v = .arr w es) ∨ (∃ w ms, v = .obj w ms) → r.counter = extraElems v) := by
  refine skipValueCmt_exact (G := CppGapOf SimpleBlock) (G' := CppGapOf EvenStars) excl kq
    (fun k hk p s cnt g cs h => brLoopCpp_gap hk p s cnt g cs h) (fun g rest h => trimCmt_cpp h rest) ?_ v hv hd g t hg ht hn
  rintro g x g' (_ | ⟨h, _⟩ | ⟨_, _⟩ | ⟨_, _, _⟩) e
  · simp at e
  · simp at e; rw [← e.1]; exact Or.inl h
  · simp at e; rw [← e.1]; exact Or.inr rfl
  · simp at e; rw [← e.1]; exact Or.inr rfl

/-- `//]⏎/*"*/  ` -/
def exCpp : Bytes := [0x2F, 0x2F, 0x5D, 0x0A, 0x2F, 0x2A, 0x22, 0x2A, 0x2F, 0x20, 0x20]

theorem exCpp_gap : CppGapOf SimpleBlock exCpp :=
  .line (t := [0x5D]) (by decide) (.block (t := [0x22]) (by simp [NoClose])
    ⟨by decide, by decide, 0x20, 0x20, [], rfl, by simp [isWsByte], by simp [isWsByte]⟩ (.ws (by simp [isWsByte]) (.ws (by simp [isWsByte]) .nil)))

/-- Non-vacuity: `[⟨gap⟩1⟨gap⟩,null]⟨gap⟩,`. -/
example : ∃ r, skipValueCmt .cpp false false
    ((JVal.arr [] (.cons exCpp sampleOne exCpp (.cons [] .null [] .nil))).text ++ (exCpp ++ [0x2C])) = .ok (r, exCpp ++ [0x2C]) ∧
    r.counter = 1 := by
  obtain ⟨r, h1, _, _, h4⟩ := C42_cpp_skip_partial false false (JVal.arr [] (.cons exCpp sampleOne exCpp (.cons [] .null [] .nil)))
    ⟨.nil, exCpp_gap, sampleOne_wf, exCpp_gap, .nil, trivial, .nil, trivial⟩ (by decide) exCpp [0x2C] (simpleBlock_even exCpp_gap)
    (Or.inr ⟨0x2C, [], rfl, Or.inl rfl⟩) (by simp)
  exact ⟨r, h1, h4 (Or.inl ⟨_, _, rfl⟩)⟩

example : trimCmt .cpp (exCpp ++ [0x5B]) = .ok [0x5B] :=
  (C42_cpp_trim_partial exCpp (simpleBlock_even exCpp_gap)).1 0x5B [] (by decide) (by decide)

/-- **C42 is false of the code** for block comments inside a container that is skipped: after `*/` the slash is taken for the start
of another comment and the two bytes that follow it are passed over.  `[/*c*/1]` is an error. -/
theorem C42_cpp_skip_false (c : UInt8) (h : c ≠ 0x2A) (d : UInt8) (hd : d ≠ 0x2A) (hd2 : d ≠ 0x2F) :
    skipValueCmt .cpp false false [0x5B, 0x2F, 0x2A, c, 0x2A, 0x2F, d, 0x5D] = .err .invalidBracketing := by
  have s1 := brLoopCmt_step (pol := .cpp) (Or.inl rfl : IsBr arrBr) 1 0 0 [0x2A, c, 0x2A, 0x2F, d, 0x5D]
  have e1 : brComment .cpp [0x2A, c, 0x2A, 0x2F, d, 0x5D] = .ok [0x2F, d, 0x5D] := by
    simp [brComment, blockStop, h]
  have s2 := brLoopCmt_step (pol := .cpp) (Or.inl rfl : IsBr arrBr) 1 0 0 [d, 0x5D]
  have e2 : brComment .cpp [d, 0x5D] = .ok [] := by
    simp [brComment, hd, hd2]
  have e3 : brLoopCmt .cpp arrBr 1 0 0 [] = .err .invalidBracketing := by
    rw [brLoopCmt.eq_def]; rfl
  rw [e1] at s1
  rw [e2] at s2
  simp only at s1 s2
  rw [e3] at s2
  have : brLoopCmt .cpp arrBr 1 0 0 [0x2F, 0x2A, c, 0x2A, 0x2F, d, 0x5D] = .err .invalidBracketing := s1.trans s2
  simp [skipValueCmt, skipBracketedCmt, this, show arrBr.primLeft = 0x5B from rfl]

/-- **C42 is false of the code** in unchecked mode when whitespace comes first: the comment stays. -/
theorem C42_unchecked_false (p : Cmt) (hp : p ≠ .mini) (r : Bytes) :
    trimC { checked := false } p (0x20 :: cmtChar p :: r) = .ok (cmtChar p :: r) := by
  cases p
  · simp [trimC, trimCmtUnchecked, skipCppUnchecked, trimUnchecked, isSpace, cmtChar]
  · simp [trimC, trimCmtUnchecked, skipHashUnchecked, trimUnchecked, isSpace, cmtChar]
  · exact absurd rfl hp

/-- A slash that is the last byte of the text makes the trimming read the byte after it. -/
theorem C42_cpp_end_false : trimCmt .cpp [0x2F] = .ub := by
  rw [trimCmt_def]
  show trimAfter _ (skipCpp _) = _
  rw [skipCpp.eq_def]
  rfl

end Verif
