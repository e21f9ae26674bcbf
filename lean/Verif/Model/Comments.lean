import Verif.Model.Skip

/-!
# Comment policies

Models `daw_json_parse_policy_cpp_comments.h` and `daw_json_parse_policy_hash_comments.h`, and `daw_json_parse_policy_no_comments.h` for
documents declared to be minified, for `ZeroTerminatedString::no`,
`ExpectLongNames::no` and `ExecModeTypes::compile_time`, and the functions of `daw_json_skip.h` that call them.  As in
`Verif.Model.Skip` a parse state is the list of bytes in `[first,last)` and a read at `last` is `ub`.
-/

namespace Verif

/-- `PolicyCommentTypes::cpp` and `PolicyCommentTypes::hash`, `daw_json_parse_options_impl.h`; `mini` is `PolicyCommentTypes::none` with
`MinifiedDocument::yes`, `daw_json_parse_options.h` L75-80, which turns the skipping of whitespace off. -/
inductive Cmt where
  | cpp | hash | mini
  deriving DecidableEq, Repr

/-- `'#'` -/ notation "chHash" => (0x23 : UInt8)
/-- `'*'` -/ notation "chStar" => (0x2A : UInt8)

/-- `move_to_next_of_checked<c>`, `daw_json_parse_policy.h` L328-333, which is `memchr_checked`, `daw_json_string_util.h`
L82-121 (branch L115-120). -/
def moveTo (c : UInt8) : Bytes → Bytes
  | [] => []
  | d :: ds => if d = c then d :: ds else moveTo c ds

theorem moveTo_length (c : UInt8) (bs : Bytes) : (moveTo c bs).length ≤ bs.length := by
  induction bs with
  | nil => simp [moveTo]
  | cons d ds ih => rw [moveTo]; split <;> simp <;> omega

/-- `skip_comments_checked`, `daw_json_parse_policy_hash_comments.h` L39-49.  The read of `front( )` in L45 is not guarded. -/
def skipHash (bs : Bytes) : Res Bytes :=
  match bs with
  | [] => .ok []
  | c :: cs =>
    if c = chHash then
      match _h : moveTo chNl cs with
      | [] => .ub
      | _ :: r => skipHash r
    else .ok (c :: cs)
termination_by bs.length
decreasing_by
  have := moveTo_length chNl cs
  rw [_h] at this
  simp at this ⊢
  omega

/-- The loop over a block comment, `daw_json_parse_policy_cpp_comments.h` L71-83, merged with the search for the star: after a
star that is not followed by a slash the byte after it is passed over too (L82). -/
def blockEnd : Bytes → Bytes
  | [] => []
  | c :: cs =>
    if c = chStar then
      match cs with
      | [] => []
      | d :: r => if d = chSlash then r else blockEnd r
    else blockEnd cs

theorem blockEnd_length (bs : Bytes) : (blockEnd bs).length ≤ bs.length := by
  fun_induction blockEnd bs <;> simp_all <;> omega

/-- `skip_comments_checked`, `daw_json_parse_policy_cpp_comments.h` L55-89.  The read of `*( first + 1 )` in L62 is not
guarded. -/
def skipCpp (bs : Bytes) : Res Bytes :=
  match bs with
  | [] => .ok []
  | c :: cs =>
    if c = chSlash then
      match cs with
      | [] => .ub
      | d :: ds =>
        if d = chSlash then
          match _h : moveTo chNl (c :: d :: ds) with
          | [] => .ok []
          | _ :: r => skipCpp r
        else if d = chStar then skipCpp (blockEnd ds)
        else .ok (c :: d :: ds)
    else .ok (c :: cs)
termination_by bs.length
decreasing_by
  · have := moveTo_length chNl (c :: d :: ds)
    rw [_h] at this
    simp at this ⊢
    omega
  · have := blockEnd_length ds
    simp
    omega

/-- `skip_comments_checked` of either comment policy; there are no comments in a minified document. -/
def skipCmt : Cmt → Bytes → Res Bytes
  | .cpp => skipCpp
  | .hash => skipHash
  | .mini => .ok

theorem skipHash_length {bs r : Bytes} (h : skipHash bs = .ok r) : r.length ≤ bs.length := by
  fun_induction skipHash bs with
  | case1 => simp at h; simp [h]
  | case2 => simp at h
  | case3 cs x r' hm ih =>
    have := ih h
    have h2 := moveTo_length chNl cs
    rw [hm] at h2
    simp at h2 ⊢
    omega
  | case4 c cs hc => simp at h; simp [← h]

theorem skipCpp_length {bs r : Bytes} (h : skipCpp bs = .ok r) : r.length ≤ bs.length := by
  fun_induction skipCpp bs with
  | case1 => simp at h; simp [h]
  | case2 => simp at h
  | case3 ds hm => simp at h; simp [h]
  | case4 ds x r' hm ih =>
    have := ih h
    have h2 := moveTo_length chNl (chSlash :: chSlash :: ds)
    rw [hm] at h2
    simp at h2 ⊢
    omega
  | case5 ds hc ih =>
    have := ih h
    have h2 := blockEnd_length ds
    simp
    omega
  | case6 d ds h1 h2 => simp at h; simp [← h]
  | case7 c cs hc => simp at h; simp [← h]

theorem skipCmt_length {p : Cmt} {bs r : Bytes} (h : skipCmt p bs = .ok r) : r.length ≤ bs.length := by
  cases p
  · exact skipCpp_length h
  · exact skipHash_length h
  · cases h; exact Nat.le_refl _

/-- Whether `trim_left_checked` and `trim_left_unchecked` skip whitespace, `daw_json_parse_policy_no_comments.h` L34, L68. -/
def Cmt.skipsSpace : Cmt → Bool
  | .cpp | .hash => true
  | .mini => false

/-- `trim_left_checked`, `daw_json_parse_policy_cpp_comments.h` L102-110, `daw_json_parse_policy_hash_comments.h` L62-70,
`daw_json_parse_policy_no_comments.h` L32-36. -/
def trimCmt (p : Cmt) (bs : Bytes) : Res Bytes :=
  match _h : skipCmt p bs with
  | .ok [] => .ok []
  | .ok (c :: cs) => if p.skipsSpace && isSpace c then trimCmt p cs else .ok (c :: cs)
  | .err e => .err e
  | .ub => .ub
termination_by bs.length
decreasing_by
  have := skipCmt_length _h
  simp at this
  omega

/-- `move_to_next_of_unchecked<c>`, `daw_json_parse_policy.h` L321-326 (`memchr_unchecked`, `daw_json_string_util.h` L64-70). -/
def moveToUnchecked (c : UInt8) : Bytes → Res Bytes
  | [] => .ub
  | d :: ds => if d = c then .ok (d :: ds) else moveToUnchecked c ds

theorem moveToUnchecked_length {c : UInt8} {bs r : Bytes} (h : moveToUnchecked c bs = .ok r) : r.length ≤ bs.length := by
  induction bs with
  | nil => simp [moveToUnchecked] at h
  | cons d ds ih =>
    rw [moveToUnchecked] at h
    split at h
    · simp at h; simp [← h]
    · have := ih h; simp; omega

/-- `skip_comments_unchecked`, `daw_json_parse_policy_hash_comments.h` L29-37. -/
def skipHashUnchecked (bs : Bytes) : Res Bytes :=
  match bs with
  | [] => .ub
  | c :: cs =>
    if c = chHash then
      match _h : moveToUnchecked chNl cs with
      | .ok (_ :: r) => skipHashUnchecked r
      | _ => .ub
    else .ok (c :: cs)
termination_by bs.length
decreasing_by
  have := moveToUnchecked_length _h
  simp at this ⊢
  omega

/-- The loop over a block comment, `daw_json_parse_policy_cpp_comments.h` L39-47. -/
def blockEndUnchecked : Bytes → Res Bytes
  | [] => .ub
  | c :: cs =>
    if c = chStar then
      match cs with
      | [] => .ub
      | d :: r => if d = chSlash then .ok r else blockEndUnchecked r
    else blockEndUnchecked cs

theorem blockEndUnchecked_length {bs r : Bytes} (h : blockEndUnchecked bs = .ok r) : r.length ≤ bs.length := by
  fun_induction blockEndUnchecked bs <;> simp_all <;> omega

/-- `skip_comments_unchecked`, `daw_json_parse_policy_cpp_comments.h` L28-53. -/
def skipCppUnchecked (bs : Bytes) : Res Bytes :=
  match bs with
  | [] => .ub
  | c :: cs =>
    if c = chSlash then
      match cs with
      | [] => .ub
      | d :: ds =>
        if d = chSlash then
          match _h : moveToUnchecked chNl (c :: d :: ds) with
          | .ok (_ :: r) => skipCppUnchecked r
          | _ => .ub
        else if d = chStar then
          match _h : blockEndUnchecked ds with
          | .ok r => skipCppUnchecked r
          | _ => .ub
        else .ok (c :: d :: ds)
    else .ok (c :: cs)
termination_by bs.length
decreasing_by
  · have := moveToUnchecked_length _h
    simp at this ⊢
    omega
  · have := blockEndUnchecked_length _h
    simp
    omega

/-- `trim_left_unchecked`, `daw_json_parse_policy_cpp_comments.h` L112-119, `daw_json_parse_policy_hash_comments.h` L72-79:
comments are skipped once, in front of the whitespace only; `daw_json_parse_policy_no_comments.h` L67-69. -/
def trimCmtUnchecked (p : Cmt) (bs : Bytes) : Res Bytes :=
  match p with
  | .cpp => do
    let b ← skipCppUnchecked bs
    trimUnchecked b
  | .hash => do
    let b ← skipHashUnchecked bs
    trimUnchecked b
  | .mini => .ok bs

/-- `BasicParsePolicy::trim_left`, `daw_json_parse_policy.h` L424-430. -/
def trimC (cfg : Cfg) (p : Cmt) (bs : Bytes) : Res Bytes := if cfg.checked then trimCmt p bs else trimCmtUnchecked p bs

/-- `move_next_member_or_end_checked`, `daw_json_parse_policy.h` L440-454 (branch L449-452). -/
def moveNextCmt (p : Cmt) (bs : Bytes) : Res Bytes := do
  let b ← trimCmt p bs
  match b with
  | [] => .ok []
  | c :: cs => if c = chComma then trimCmt p cs else .ok (c :: cs)

/-! ## Containers -/

/-- What the loop of `skip_bracketed_item_checked` does after the first byte of a comment: the remaining range once the
`++ptr_first` of the main loop is done.  When that would be one past `last` it is the empty range here: the loop ends in either
case.
* hash, `daw_json_parse_policy_hash_comments.h` L168-178: to the newline, which is looked at again;
* cpp, `daw_json_parse_policy_cpp_comments.h` L206-229. -/
def lineStop : Bytes → Bytes
  | [] => []
  | [c] => [c]
  | c :: d :: ds => if c = chNl then c :: d :: ds else lineStop (d :: ds)

/-- The loop in a block comment, `daw_json_parse_policy_cpp_comments.h` L219-222: it stops at a star *or* in front of a slash,
and when fewer than three bytes are left. -/
def blockStop : Bytes → Bytes
  | c :: d :: e :: ds => if c ≠ chStar ∧ d ≠ chSlash then blockStop (d :: e :: ds) else c :: d :: e :: ds
  | bs => bs

/-- See `lineStop`. -/
def brComment (p : Cmt) (cs : Bytes) : Res Bytes :=
  match p with
  | .hash => .ok (moveTo chNl cs)
  | .mini => .ok cs
  | .cpp =>
    match cs with
    | [] => .err .unexpectedEndOfData
    | d :: ds =>
      if d = chSlash then .ok ((lineStop ds).drop 1)
      else if d = chStar then .ok ((blockStop ds).drop 1)
      else .ok (ds.drop 1)

theorem lineStop_length (bs : Bytes) : (lineStop bs).length ≤ bs.length := by
  fun_induction lineStop bs <;> simp_all <;> omega

theorem blockStop_length (bs : Bytes) : (blockStop bs).length ≤ bs.length := by
  fun_induction blockStop bs <;> simp_all <;> omega

theorem brComment_length {p : Cmt} {cs r : Bytes} (h : brComment p cs = .ok r) : r.length ≤ cs.length := by
  unfold brComment at h
  split at h
  · simp at h; rw [← h]; exact moveTo_length _ _
  · simp at h; simp [h]
  · split at h
    · simp at h
    · rename_i d ds
      have h1 := lineStop_length ds
      have h2 := blockStop_length ds
      split at h
      · simp at h; rw [← h]; simp; omega
      · split at h
        · simp at h; rw [← h]; simp; omega
        · simp at h; rw [← h]; simp; omega

/-- The byte a comment starts with.  In a minified document it starts nothing, see `brComment`. -/
def cmtChar : Cmt → UInt8
  | .cpp => chSlash
  | .hash => chHash
  | .mini => chHash

/-- The main loop of `skip_bracketed_item_checked`, `daw_json_parse_policy_cpp_comments.h` L165-233,
`daw_json_parse_policy_hash_comments.h` L126-182, `daw_json_parse_policy_no_comments.h` L163-206.  See `brLoop`. -/
def brLoopCmt (pol : Cmt) (k : Brackets) (p s cnt : Nat) (bs : Bytes) : Res (Nat × Bytes) :=
  match bs with
  | [] => do
    ensure (p == 0 && s == 0) .invalidBracketing
    .ok (cnt, [])
  | c :: cs =>
    if c = chBslash then brLoopCmt pol k p s cnt (cs.drop 1)
    else if c = chQuote then
      match _h : memSkipStr cs with
      | [] => .err .unexpectedEndOfData
      | _ :: cs' => brLoopCmt pol k p s cnt cs'
    else if c = chComma then
      brLoopCmt pol k p s (if p = 1 ∧ s = 0 then cnt + 1 else cnt) cs
    else if c = k.primLeft then brLoopCmt pol k (inc32 p) s cnt cs
    else if c = k.primRight then
      if dec32 p = 0 then do
        ensure (s == 0) .invalidBracketing
        .ok (cnt, cs)
      else brLoopCmt pol k (dec32 p) s cnt cs
    else if c = k.secLeft then brLoopCmt pol k p (inc32 s) cnt cs
    else if c = k.secRight then brLoopCmt pol k p (dec32 s) cnt cs
    else if c = cmtChar pol then
      match _h : brComment pol cs with
      | .ok r => brLoopCmt pol k p s cnt r
      | .err e => .err e
      | .ub => .ub
    else brLoopCmt pol k p s cnt cs
termination_by bs.length
decreasing_by
  all_goals simp only [List.length_cons, List.length_drop]
  all_goals first
    | omega
    | (have := memSkipStr_length cs; rw [_h] at this; simp at this; omega)
    | (have := brComment_length _h; omega)

/-- `skip_bracketed_item_checked`, `daw_json_parse_policy_cpp_comments.h` L145-240, `daw_json_parse_policy_hash_comments.h`
L106-189. -/
def skipBracketedCmt (pol : Cmt) (k : Brackets) (bs : Bytes) : Res (Range × Bytes) :=
  match bs with
  | [] => .ok ({ text := [] }, [])
  | c :: cs => do
    let (cnt, rest) ← brLoopCmt pol k 1 0 0 (if c = k.primLeft then cs else c :: cs)
    .ok ({ text := bs.take (bs.length - rest.length), counter := cnt }, rest)

/-! ## Values -/

/-- The end of `skip_true` / `skip_false` / `skip_null`, see `endOfLiteral`. -/
def endOfLiteralCmt (pol : Cmt) (e : Err) (bs : Bytes) : Res Bytes := do
  let b ← trimCmt pol bs
  ensure (match b with | [] => true | c :: _ => isTokenAfterValue c) e
  .ok b

/-- `skip_value<KeepInitialQuote>`, `daw_json_skip.h` L318-361, checked, with a comment policy; `skip_true`, `skip_false` and
`skip_null` (L75-141) written out. -/
def skipValueCmt (pol : Cmt) (excl : Bool) (keepQuotes : Bool) (bs : Bytes) : Res (Range × Bytes) := do
  ensure (!bs.isEmpty) .unexpectedEndOfData
  let c ← deref bs
  let cfg : Cfg := { checked := true, exclSpecial := excl }
  if c = chQuote then skipString cfg keepQuotes bs
  else if c = chLBrack then skipBracketedCmt pol arrBr bs
  else if c = chLBrace then skipBracketedCmt pol objBr bs
  else if c = chT then do
    let b ← eatLiteral cfg .invalidTrue txtRue bs
    let r ← endOfLiteralCmt pol .invalidEndOfValue b
    .ok ({ text := bs.take 4, counter := 1 }, r)
  else if c = chF then do
    let b ← eatLiteral cfg .invalidFalse txtAlse bs
    let r ← endOfLiteralCmt pol .invalidEndOfValue b
    .ok ({ text := bs.take 5, counter := 0 }, r)
  else if c = chN then do
    let b ← eatLiteral cfg .invalidNull txtUll bs
    ensure (!b.isEmpty) .unexpectedEndOfData
    let r ← endOfLiteralCmt pol .unexpectedEndOfData b
    .ok ({ text := [], null := true }, r)
  else if c = chMinus ∨ isDigit c = true then skipNumber cfg bs
  else .err .invalidStartOfValue

end Verif
