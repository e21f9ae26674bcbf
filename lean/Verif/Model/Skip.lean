import Verif.Model.Base

/-!
# Skipping whitespace and values

Models `daw_json_parse_policy_no_comments.h`, `daw_json_parse_string_quote.h`, `daw_json_skip.h` and the
parts of `daw_json_parse_policy.h` they use, for `ZeroTerminatedString::no`,
`PolicyCommentTypes::none`, `MinifiedDocument::no`, `ExecModeTypes::compile_time`.

A parse state is the list of bytes in `[first,last)`.  `class_last`, the bound the string scanner uses, is
identified with `last` (simplification: in the code `class_last` is the end of the enclosing range, which is
`last` at the root and never before `last` elsewhere).
-/

namespace Verif

/-- The policy bits that matter here: `is_unchecked_input` (negated) and `exclude_special_escapes`,
`daw_json_parse_policy.h` L77-79 and L129-131.  `endQuote` is not a policy bit but says what stands at `last`: the closing quote, if the
range is the body of a string that was skipped (`skip_string_nq`, `daw_json_skip.h` L38-50); otherwise nothing that may be read. -/
structure Cfg where
  checked : Bool := true
  exclSpecial : Bool := false
  endQuote : Bool := false
  deriving DecidableEq, Repr

/-- `if constexpr( ParseState::is_unchecked_input ) ... else { m }`: only when checked. -/
def whenChecked (cfg : Cfg) (m : Res Unit) : Res Unit := if cfg.checked then m else .ok ()

/-- The whitespace test `static_cast<unsigned>( *first ) - 1U <= 0x1FU`, unsigned wrap included
(`daw_json_parse_policy_no_comments.h` L56-57, `daw_json_parse_policy.h` L402-406). -/
def isSpace (c : UInt8) : Bool := decide ((4294967295 + c.toNat) % 4294967296 ≤ 0x1F)

/-- `trim_left_checked`, `daw_json_parse_policy_no_comments.h` L33-63 (branch L54-59). -/
def trimChecked : Bytes → Bytes
  | [] => []
  | c :: cs => if isSpace c then trimChecked cs else c :: cs

/-- `trim_left_unchecked`, `daw_json_parse_policy_no_comments.h` L65-81: no bounds check. -/
def trimUnchecked : Bytes → Res Bytes
  | [] => .ub
  | c :: cs => if isSpace c then trimUnchecked cs else .ok (c :: cs)

/-- `trim_left_unchecked`, same lines, where the range may be the body of a string: it stops at the closing quote. -/
def trimUncheckedEnd (cfg : Cfg) : Bytes → Res Bytes
  | [] => if cfg.endQuote then .ok [] else .ub
  | c :: cs => if isSpace c then trimUncheckedEnd cfg cs else .ok (c :: cs)

/-- `*first` (`front( )`, `daw_json_parse_policy.h` L344-346) where the range may be the body of a string. -/
def derefEnd (cfg : Cfg) : Bytes → Res UInt8
  | [] => if cfg.endQuote then .ok chQuote else .ub
  | c :: _ => .ok c

@[simp] theorem derefEnd_cons (cfg : Cfg) (c : UInt8) (cs : Bytes) : derefEnd cfg (c :: cs) = .ok c := rfl

theorem trimUncheckedEnd_of_ub {cfg : Cfg} {bs : Bytes} (h : trimUnchecked bs = .ub) :
    trimUncheckedEnd cfg bs = if cfg.endQuote then .ok [] else .ub := by
  induction bs with
  | nil => rfl
  | cons c cs ih =>
    unfold trimUnchecked at h
    unfold trimUncheckedEnd
    split
    · rename_i hc; rw [if_pos hc] at h; exact ih h
    · rename_i hc; rw [if_neg hc] at h; cases h

theorem trimUncheckedEnd_of_ok {cfg : Cfg} {bs r : Bytes} (h : trimUnchecked bs = .ok r) : trimUncheckedEnd cfg bs = .ok r := by
  induction bs with
  | nil => cases h
  | cons c cs ih =>
    unfold trimUnchecked at h
    unfold trimUncheckedEnd
    split
    · rename_i hc; rw [if_pos hc] at h; exact ih h
    · rename_i hc; rw [if_neg hc] at h; exact h

/-- `BasicParsePolicy::trim_left`, `daw_json_parse_policy.h` L424-430. -/
def trim (cfg : Cfg) (bs : Bytes) : Res Bytes :=
  if cfg.checked then .ok (trimChecked bs) else trimUnchecked bs

/-- `move_next_member_or_end_checked`, `daw_json_parse_policy.h` L440-454 (branch L449-452). -/
def moveNextChecked (bs : Bytes) : Bytes :=
  match trimChecked bs with
  | [] => []
  | c :: cs => if c = chComma then trimChecked cs else c :: cs

/-- `move_next_member_or_end_unchecked`, `daw_json_parse_policy.h` L432-438. -/
def moveNextUnchecked (bs : Bytes) : Res Bytes := do
  let b ← trimUnchecked bs
  let c ← deref b
  if c = chComma then trimUnchecked b.tail else .ok b

/-- `move_next_member_or_end`, `daw_json_parse_policy.h` L456-462. -/
def moveNext (cfg : Cfg) (bs : Bytes) : Res Bytes :=
  if cfg.checked then .ok (moveNextChecked bs) else moveNextUnchecked bs

/-- `is_at_token_after_value`, `daw_json_parse_policy.h` L485-487, on a known first byte. -/
def isTokenAfterValue (c : UInt8) : Bool := c == chComma || c == chRBrace || c == chRBrack

/-- `parse_digit`, `daw_json_parse_digit.h` L17-22: `c - '0'` as an unsigned char. -/
def parseDigit (c : UInt8) : Nat := (c - ch0).toNat

/-- `parse_digit( c ) < 10`. -/
def isDigit (c : UInt8) : Bool := parseDigit c < 10

/-! ## Strings -/

/-- Is one of the bytes of a block a quote or a backslash?  The `test_at_byte` tests of
`skip_to_first8` / `skip_to_first4`, `daw_json_parse_string_quote.h` L25-39, L46-64, L77-85. -/
def blockStops (l : Bytes) : Bool := l.any (fun c => c == chQuote || c == chBslash)

/-- `skip_to_first8` / `skip_to_first4` with block size `k` (8 or 4), `daw_json_parse_string_quote.h`
L41-90: the number of bytes skipped from `first`.  `off` counts the bytes already skipped.

Simplification: the final adjustment `first -= *( first - 1 ) == '\\'` (L68, L89) is omitted.  The byte
before `first` is the opening quote the callers have just removed, or the last byte of a block already
found free of backslashes, so the adjustment is zero. -/
def skipBlocks (k : Nat) (off : Nat) (bs : Bytes) : Nat :=
  if 0 < k ∧ 2 * k ≤ bs.length ∧ blockStops (bs.take k) = false then
    skipBlocks k (off + k) (bs.drop k)
  else off
termination_by bs.length
decreasing_by simp; omega

/-- The block pre-skip at the head of `parse_nq_check` (L150-156) and `parse_nq_uncheck` (L109-116). -/
def preSkip (bs : Bytes) : Nat :=
  if 8 ≤ bs.length then skipBlocks 8 0 bs
  else if 4 ≤ bs.length then skipBlocks 4 0 bs
  else 0

/-- The value of `static_cast<std::size_t>( -1 )`: "no escape seen". -/
def npos : Nat := 18446744073709551615

/-- The scanning loop of `parse_nq_check`, `daw_json_parse_string_quote.h` L241-255, the two nested
`while` loops merged.  `off` is `first - parse_state.first`, `slow` is `need_slow_path`
(`npos` stands for -1).  `none`: `first` reached or passed `last`. -/
def nqScan (off slow : Nat) : Bytes → Option (Nat × Nat)
  | [] => none
  | c :: cs =>
    if c = chQuote then some (slow, off)
    else if c = chBslash then
      match cs with
      | [] => none
      | _ :: cs' => nqScan (off + 2) (if slow = npos then off else slow) cs'
    else nqScan (off + 1) slow cs

/-- The characters allowed after a backslash when special escapes are excluded,
`daw_json_parse_string_quote.h` L221-232: `" \ / b f n r t u`. -/
def isStdEscape (c : UInt8) : Bool :=
  c == chQuote || c == chBslash || c == chSlash || c == 0x62 || c == chF || c == chN ||
  c == 0x72 || c == chT || c == chU

/-- The scanning loop of `parse_nq_check` with `exclude_special_escapes`,
`daw_json_parse_string_quote.h` L209-239. -/
def nqScanExcl (off slow : Nat) : Bytes → Res (Nat × Nat)
  | [] => .err .invalidString
  | c :: cs =>
    if c.toNat < 0x20 then .err .invalidString
    else if c = chBslash then
      match cs with
      | [] => .err .invalidString
      | d :: cs' =>
        if isStdEscape d then nqScanExcl (off + 2) (if slow = npos then off else slow) cs'
        else .err .invalidString
    else if c = chQuote then .ok (slow, off)
    else nqScanExcl (off + 1) slow cs

/-- `parse_nq_check`, `daw_json_parse_string_quote.h` L137-268.  Returns the offset of the first escape
(`npos` if none) and the offset of the closing quote. -/
def parseNqCheck (excl : Bool) (bs : Bytes) : Res (Nat × Nat) :=
  if excl then nqScanExcl 0 npos bs
  else
    let n := preSkip bs
    match nqScan n npos (bs.drop n) with
    | some r => .ok r
    | none => .err .invalidString

/-- The scanning loop of `parse_nq_uncheck`, `daw_json_parse_string_quote.h` L117-131, nested loops merged:
no bounds checks. -/
def nqScanUnchecked (off slow : Nat) : Bytes → Res (Nat × Nat)
  | [] => .ub
  | c :: cs =>
    if c = chQuote then .ok (slow, off)
    else if c = chBslash then
      match cs with
      | [] => .ub
      | _ :: cs' => nqScanUnchecked (off + 2) (if slow = npos then off else slow) cs'
    else nqScanUnchecked (off + 1) slow cs

/-- `parse_nq_uncheck`, `daw_json_parse_string_quote.h` L93-135. -/
def parseNqUncheck (bs : Bytes) : Res (Nat × Nat) :=
  let n := preSkip bs
  nqScanUnchecked n npos (bs.drop n)

/-- `parse_nq`, `daw_json_parse_string_quote.h` L270-278. -/
def parseNq (cfg : Cfg) (bs : Bytes) : Res (Nat × Nat) :=
  if cfg.checked then parseNqCheck cfg.exclSpecial bs else parseNqUncheck bs

/-- The range returned by the skip functions.
* `text`: the bytes `[first,last)`,
* `counter`: `ParseState::counter` (first escape of a string, comma count of a container, 0/1 of a bool),
* `dec`, `exp`: offsets in `text` of the decimal point and exponent of a number, kept by the code in
  `class_first` / `class_last`,
* `null`: `first == nullptr`,
* `quoted`: set for a stored range if the byte in front of it is a quote. -/
structure Range where
  text : Bytes
  counter : Nat := 0
  dec : Option Nat := none
  exp : Option Nat := none
  null : Bool := false
  quoted : Bool := false
  deriving DecidableEq, Repr

/-- `skip_string_nq`, `daw_json_skip.h` L38-50.  The re-check of the closing quote (L45) is implied by the
result of `parse_nq`. -/
def skipStringNq (cfg : Cfg) (bs : Bytes) : Res (Range × Bytes) := do
  let (slow, n) ← parseNq cfg bs
  .ok ({ text := bs.take n, counter := slow }, bs.drop (n + 1))

/-- `skip_string<KeepQuotes>`, `daw_json_skip.h` L55-73. -/
def skipString (cfg : Cfg) (keepQuotes : Bool) (bs : Bytes) : Res (Range × Bytes) :=
  match bs with
  | [] => .ok ({ text := [] }, [])
  | c :: cs => do
    ensure (c == chQuote) .invalidString
    assertWeak cfg.checked (!cs.isEmpty) .invalidString
    let (r, rest) ← skipStringNq cfg cs
    if keepQuotes then
      .ok ({ r with text := chQuote :: (r.text ++ [chQuote]) }, rest)
    else .ok (r, rest)

/-! ## Literals -/

/-- The end of `skip_true` / `skip_false` after the literal, `daw_json_skip.h` L88-94, L110-116: skip
whitespace; in checked mode the next byte, if any, must be `,`, `}` or `]`. -/
def endOfLiteral (cfg : Cfg) (e : Err) (bs : Bytes) : Res Bytes := do
  let b ← trim cfg bs
  assertWeak cfg.checked (match b with | [] => true | c :: _ => isTokenAfterValue c) e
  .ok b

/-- The head of `skip_true` etc.: checked mode compares the tail of the literal (`starts_with`), unchecked
mode just moves over it (`daw_json_skip.h` L79-87, L101-109, L122-130). `bs` starts with the literal's first
letter; `tl` is the rest of the literal. -/
def eatLiteral (cfg : Cfg) (e : Err) (tl : Bytes) (bs : Bytes) : Res Bytes :=
  if cfg.checked then
    if tl.isPrefixOf bs.tail then .ok (bs.tail.drop tl.length) else .err e
  else if tl.length + 1 ≤ bs.length then .ok (bs.drop (tl.length + 1)) else .ub

/-- `skip_true`, `daw_json_skip.h` L75-95. -/
def skipTrue (cfg : Cfg) (bs : Bytes) : Res (Range × Bytes) := do
  let b ← eatLiteral cfg .invalidTrue txtRue bs
  let r ← endOfLiteral cfg .invalidEndOfValue b
  .ok ({ text := bs.take 4, counter := 1 }, r)

/-- `skip_false`, `daw_json_skip.h` L97-117. -/
def skipFalse (cfg : Cfg) (bs : Bytes) : Res (Range × Bytes) := do
  let b ← eatLiteral cfg .invalidFalse txtAlse bs
  let r ← endOfLiteral cfg .invalidEndOfValue b
  .ok ({ text := bs.take 5, counter := 0 }, r)

/-- `skip_null`, `daw_json_skip.h` L119-141.  The returned range has null pointers. -/
def skipNull (cfg : Cfg) (bs : Bytes) : Res (Range × Bytes) := do
  let b ← eatLiteral cfg .invalidNull txtUll bs
  assertWeak cfg.checked (!b.isEmpty) .unexpectedEndOfData
  let r ← endOfLiteral cfg .unexpectedEndOfData b
  .ok ({ text := [], null := true }, r)

/-! ## Numbers -/

/-- `skip_digits<false>`, `daw_json_skip.h` L143-158, called with `first < last`. -/
def skipDigits : Bytes → Bytes
  | [] => []
  | c :: cs => if isDigit c then skipDigits cs else c :: cs

/-- `skip_digits<true>`, `daw_json_skip.h` L143-158: no end check. -/
def skipDigitsUnchecked : Bytes → Res Bytes
  | [] => .ub
  | c :: cs => if isDigit c then skipDigitsUnchecked cs else .ok (c :: cs)

/-- The guarded call `if( first < last ) first = skip_digits<..>( first, last )`, `daw_json_skip.h`
L249-254, L263-268, L297-302. -/
def skipDigitsIf (cfg : Cfg) (bs : Bytes) : Res Bytes :=
  if bs.isEmpty then .ok bs
  else if cfg.checked then .ok (skipDigits bs) else skipDigitsUnchecked bs

/-- Decimal part of `skip_number`, `daw_json_skip.h` L256-269: returns the new position and whether a
decimal point was found. -/
def skipFrac (cfg : Cfg) (b : Bytes) : Res (Bytes × Bool) :=
  match b with
  | [] => if cfg.checked then .ok ([], false) else .ub
  | c :: cs =>
    if c = chDot then do
      let r ← skipDigitsIf cfg cs
      .ok (r, true)
    else .ok (c :: cs, false)

/-- Exponent part of `skip_number`, `daw_json_skip.h` L270-303. -/
def skipExp (cfg : Cfg) (b : Bytes) : Res (Bytes × Bool) :=
  match b with
  | [] => .ok ([], false)
  | c :: cs =>
    if c = chLe ∨ c = chUe then do
      assertWeak cfg.checked (!cs.isEmpty) .unexpectedEndOfData
      let s ← deref cs
      let cs := if s = chPlus ∨ s = chMinus then cs.tail else cs
      assertWeak cfg.checked (match cs with | [] => false | d :: _ => isDigit d) .invalidNumber
      let r ← skipDigitsIf cfg cs
      .ok (r, true)
    else .ok (c :: cs, false)

/-- `skip_number`, `daw_json_skip.h` L217-310 (`allow_leading_zero_plus` is the constant `true`,
`daw_json_parse_policy.h` L134). -/
def skipNumber (cfg : Cfg) (bs : Bytes) : Res (Range × Bytes) := do
  assertWeak cfg.checked (!bs.isEmpty) .unexpectedEndOfData
  let c ← deref bs
  let b₁ := if c = chMinus then bs.tail else bs
  let b₂ ← skipDigitsIf cfg b₁
  let (b₃, hasDec) ← skipFrac cfg b₂
  let (b₄, hasExp) ← skipExp cfg b₃
  .ok ({ text := bs.take (bs.length - b₄.length)
         dec := if hasDec then some (bs.length - b₂.length) else none
         exp := if hasExp then some (bs.length - b₃.length) else none }, b₄)

/-! ## Containers -/

/-- `mem_skip_until_end_of_string<false>( constexpr_exec_tag, … )`,
`daw_not_const_ex_functions.h` L405-449.  Both loops of the code (chosen by whether the last byte of the
range is a backslash) compute this; the result is the range from the closing quote, empty if there is none. -/
def memSkipStr : Bytes → Bytes
  | [] => []
  | c :: cs =>
    if c = chQuote then c :: cs
    else if c = chBslash then
      match cs with
      | [] => []
      | _ :: cs' => memSkipStr cs'
    else memSkipStr cs

/-- `mem_skip_until_end_of_string<true>( constexpr_exec_tag, … )`, same lines, without bounds checks.
An immediate `first == last` returns to a caller that dereferences `last + 1` next
(`daw_json_parse_policy_no_comments.h` L273, L235), hence `ub` here too. -/
def memSkipStrUnchecked : Bytes → Res Bytes
  | [] => .ub
  | c :: cs =>
    if c = chQuote then .ok (c :: cs)
    else if c = chBslash then
      match cs with
      | [] => .ub
      | _ :: cs' => memSkipStrUnchecked cs'
    else memSkipStrUnchecked cs

theorem memSkipStr_length (bs : Bytes) : (memSkipStr bs).length ≤ bs.length := by
  fun_induction memSkipStr bs <;> simp_all <;> omega

theorem memSkipStrUnchecked_length (bs r : Bytes) (h : memSkipStrUnchecked bs = .ok r) :
    r.length ≤ bs.length := by
  fun_induction memSkipStrUnchecked bs <;> simp_all <;> omega

/-- `++` on a `std::uint32_t`. -/
def inc32 (n : Nat) : Nat := (n + 1) % 4294967296
/-- `--` on a `std::uint32_t`. -/
def dec32 (n : Nat) : Nat := (4294967295 + n) % 4294967296

/-- The four bracket characters of `skip_bracketed_item_*<PrimLeft>`,
`daw_json_parse_policy_no_comments.h` L144-146, L221-223. -/
structure Brackets where
  primLeft : UInt8
  primRight : UInt8
  secLeft : UInt8
  secRight : UInt8

/-- `PrimLeft = '['`. -/
def arrBr : Brackets := ⟨chLBrack, chRBrack, chLBrace, chRBrace⟩
/-- `PrimLeft = '{'`. -/
def objBr : Brackets := ⟨chLBrace, chRBrace, chLBrack, chRBrack⟩

/-- The main loop of `skip_bracketed_item_checked`, `daw_json_parse_policy_no_comments.h` L163-214.
`p`, `s` are `prime_bracket_count`, `second_bracket_count`; `cnt` the comma count.
Returns the comma count and the range after the closing bracket. -/
def brLoop (k : Brackets) (p s cnt : Nat) (bs : Bytes) : Res (Nat × Bytes) :=
  match bs with
  | [] => do
    ensure (p == 0 && s == 0) .invalidBracketing
    .ok (cnt, [])
  | c :: cs =>
    if c = chBslash then brLoop k p s cnt (cs.drop 1)
    else if c = chQuote then
      match _h : memSkipStr cs with
      | [] => .err .unexpectedEndOfData
      | _ :: cs' => brLoop k p s cnt cs'
    else if c = chComma then
      brLoop k p s (if p = 1 ∧ s = 0 then cnt + 1 else cnt) cs
    else if c = k.primLeft then brLoop k (inc32 p) s cnt cs
    else if c = k.primRight then
      if dec32 p = 0 then do
        ensure (s == 0) .invalidBracketing
        .ok (cnt, cs)
      else brLoop k (dec32 p) s cnt cs
    else if c = k.secLeft then brLoop k p (inc32 s) cnt cs
    else if c = k.secRight then brLoop k p (dec32 s) cnt cs
    else brLoop k p s cnt cs
termination_by bs.length
decreasing_by
  all_goals simp only [List.length_cons, List.length_drop]
  all_goals first
    | omega
    | (have := memSkipStr_length cs; rw [_h] at this; simp at this; omega)

/-- `skip_bracketed_item_checked`, `daw_json_parse_policy_no_comments.h` L141-215. -/
def skipBracketedChecked (k : Brackets) (bs : Bytes) : Res (Range × Bytes) :=
  match bs with
  | [] => .ok ({ text := [] }, [])
  | c :: cs => do
    let (cnt, rest) ← brLoop k 1 0 0 (if c = k.primLeft then cs else c :: cs)
    .ok ({ text := bs.take (bs.length - rest.length), counter := cnt }, rest)

/-- The main loop of `skip_bracketed_item_unchecked`, `daw_json_parse_policy_no_comments.h` L234-274. -/
def brLoopUnchecked (k : Brackets) (p s cnt : Nat) (bs : Bytes) : Res (Nat × Bytes) :=
  match bs with
  | [] => .ub
  | c :: cs =>
    if c = chBslash then
      match cs with
      | [] => .ub
      | _ :: cs' => brLoopUnchecked k p s cnt cs'
    else if c = chQuote then
      match _h : memSkipStrUnchecked cs with
      | .ok (_ :: cs') => brLoopUnchecked k p s cnt cs'
      | _ => .ub
    else if c = chComma then
      brLoopUnchecked k p s (if p = 1 ∧ s = 0 then cnt + 1 else cnt) cs
    else if c = k.primLeft then brLoopUnchecked k (inc32 p) s cnt cs
    else if c = k.primRight then
      if dec32 p = 0 then .ok (cnt, cs)
      else brLoopUnchecked k (dec32 p) s cnt cs
    else if c = k.secLeft then brLoopUnchecked k p (inc32 s) cnt cs
    else if c = k.secRight then brLoopUnchecked k p (dec32 s) cnt cs
    else brLoopUnchecked k p s cnt cs
termination_by bs.length
decreasing_by
  all_goals simp only [List.length_cons]
  all_goals first
    | omega
    | (have := memSkipStrUnchecked_length _ _ _h; simp at this; omega)

/-- `skip_bracketed_item_unchecked`, `daw_json_parse_policy_no_comments.h` L217-278. -/
def skipBracketedUnchecked (k : Brackets) (bs : Bytes) : Res (Range × Bytes) :=
  match bs with
  | [] => .ub
  | c :: cs => do
    let (cnt, rest) ← brLoopUnchecked k 1 0 0 (if c = k.primLeft then cs else c :: cs)
    .ok ({ text := bs.take (bs.length - rest.length), counter := cnt }, rest)

/-- `BasicParsePolicy::skip_class` / `skip_array`, `daw_json_parse_policy.h` L503-517. -/
def skipBracketed (cfg : Cfg) (k : Brackets) (bs : Bytes) : Res (Range × Bytes) :=
  if cfg.checked then skipBracketedChecked k bs else skipBracketedUnchecked k bs

/-! ## Values -/

/-- `skip_value<KeepInitialQuote>`, `daw_json_skip.h` L318-361. -/
def skipValue (cfg : Cfg) (keepQuotes : Bool) (bs : Bytes) : Res (Range × Bytes) := do
  assertWeak cfg.checked (!bs.isEmpty) .unexpectedEndOfData
  let c ← deref bs
  if c = chQuote then skipString cfg keepQuotes bs
  else if c = chLBrack then skipBracketed cfg arrBr bs
  else if c = chLBrace then skipBracketed cfg objBr bs
  else if c = chT then skipTrue cfg bs
  else if c = chF then skipFalse cfg bs
  else if c = chN then skipNull cfg bs
  else if c = chMinus ∨ isDigit c = true then skipNumber cfg bs
  else if cfg.checked then .err .invalidStartOfValue
  else if c = 0 then .err .invalidStartOfValue
  else .ub

/-- `skip_literal`, `daw_json_skip.h` L403-438. -/
def skipLiteral (cfg : Cfg) (bs : Bytes) : Res (Range × Bytes) := do
  assertWeak cfg.checked (!bs.isEmpty) .unexpectedEndOfData
  let c ← deref bs
  if c = chT then skipTrue cfg bs
  else if c = chF then skipFalse cfg bs
  else if c = chN then skipNull cfg bs
  else if c = chMinus ∨ isDigit c = true then skipNumber cfg bs
  else if c = 0 then .err .invalidStartOfValue
  else if cfg.checked then .err .invalidStartOfValue
  else .ub

end Verif
