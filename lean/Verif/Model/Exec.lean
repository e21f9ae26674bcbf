import Verif.Model.Str

/-!
# Strings in the run-time and SIMD execution modes

Models the parts of `daw_not_const_ex_functions.h` selected by `ExecModeTypes::runtime` and `ExecModeTypes::simd`:
the search for the end of a string and the position of its first escape, and the string parsers on top of them.
`last` is the end of the list.  A pointer past `last` is represented by the empty list: after these functions
it is only compared with `last`.
-/

namespace Verif

/-- `ExecModeTypes`, `daw_json_exec_modes.h`. -/
inductive Exec
  | constexpr
  | runtime
  | simd
  deriving DecidableEq, Repr

/-! ## Run-time mode -/

/-- `mem_move_to_next_of<is_unchecked_input, keys…>( runtime_exec_tag, … )`,
`daw_not_const_ex_functions.h` L346-371.  For one key the code calls `std::memchr`, always bounded by `last`; with
more keys the unchecked variant reads on past `last`, which is undefined. -/
def moveNextOf (checked : Bool) (keys : List UInt8) : Bytes → Res Bytes
  | [] => if checked then .ok [] else .ub
  | c :: cs => if c ∈ keys then .ok (c :: cs) else moveNextOf checked keys cs

theorem moveNextOf_length {ck : Bool} {keys : List UInt8} {bs r : Bytes} (h : moveNextOf ck keys bs = .ok r) :
    r.length ≤ bs.length := by
  induction bs with
  | nil => unfold moveNextOf at h; split at h <;> simp_all
  | cons c cs ih =>
    unfold moveNextOf at h
    split at h
    · simp at h; subst h; simp
    · have := ih h; simp; omega

/-- The loop of `mem_skip_until_end_of_string( runtime_exec_tag, first, last )`,
`daw_not_const_ex_functions.h` L388-402: the `mem_move_to_next_of` before the loop and the one at its end are one
here. -/
def rtLoop (checked : Bool) (bs : Bytes) : Res Bytes :=
  match _h : moveNextOf checked [chBslash, chQuote] bs with
  | .ub => .ub
  | .err e => .err e
  | .ok [] => .ok []
  | .ok (c :: cs) => if c = chQuote then .ok (c :: cs) else rtLoop checked (cs.drop 1)
termination_by bs.length
decreasing_by
  have := moveNextOf_length _h
  simp at this ⊢
  omega

/-- `mem_skip_until_end_of_string<is_unchecked_input>( runtime_exec_tag, first, last )`,
`daw_not_const_ex_functions.h` L381-403. -/
def rtSkip (checked : Bool) (bs : Bytes) : Res Bytes := do
  ensure (!checked || !bs.isEmpty) .unexpectedEndOfData
  rtLoop checked bs

/-- The loop of the variant that records the first escape, `daw_not_const_ex_functions.h` L460-481.  `total` is the
length of the whole range, so that `first - first_first` is `total` minus what is left; the code stores
`first_first - first` (L468). -/
def rtEscLoop (checked : Bool) (total : Nat) (fe : Int) (bs : Bytes) : Res (Int × Bytes) :=
  match _h : moveNextOf checked [chBslash, chQuote] bs with
  | .ub => .ub
  | .err e => .err e
  | .ok [] => .ok (fe, [])
  | .ok (c :: cs) =>
    if c = chQuote then .ok (fe, c :: cs)
    else
      rtEscLoop checked total (if fe < 0 then -((total : Int) - ((c :: cs).length : Int)) else fe) (cs.drop 1)
termination_by bs.length
decreasing_by
  have := moveNextOf_length _h
  simp at this ⊢
  omega

/-- `mem_skip_until_end_of_string<is_unchecked_input>( runtime_exec_tag, first, last, first_escape )`,
`daw_not_const_ex_functions.h` L451-482, with `first_escape` initially -1 as in `parse_nq`. -/
def rtSkipEsc (checked : Bool) (bs : Bytes) : Res (Int × Bytes) := do
  ensure (!checked || !bs.isEmpty) .unexpectedEndOfData
  rtEscLoop checked bs.length (-1) bs

/-! ## SIMD mode -/

/-- `mem_find_eq<k>`, `daw_not_const_ex_functions.h` L111-116: bit `i` tells whether byte `i` of the block is `k`
(contract of `_mm_cmpeq_epi8` and `_mm_movemask_epi8`). -/
def memFindEq (k : UInt8) : Bytes → BitVec 32
  | [] => 0#32
  | c :: cs => (memFindEq k cs <<< 1) ||| (if c = k then 1#32 else 0#32)

/-- `find_escaped_branchless`, `daw_not_const_ex_functions.h` L211-230.  Returns the new `prev_escaped` and the
result. -/
def findEscaped (prevEscaped backslashes : BitVec 32) : BitVec 32 × BitVec 32 :=
  let backslashes := backslashes &&& ~~~prevEscaped
  let followEscape := (backslashes <<< 1) ||| prevEscaped
  let evenBits := 0x55555555#32
  let oddSeqStart := backslashes &&& ~~~evenBits &&& ~~~followEscape
  let r := oddSeqStart + backslashes
  let seqStartOnEvenBits := 0x0000FFFF#32 &&& r
  let invertMask := seqStartOnEvenBits <<< 1
  (r >>> 16, (evenBits ^^^ invertMask) &&& followEscape)

/-- `prefix_xor`, `daw_not_const_ex_functions.h` L232-238: the low 32 bits of the carry-less product with all
ones (contract of `_mm_clmulepi64_si128`), the exclusive or of all left shifts. -/
def prefixXor (bitmask : BitVec 32) : BitVec 32 :=
  (List.range 32).foldl (fun a j => a ^^^ (bitmask <<< j)) 0#32

/-- `find_lsb_set`, `daw_not_const_ex_functions.h` L71-89: the index of the lowest set bit.  The callers have tested
that the value is not 0. -/
def findLsbSet (value : BitVec 32) : Nat := (List.range 32).findIdx (fun i => value.getLsbD i)

/-- The loop after the blocks, `daw_not_const_ex_functions.h` L258-284: `key_table` look-ups, two bytes skipped at
a backslash.  `prev_escapes` is not used. -/
def simdTail (checked : Bool) (bs : Bytes) : Res Bytes :=
  match _h : moveNextOf checked [chQuote, chBslash] bs with
  | .ub => .ub
  | .err e => .err e
  | .ok [] => .ok []
  | .ok (c :: cs) => if c = chQuote then .ok (c :: cs) else simdTail checked (cs.drop 1)
termination_by bs.length
decreasing_by
  have := moveNextOf_length _h
  simp at this ⊢
  omega

/-- The loop over the blocks and what follows, `daw_not_const_ex_functions.h` L245-284. -/
def simdLoop (checked : Bool) (prev : BitVec 32) (bs : Bytes) : Res Bytes :=
  if _h : 16 ≤ bs.length then
    let block := bs.take 16
    let (prev', escaped) := findEscaped prev (memFindEq chBslash block)
    let quotes := memFindEq chQuote block &&& ~~~escaped
    let inString := prefixXor quotes
    if inString ≠ 0#32 then .ok (bs.drop (findLsbSet inString))
    else simdLoop checked prev' (bs.drop 16)
  else simdTail checked bs
termination_by bs.length
decreasing_by simp; omega

/-- `mem_skip_until_end_of_string<is_unchecked_input>( simd_exec_tag, first, last )`,
`daw_not_const_ex_functions.h` L240-285. -/
def simdSkip (checked : Bool) (bs : Bytes) : Res Bytes := simdLoop checked 0#32 bs

/-- The loop after the blocks in the variant that records the first escape, `daw_not_const_ex_functions.h`
L310-342; `first_first - first` as in run-time mode (L319, L336). -/
def simdEscTail (checked : Bool) (total : Nat) (fe : Int) (bs : Bytes) : Res (Int × Bytes) :=
  match _h : moveNextOf checked [chQuote, chBslash] bs with
  | .ub => .ub
  | .err e => .err e
  | .ok [] => .ok (fe, [])
  | .ok (c :: cs) =>
    if c = chQuote then .ok (fe, c :: cs)
    else
      simdEscTail checked total (if fe < 0 then -((total : Int) - ((c :: cs).length : Int)) else fe) (cs.drop 1)
termination_by bs.length
decreasing_by
  have := moveNextOf_length _h
  simp at this ⊢
  omega

/-- The loop over the blocks of that variant, `daw_not_const_ex_functions.h` L294-309: the first escape is the lowest
backslash of the block, counted from the start of the block, whether it precedes the closing quote or not. -/
def simdEscLoop (checked : Bool) (total : Nat) (prev : BitVec 32) (fe : Int) (bs : Bytes) : Res (Int × Bytes) :=
  if _h : 16 ≤ bs.length then
    let block := bs.take 16
    let backslashes := memFindEq chBslash block
    let fe' := if backslashes ≠ 0#32 ∧ fe < 0 then (findLsbSet backslashes : Int) else fe
    let (prev', escaped) := findEscaped prev backslashes
    let quotes := memFindEq chQuote block &&& ~~~escaped
    let inString := prefixXor quotes
    if inString ≠ 0#32 then .ok (fe', bs.drop (findLsbSet inString))
    else simdEscLoop checked total prev' fe' (bs.drop 16)
  else simdEscTail checked total fe bs
termination_by bs.length
decreasing_by simp; omega

/-- `mem_skip_until_end_of_string<is_unchecked_input>( simd_exec_tag, first, last, first_escape )`,
`daw_not_const_ex_functions.h` L287-343, with `first_escape` initially -1 as in `parse_nq`. -/
def simdSkipEsc (checked : Bool) (bs : Bytes) : Res (Int × Bytes) :=
  simdEscLoop checked bs.length 0#32 (-1) bs

/-- `mem_move_to_next_of<is_unchecked_input, keys…>( sse42_exec_tag, … )`, `daw_not_const_ex_functions.h` L125-150.
The last block is padded with zero bytes. -/
def simdMoveNextOf (keys : List UInt8) (bs : Bytes) : Bytes :=
  if _h : 16 ≤ bs.length then
    let keyPositions := keys.foldl (fun a k => a ||| memFindEq k (bs.take 16)) 0#32
    if keyPositions ≠ 0#32 then bs.drop (findLsbSet keyPositions)
    else simdMoveNextOf keys (bs.drop 16)
  else
    let val1 := bs ++ List.replicate (16 - bs.length) 0
    let keyPositions := keys.foldl (fun a k => a ||| memFindEq k val1) 0#32
    if keyPositions ≠ 0#32 then
      if bs.length ≤ findLsbSet keyPositions then [] else bs.drop (findLsbSet keyPositions)
    else []
termination_by bs.length
decreasing_by simp; omega

/-! ## The string parsers -/

/-- `static_cast<std::size_t>( need_slow_path )`, `daw_json_parse_string_quote.h` L134, L267. -/
def toSizeT (n : Int) : Nat := (n % 18446744073709551616).toNat

/-- `parse_nq`, `daw_json_parse_string_quote.h` L93-278, in the given execution mode.  Returns the position of the
first escape and the offset of the closing quote.  Outside compile-time mode `exclude_special_escapes` is not
looked at (L145-148). -/
def parseNqX (m : Exec) (cfg : Cfg) (bs : Bytes) : Res (Nat × Nat) :=
  match m with
  | .constexpr => parseNq cfg bs
  | .runtime => do
    let (fe, r) ← rtSkipEsc cfg.checked bs
    assertWeak cfg.checked (r.head? == some chQuote) .invalidString
    .ok (toSizeT fe, bs.length - r.length)
  | .simd => do
    let (fe, r) ← simdSkipEsc cfg.checked bs
    assertWeak cfg.checked (r.head? == some chQuote) .invalidString
    .ok (toSizeT fe, bs.length - r.length)

/-- `skip_string_nq`, `daw_json_skip.h` L38-50, in the given execution mode. -/
def skipStringNqX (m : Exec) (cfg : Cfg) (bs : Bytes) : Res (Range × Bytes) := do
  let (slow, n) ← parseNqX m cfg bs
  .ok ({ text := bs.take n, counter := slow }, bs.drop (n + 1))

/-- `skip_string<KeepQuotes>`, `daw_json_skip.h` L55-73, in the given execution mode. -/
def skipStringX (m : Exec) (cfg : Cfg) (keepQuotes : Bool) (bs : Bytes) : Res (Range × Bytes) :=
  match bs with
  | [] => .ok ({ text := [] }, [])
  | c :: cs => do
    ensure (c == chQuote) .invalidString
    assertWeak cfg.checked (!cs.isEmpty) .invalidString
    let (r, rest) ← skipStringNqX m cfg cs
    if keepQuotes then
      .ok ({ r with text := chQuote :: (r.text ++ [chQuote]) }, rest)
    else .ok (r, rest)

/-- `parse_value_string_escaped<JsonMember, false>`, `daw_json_parse_value.h` L474-506, in the given execution mode.
The decoding loop differs only in calling `mem_move_to_next_of` for the next quote or backslash
(`daw_json_parse_std_string.h` L248-253), bounded by `last`, where the closing quote stands: the bounded search and
the one of the model (`plainRun`) stop at the same byte (`plainRun_bounded`). -/
def parseStrX (m : Exec) (cfg : Cfg) (allowHigh : Bool) (bs : Bytes) : Res (Bytes × Bytes) := do
  ensure (!bs.isEmpty) .unexpectedNull
  let (r, rest) ← skipStringX m cfg false bs
  let s ← parseStrRange cfg allowHigh r (bs.drop (r.text.length + 1))
  .ok (s, rest)

end Verif
