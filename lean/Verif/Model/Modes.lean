import Verif.Model.Typed
import Verif.Model.Exec
import Verif.Model.Comments

/-!
# Options that are meant to change the speed only

`ExecModeTypes` and `ExpectLongNames` in the functions that look for the end of a name, the next member of a class and the end of a
comment: `daw_json_string_util.h` L35-209 and its callers, for `ZeroTerminatedString::no` and `PolicyCommentTypes::none` where nothing
else is said.  The strings of a document in the execution modes are in `Verif.Model.Exec`.
-/

namespace Verif

/-- `ExecModeTypes` of the parse and whether the program was compiled without `NDEBUG`.  `ExpectLongNames` is `TCfg.longNames`. -/
structure Mode where
  exec : Exec := .constexpr
  debug : Bool := false
  deriving DecidableEq, Repr

/-- `mempbrk`, `daw_json_string_util.h` L197-209, which is `mempbrk_unchecked`, L123-165, in checked mode too: the end of the range is
not looked at.  With `ExpectLongNames::yes` it is `strpbrk`, which stops at a zero and returns a null pointer; a program compiled without
`NDEBUG` raises an exception then, another one reads from the null pointer (`front( )`, `skip_class( )`).  (Simplification: behind a range with
known bounds there is more of the document; here a read there is undefined too.) -/
def mempbrk (long debug : Bool) (keys : List UInt8) : Bytes → Res Bytes
  | [] => .ub
  | c :: cs =>
    if c ∈ keys then .ok (c :: cs)
    else if long && c == 0 then if debug then .err .unexpectedEndOfData else .ub
    else mempbrk long debug keys cs

/-- `move_to_next_class_member`, `daw_json_parse_policy.h` L473-475, `move_to_next_of<'"','}'>`, `daw_json_parse_policy_no_comments.h`
L92-135: only in the mode `compile_time` the loop of L107-134. -/
def moveToMemberX (x : Mode) (t : TCfg) (bs : Bytes) : Res Bytes :=
  if x.exec = .constexpr then moveToNextClassMember t.cfg bs else mempbrk t.longNames x.debug [chQuote, chRBrace] bs

/-- `name_parser::parse_nq`, `daw_json_parse_name.h` L43-65, and `parse_name`, L148-155: with `ExpectLongNames::yes` the end of the name is
looked for with `memchr`, `daw_json_string_util.h` L86-95, L104-107, which returns a null pointer if there is none; `is_quotes_checked`
then reads from it. -/
def parseNameX (t : TCfg) (bs : Bytes) : Res (Bytes × Bytes) := do
  assertWeak t.cfg.checked (headIs (· == chQuote) bs) .invalidMemberName
  let _ ← deref bs
  if t.escNames then do
    let (r, b) ← skipStringNq t.cfg bs.tail
    let b ← trimEndOfName t.cfg b
    .ok (r.text, b)
  else if t.longNames = true ∧ (toQuote bs.tail).2 = [] then .ub
  else do
    let (nm, b) := toQuote bs.tail
    assertWeak t.cfg.checked (!b.isEmpty && nm.getLast? != some chBslash) .invalidString
    let _ ← deref b
    let b ← trimEndOfName t.cfg b.tail
    .ok (nm, b)

/-- The loop of `find_class_member`, `daw_json_location_info.h` L222-277, as `findLoop`. -/
def findLoopX (t : TCfg) (exact : Bool) (names : List Bytes) (pos : Nat) (locs : Locs) (bs : Bytes) :
    Res (Found × Locs × Bytes) :=
  match bs with
  | [] => .ok (.absent, locs, [])
  | c :: cs =>
    if c = chRBrace then .ok (.absent, locs, c :: cs)
    else do
      let (name, b) ← parseNameX t (c :: cs)
      let np := findName t names pos name
      if exact = true ∧ names.length ≤ np then
        if t.cfg.checked then .err .unknownMember else .err .numberOutOfRange
      else if names.length ≤ np then do
        let (_, b₂) ← skipValue t.cfg false b
        let b₃ ← moveNext t.cfg b₂
        if _h : b₃.length < (c :: cs).length then findLoopX t exact names pos locs b₃ else .ub
      else if np = pos then .ok (.here, locs, b)
      else do
        let (r, b₂) ← skipValue t.cfg false b
        let b₃ ← if t.cfg.checked = false ∧ np + 1 < names.length then moveNextMemberUnchecked b₂
                 else moveNext t.cfg b₂
        if _h : b₃.length < (c :: cs).length then
          findLoopX t exact names pos (setLoc locs np (markRange b r) (afterRange b r)) b₃
        else .ub
termination_by bs.length

/-- `find_class_member`, `daw_json_location_info.h` L206-293. -/
def findMemberX (t : TCfg) (exact : Bool) (names : List Bytes) (pos : Nat) (nullable : Bool) (locs : Locs)
    (bs : Bytes) : Res (Found × Locs × Bytes) := do
  assertWeak t.cfg.checked (nullable || ((locs[pos]?).join).isSome || !headIs (· == chRBrace) bs) .missingMember
  let b ← trimUnchecked bs
  match (locs[pos]?).join with
  | some (r, after) => .ok (.known r after, locs, b)
  | none => findLoopX t exact names pos locs b

/-- `parse_class_member`, `daw_json_parse_class.h` L93-151, for the members from `pos` on, as `classMembers`. -/
def classMembersX (t : TCfg) (exact : Bool) (names : List Bytes) (pU : Ty → Bytes → Res (Val × Bytes))
    (pK : Ty → Range → Bytes → Res Val) (pos : Nat) (ms : List Member) (locs : Locs) (bs : Bytes) :
    Res (List Val × Bytes) :=
  match ms with
  | [] => .ok ([], bs)
  | m :: ms => do
    let b ← moveNext t.cfg bs
    assertWeak t.cfg.checked (headIs (fun c => c == chQuote || c == chRBrace) b) .missingMemberNameOrEndOfClass
    let (f, locs, b) ← findMemberX t exact names pos m.ty.isOpt locs b
    let (v, b) ← (match f with
      | .here => pU m.ty b
      | .known r after => do
        let v ← pK m.ty r after
        .ok (v, b)
      | .absent => if m.ty.isOpt then .ok (.none, b) else .err .missingMember : Res (Val × Bytes))
    let (vs, b) ← classMembersX t exact names pU pK (pos + 1) ms locs b
    .ok (v :: vs, b)

/-- `class_cleanup_now`, `daw_json_parse_class.h` L153-173. -/
def classCleanupX (x : Mode) (t : TCfg) (exact : Bool) (bs : Bytes) : Res Bytes := do
  assertWeak t.cfg.checked (!bs.isEmpty) .unexpectedEndOfData
  let b ← moveNext t.cfg bs
  let b ← moveToMemberX x t b
  if exact then do
    assertWeak t.cfg.checked (headIs (· == chRBrace) b) .unknownMember
    .ok (trimChecked b.tail)
  else do
    let (_, b) ← skipBracketed t.cfg objBr b
    .ok (trimChecked b)

/-- `parse_json_class`, `daw_json_parse_class.h` L182-277.  (Simplification: members that are passed over are skipped as in the mode
`compile_time`.) -/
def parseObjX (x : Mode) (t : TCfg) (exact : Bool) (ms : List Member) (pU : Ty → Bytes → Res (Val × Bytes))
    (pK : Ty → Range → Bytes → Res Val) (bs : Bytes) : Res (Val × Bytes) := do
  let b ← trim t.cfg bs
  assertWeak t.cfg.checked (headIs (· == chLBrace) b) .invalidClassStart
  let b ← trim t.cfg b.tail
  let (vs, b) ← classMembersX t exact (ms.map Member.name) pU pK 0 ms (ms.map fun _ => none) b
  let b ← classCleanupX x t exact b
  .ok (.cls vs, b)

/-! ## Dispatch -/

mutual
/-- `parse_value<JsonMember, false>`, `daw_json_parse_value.h` L1176-1222 and the functions it calls, with `fuel`
stack frames left.  `parse_value_class`, L583-611; `parse_value_variant`, L749-797; `parse_value_variant_intrusive`, L860-886,
which reads the tag from a copy of the position as the only member of a class (its stack frame is not counted).  As `parseU`, with the class parse of the mode.  (Simplification: the
values themselves are read as in the mode `compile_time`; strings in the other modes are in `Verif.Model.Exec`.) -/
def parseUX (x : Mode) (t : TCfg) (Δ : Env) (fuel : Nat) (ty : Ty) (bs : Bytes) : Res (Val × Bytes) :=
  match fuel with
  | 0 => .ub
  | f + 1 =>
    match ty with
    | .bool => do
      let (b, r) ← parseBool t.cfg bs
      .ok (.bool b, r)
    | .int ity rc => do
      let (i, r) ← parseInt t.cfg ity rc bs
      .ok (.int i, r)
    | .str ah => do
      let (s, r) ← parseStr t.cfg ah bs
      .ok (.str s, r)
    | .txt k => parseTxt t.cfg k bs
    | .opt ty => do
      match ← eatNull t.cfg bs with
      | some r => .ok (.none, r)
      | none => do
        let (v, r) ← parseUX x t Δ f ty bs
        .ok (.some v, r)
    | .arr ty => parseArr t.cfg (parseUX x t Δ f ty) bs
    | .map ty => parseMap t.cfg (parseUX x t Δ f ty) bs
    | .ref i =>
      match Δ i with
      | .obj ms exact => do
        assertWeak t.cfg.checked (!bs.isEmpty) .unexpectedEndOfData
        let (v, r) ← parseObjX x t (exact || t.exactAll) ms (parseUX x t Δ f) (parseKX x t Δ f) bs
        .ok (v, trimChecked r)
      | .tup ts exact => parseTup t.cfg (exact || t.exactAll) ts (parseUX x t Δ f) bs
      | .ord ms exact => do
        assertWeak t.cfg.checked (!bs.isEmpty) .unexpectedEndOfData
        let (v, r) ← parseOrd t.cfg (exact || t.exactAll) ms (parseUX x t Δ f) bs
        .ok (v, trimChecked r)
      | .var alts => do
        let c ← derefEnd t.cfg bs
        let a ← altOfChar t.cfg Δ alts c
        let (v, r) ← parseUX x t Δ f a.2 bs
        .ok (.alt a.1 v, r)
      | .ivar tag sw alts => do
        assertWeak t.cfg.checked (!bs.isEmpty) .unexpectedEndOfData
        let (w, _) ← parseObjX x t t.exactAll [tag] (parseUX x t Δ f) (parseKX x t Δ f) bs
        let a ← altOfTag t.cfg sw alts w
        let (v, r) ← parseUX x t Δ f a.2 bs
        .ok (.alt a.1 v, r)
/-- `parse_value<JsonMember, true>`, same lines, on the range `r` that `skip_value` returned; `after` is the text
that follows the range.  Containers are parsed as with unknown bounds.  As `parseK`. -/
def parseKX (x : Mode) (t : TCfg) (Δ : Env) (fuel : Nat) (ty : Ty) (r : Range) (after : Bytes) : Res Val :=
  match fuel with
  | 0 => .ub
  | f + 1 =>
    match ty with
    | .bool => do
      let b ← parseBoolKnown (t.inside r).cfg r
      .ok (.bool b)
    | .int ity rc => do
      let i ← parseIntKnown (t.inside r).cfg ity rc r.text
      .ok (.int i)
    | .str ah => do
      let s ← parseStrRange t.cfg ah r after
      .ok (.str s)
    | .txt k => parseTxtKnown t.cfg k r after
    | .opt ty =>
      if r.null then .ok .none
      else do
        let v ← parseKX x t Δ f ty r after
        .ok (.some v)
    | .arr ty => do
      let (v, _) ← parseArr (t.inside r).cfg (parseUX x (t.inside r) Δ f ty) (r.seen t.cfg after)
      .ok v
    | .map ty => do
      let (v, _) ← parseMap (t.inside r).cfg (parseUX x (t.inside r) Δ f ty) (r.seen t.cfg after)
      .ok v
    | .ref i =>
      match Δ i with
      | .obj ms exact => do
        assertWeak t.cfg.checked (!r.text.isEmpty) .unexpectedEndOfData
        let (v, _) ← parseObjX x (t.inside r) (exact || t.exactAll) ms (parseUX x (t.inside r) Δ f) (parseKX x (t.inside r) Δ f) (r.seen t.cfg after)
        .ok v
      | .tup ts exact => do
        let (v, _) ← parseTup (t.inside r).cfg (exact || t.exactAll) ts (parseUX x (t.inside r) Δ f) (r.seen t.cfg after)
        .ok v
      | .ord ms exact => do
        assertWeak t.cfg.checked (!r.text.isEmpty) .unexpectedEndOfData
        let (v, _) ← parseOrd (t.inside r).cfg (exact || t.exactAll) ms (parseUX x (t.inside r) Δ f) (r.seen t.cfg after)
        .ok v
      | .var alts => do
        let a ← altOfRange t.cfg Δ alts r
        let v ← parseKX x t Δ f a.2 r after
        .ok (.alt a.1 v)
      | .ivar tag sw alts => do
        assertWeak t.cfg.checked (!r.text.isEmpty) .unexpectedEndOfData
        let (w, _) ← parseObjX x (t.inside r) t.exactAll [tag] (parseUX x (t.inside r) Δ f) (parseKX x (t.inside r) Δ f) (r.seen t.cfg after)
        let a ← altOfTag t.cfg sw alts w
        let (v, _) ← parseUX x (t.inside r) Δ f a.2 (r.seen t.cfg after)
        .ok (.alt a.1 v)
end

/-- `from_json<T>( doc )` on a non-null pointer, `daw_from_json.h` L36-84, in the mode `x`. -/
def fromJsonX (x : Mode) (t : TCfg) (Δ : Env) (fuel : Nat) (ty : Ty) (bs : Bytes) : Res Val := do
  ensure (!bs.isEmpty) .emptyJSONDocument
  let b := if bs.getLast? = some 0 then bs.dropLast else bs
  let (v, r) ← parseUX x t Δ fuel ty b
  if t.verifyEnd then do
    let r ← trim t.cfg r
    ensure r.isEmpty .invalidEndOfValue
    .ok v
  else .ok v

/-! ## Comments with `ExpectLongNames::yes` -/

/-- `memchr_checked<c>`, `daw_json_string_util.h` L82-121, with `expect_long`: the character looked for is the quote, whatever `c` is;
`none` is the null pointer.  (L104-107 for compilers without `__builtin_memchr`, outside of constant expressions.) -/
def memchrLong : Bytes → Option Bytes
  | [] => none
  | d :: ds => if d = chQuote then some (d :: ds) else memchrLong ds

theorem memchrLong_length {bs r : Bytes} (h : memchrLong bs = some r) : r.length ≤ bs.length := by
  induction bs with
  | nil => simp [memchrLong] at h
  | cons d ds ih =>
    rw [memchrLong] at h
    split at h
    · simp at h; simp [← h]
    · have := ih h; simp; omega

/-- `skip_comments_checked`, `daw_json_parse_policy_hash_comments.h` L39-49: the quote that was found is not a newline and stays; the loop ends
there.  `front( )` in L45 reads from the null pointer. -/
def skipHashLong (bs : Bytes) : Res Bytes :=
  match bs with
  | [] => .ok []
  | c :: cs =>
    if c = chHash then
      match memchrLong cs with
      | none => .ub
      | some r => .ok r
    else .ok (c :: cs)

/-- The loop over a block comment, `daw_json_parse_policy_cpp_comments.h` L71-83; a null pointer is below `last`, is moved, and read from. -/
def blockEndLong (bs : Bytes) : Res Bytes :=
  match bs with
  | [] => .ok []
  | c :: cs =>
    match _h : memchrLong (c :: cs) with
    | none => .ub
    | some [] => .ub
    | some [_] => .ok []
    | some (_ :: d :: r) => if d = chSlash then .ok r else blockEndLong r
termination_by bs.length
decreasing_by
  have := memchrLong_length _h
  simp at this ⊢
  omega

theorem blockEndLong_length {bs r : Bytes} (h : blockEndLong bs = .ok r) : r.length ≤ bs.length := by
  fun_induction blockEndLong bs with
  | case1 => simp at h; simp [← h]
  | case2 => simp at h
  | case3 => simp at h
  | case4 => simp at h; simp [h]
  | case5 c cs q r' hm =>
    have := memchrLong_length hm
    simp at h
    subst h
    simp at this ⊢; omega
  | case6 c cs q d r' hm _ ih =>
    have := memchrLong_length hm
    have := ih h
    simp at *; omega

/-- `skip_comments_checked`, `daw_json_parse_policy_cpp_comments.h` L55-89: behind `//` the quote that was found is dropped. -/
def skipCppLong (bs : Bytes) : Res Bytes :=
  match bs with
  | [] => .ok []
  | c :: cs =>
    if c = chSlash then
      match cs with
      | [] => .ub
      | d :: ds =>
        if d = chSlash then
          match _h : memchrLong (c :: d :: ds) with
          | none => .ub
          | some [] => .ub
          | some (_ :: r) => skipCppLong r
        else if d = chStar then
          match _h : blockEndLong ds with
          | .ok r => skipCppLong r
          | _ => .ub
        else .ok (c :: d :: ds)
    else .ok (c :: cs)
termination_by bs.length
decreasing_by
  · have := memchrLong_length _h
    simp at this ⊢
    omega
  · have := blockEndLong_length _h
    simp
    omega

theorem skipHashLong_length {bs r : Bytes} (h : skipHashLong bs = .ok r) : r.length ≤ bs.length := by
  unfold skipHashLong at h
  split at h
  · simp at h; simp [← h]
  · split at h
    · split at h
      · simp at h
      · rename_i hm
        have := memchrLong_length hm
        simp at h
        subst h
        simp; omega
    · simp at h; simp [← h]

theorem skipCppLong_length {bs r : Bytes} (h : skipCppLong bs = .ok r) : r.length ≤ bs.length := by
  fun_induction skipCppLong bs with
  | case1 => simp at h; simp [← h]
  | case2 => simp at h
  | case3 => simp at h
  | case4 => simp at h
  | case5 ds q r' hm ih =>
    have := memchrLong_length hm
    have := ih h
    simp at *; omega
  | case6 ds r' hm _ ih =>
    have := blockEndLong_length hm
    have := ih h
    simp at *; omega
  | case7 => simp at h
  | case8 => simp at h; simp [← h]
  | case9 => simp at h; simp [← h]

/-- `skip_comments_checked` of the policy with `ExpectLongNames::yes`. -/
def skipCmtLong : Cmt → Bytes → Res Bytes
  | .cpp => skipCppLong
  | .hash => skipHashLong
  | .mini => .ok

theorem skipCmtLong_length {p : Cmt} {bs r : Bytes} (h : skipCmtLong p bs = .ok r) : r.length ≤ bs.length := by
  cases p
  · exact skipCppLong_length h
  · exact skipHashLong_length h
  · cases h; exact Nat.le_refl _

/-- `trim_left_checked`, `daw_json_parse_policy_cpp_comments.h` L102-110, `daw_json_parse_policy_hash_comments.h` L62-70,
`daw_json_parse_policy_no_comments.h` L32-36, with `ExpectLongNames::yes`. -/
def trimCmtLong (p : Cmt) (bs : Bytes) : Res Bytes :=
  match _h : skipCmtLong p bs with
  | .ok [] => .ok []
  | .ok (c :: cs) => if p.skipsSpace && isSpace c then trimCmtLong p cs else .ok (c :: cs)
  | .err e => .err e
  | .ub => .ub
termination_by bs.length
decreasing_by
  have := skipCmtLong_length _h
  simp at this
  omega

/-- `move_next_member_or_end_checked`, `daw_json_parse_policy.h` L440-454 (branch L449-452), with `ExpectLongNames::yes`. -/
def moveNextCmtLong (p : Cmt) (bs : Bytes) : Res Bytes := do
  let b ← trimCmtLong p bs
  match b with
  | [] => .ok []
  | c :: cs => if c = chComma then trimCmtLong p cs else .ok (c :: cs)

end Verif
