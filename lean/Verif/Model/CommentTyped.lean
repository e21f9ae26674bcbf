import Verif.Model.Typed
import Verif.Model.Comments

/-!
# Parsing to typed values with a comment policy

The functions of `Verif.Model.Typed` once more, for `PolicyCommentTypes::cpp` and `PolicyCommentTypes::hash`, and for `MinifiedDocument::yes`, with checks and for texts that are
not zero terminated: wherever the C++ trims, moves to the next member or skips a value it now calls the functions of the comment policy
(`Verif.Model.Comments`).  `t.cfg` is meant to have `checked := true`; the functions do not look at it except to hand it to those that neither trim
nor skip and so do not depend on the policy.  Static types, environments and values are those of `Verif.Model.Typed`.
-/

namespace Verif

/-! ## Member names -/

/-- `trim_end_of_name`, `daw_json_parse_name.h` L33-41. -/
def trimEndOfNameC (p : Cmt) (bs : Bytes) : Res Bytes := do
  let b ← trimCmt p bs
  ensure (!b.isEmpty) .unexpectedEndOfData
  ensure (headIs (· == chColon) b) .invalidMemberName
  trimCmt p b.tail

/-- `name_parser::parse_nq`, `daw_json_parse_name.h` L43-65, and `parse_name`, L148-155. -/
def parseNameC (p : Cmt) (t : TCfg) (bs : Bytes) : Res (Bytes × Bytes) := do
  ensure (headIs (· == chQuote) bs) .invalidMemberName
  if t.escNames then do
    let (r, b) ← skipStringNq t.cfg bs.tail
    let b ← trimEndOfNameC p b
    .ok (r.text, b)
  else do
    let (nm, b) := toQuote bs.tail
    ensure (!b.isEmpty && nm.getLast? != some chBslash) .invalidString
    let b ← trimEndOfNameC p b.tail
    .ok (nm, b)

/-! ## Classes -/

/-- The loop of `find_class_member`, `daw_json_location_info.h` L222-277.  See `findLoop`. -/
def findLoopC (p : Cmt) (t : TCfg) (exact : Bool) (names : List Bytes) (pos : Nat) (locs : Locs) (bs : Bytes) :
    Res (Found × Locs × Bytes) :=
  match bs with
  | [] => .ok (.absent, locs, [])
  | c :: cs =>
    if c = chRBrace then .ok (.absent, locs, c :: cs)
    else do
      let (name, b) ← parseNameC p t (c :: cs)
      let np := findName t names pos name
      if exact = true ∧ names.length ≤ np then .err .unknownMember
      else if names.length ≤ np then do
        let (_, b₂) ← skipValueCmt p t.cfg.exclSpecial false b
        let b₃ ← moveNextCmt p b₂
        if _h : b₃.length < (c :: cs).length then findLoopC p t exact names pos locs b₃ else .ub
      else if np = pos then .ok (.here, locs, b)
      else do
        let (r, b₂) ← skipValueCmt p t.cfg.exclSpecial false b
        let b₃ ← moveNextCmt p b₂
        if _h : b₃.length < (c :: cs).length then
          findLoopC p t exact names pos (setLoc locs np (markRange b r) (afterRange b r)) b₃
        else .ub
termination_by bs.length

/-- `find_class_member`, `daw_json_location_info.h` L206-293: the trim in L223 is the unchecked one of the policy. -/
def findMemberC (p : Cmt) (t : TCfg) (exact : Bool) (names : List Bytes) (pos : Nat) (nullable : Bool) (locs : Locs)
    (bs : Bytes) : Res (Found × Locs × Bytes) := do
  ensure (nullable || ((locs[pos]?).join).isSome || !headIs (· == chRBrace) bs) .missingMember
  let b ← trimCmtUnchecked p bs
  match (locs[pos]?).join with
  | some (r, after) => .ok (.known r after, locs, b)
  | none => findLoopC p t exact names pos locs b

/-- `parse_class_member`, `daw_json_parse_class.h` L93-151.  See `classMembers`. -/
def classMembersC (p : Cmt) (t : TCfg) (exact : Bool) (names : List Bytes) (pU : Ty → Bytes → Res (Val × Bytes))
    (pK : Ty → Range → Bytes → Res Val) (pos : Nat) (ms : List Member) (locs : Locs) (bs : Bytes) :
    Res (List Val × Bytes) :=
  match ms with
  | [] => .ok ([], bs)
  | m :: ms => do
    let b ← moveNextCmt p bs
    ensure (headIs (fun c => c == chQuote || c == chRBrace) b) .missingMemberNameOrEndOfClass
    let (f, locs, b) ← findMemberC p t exact names pos m.ty.isOpt locs b
    let (v, b) ← (match f with
      | .here => pU m.ty b
      | .known r after => do
        let v ← pK m.ty r after
        .ok (v, b)
      | .absent => if m.ty.isOpt then .ok (.none, b) else .err .missingMember : Res (Val × Bytes))
    let (vs, b) ← classMembersC p t exact names pU pK (pos + 1) ms locs b
    .ok (v :: vs, b)

/-- The loop of `move_to_next_of<'"','}'>`, `daw_json_parse_policy_hash_comments.h` L93-98, `daw_json_parse_policy_cpp_comments.h` L133-138, comments in
front having been skipped: `front( )` is read before the test for the end; `daw_json_parse_policy_no_comments.h` L125-131, where it is not. -/
def moveToMemberC (p : Cmt) (bs : Bytes) : Res Bytes :=
  match bs with
  | [] => if p = .mini then .err .unexpectedEndOfData else .ub
  | c :: cs =>
    if c = chQuote ∨ c = chRBrace then .ok (c :: cs)
    else
      match _h : skipCmt p cs with
      | .ok r => moveToMemberC p r
      | .err e => .err e
      | .ub => .ub
termination_by bs.length
decreasing_by
  have := skipCmt_length _h
  simp
  omega

/-- `move_to_next_class_member`, `daw_json_parse_policy.h` L473-475, `move_to_next_of<'"','}'>`, `daw_json_parse_policy_hash_comments.h` L86-99,
`daw_json_parse_policy_cpp_comments.h` L127-139, `daw_json_parse_policy_no_comments.h` L92-135. -/
def moveToNextClassMemberC (p : Cmt) (bs : Bytes) : Res Bytes := do
  let b ← skipCmt p bs
  ensure (!b.isEmpty) .unexpectedEndOfData
  moveToMemberC p b

/-- `class_cleanup_now`, `daw_json_parse_class.h` L153-173. -/
def classCleanupC (p : Cmt) (exact : Bool) (bs : Bytes) : Res Bytes := do
  ensure (!bs.isEmpty) .unexpectedEndOfData
  let b ← moveNextCmt p bs
  let b ← moveToNextClassMemberC p b
  if exact then do
    ensure (headIs (· == chRBrace) b) .unknownMember
    trimCmt p b.tail
  else do
    let (_, b) ← skipBracketedCmt p objBr b
    trimCmt p b

/-- `parse_json_class`, `daw_json_parse_class.h` L182-277. -/
def parseObjC (p : Cmt) (t : TCfg) (exact : Bool) (ms : List Member) (pU : Ty → Bytes → Res (Val × Bytes))
    (pK : Ty → Range → Bytes → Res Val) (bs : Bytes) : Res (Val × Bytes) := do
  let b ← trimCmt p bs
  ensure (headIs (· == chLBrace) b) .invalidClassStart
  let b ← trimCmt p b.tail
  let (vs, b) ← classMembersC p t exact (ms.map Member.name) pU pK 0 ms (ms.map fun _ => none) b
  let b ← classCleanupC p exact b
  .ok (.cls vs, b)

/-! ## Tuples and ordered classes -/

/-- The loop of `maybe_skip_members`, `daw_json_parse_value.h` L919-929.  See `skipMembers`. -/
def skipMembersC (p : Cmt) (cfg : Cfg) : Nat → Bytes → Res (Nat × Bytes)
  | 0, bs => do
    let _ ← derefEnd cfg bs
    .ok (0, bs)
  | n + 1, bs => do
    let c ← derefEnd cfg bs
    if c = chRBrack then .ok (n + 1, bs)
    else do
      let (_, b) ← skipValueCmt p cfg.exclSpecial false bs
      let b ← moveNextCmt p b
      ensure (!b.isEmpty) .unexpectedEndOfData
      skipMembersC p cfg n b

/-- `maybe_skip_members`, `daw_json_parse_value.h` L912-932. -/
def maybeSkipC (p : Cmt) (cfg : Cfg) (cur want : Nat) (bs : Bytes) : Res (Nat × Bytes) := do
  ensure (decide (cur ≤ want)) .outOfOrderOrderedMembers
  let (left, b) ← skipMembersC p cfg (want - cur) bs
  .ok ((max want cur) - left, b)

/-- `parse_value_help` for the elements of a tuple, `daw_json_parse_value.h` L1032-1090.  See `tupMembers`. -/
def tupMembersC (p : Cmt) (pU : Ty → Bytes → Res (Val × Bytes)) (ts : List Ty) (bs : Bytes) : Res (List Val × Bytes) :=
  match ts with
  | [] => .ok ([], bs)
  | ty :: ts => do
    ensure (!bs.isEmpty) .unexpectedEndOfData
    let (v, b) ← pU ty bs
    let b ← moveNextCmt p b
    let (vs, b) ← tupMembersC p pU ts b
    .ok (v :: vs, b)

/-- The end of `parse_tuple_value`, `daw_json_parse_value.h` L1130-1144, and of `parse_json_tuple_class`, `daw_json_parse_class.h` L331-343. -/
def endTupC (p : Cmt) (cfg : Cfg) (exact : Bool) (bs : Bytes) : Res Bytes :=
  if exact then do
    let b ← trimCmt p bs
    let c ← derefEnd cfg b
    ensure (c == chRBrack) .unknownMember
    trimCmt p b.tail
  else do
    let (_, b) ← skipBracketedCmt p arrBr bs
    .ok b

/-- `parse_tuple_value`, `daw_json_parse_value.h` L1005-1148. -/
def parseTupC (p : Cmt) (cfg : Cfg) (exact : Bool) (ts : List Ty) (pU : Ty → Bytes → Res (Val × Bytes)) (bs : Bytes) :
    Res (Val × Bytes) := do
  let b ← trimCmt p bs
  ensure (headIs (· == chLBrack) b) .invalidArrayStart
  let b ← moveNextCmt p b.tail
  let b ← trimCmt p b
  let (vs, b) ← tupMembersC p pU ts b
  let b ← endTupC p cfg exact b
  .ok (.cls vs, b)

/-- `parse_ordered_class_member`, `daw_json_parse_class.h` L45-81.  See `ordMembers`. -/
def ordMembersC (p : Cmt) (cfg : Cfg) (pU : Ty → Bytes → Res (Val × Bytes)) (idx : Nat) (ms : List (Option Nat × Ty))
    (bs : Bytes) : Res (List Val × Bytes) :=
  match ms with
  | [] => .ok ([], bs)
  | (want, ty) :: ms => do
    let b ← moveNextCmt p bs
    let (idx, b) ← (match want with
      | some w => maybeSkipC p cfg idx w b
      | none => do
        ensure (!b.isEmpty) .unexpectedEndOfData
        .ok (idx, b) : Res (Nat × Bytes))
    let c ← derefEnd cfg b
    let (v, b) ← (if c = chRBrack then
        if ty.isOpt then .ok (.none, b) else .err .missingMember
      else pU ty b : Res (Val × Bytes))
    let (vs, b) ← ordMembersC p cfg pU (idx + 1) ms b
    .ok (v :: vs, b)

/-- `parse_json_tuple_class`, `daw_json_parse_class.h` L284-345. -/
def parseOrdC (p : Cmt) (cfg : Cfg) (exact : Bool) (ms : List (Option Nat × Ty)) (pU : Ty → Bytes → Res (Val × Bytes))
    (bs : Bytes) : Res (Val × Bytes) := do
  let b ← trimCmt p bs
  ensure (headIs (· == chLBrack) b) .invalidArrayStart
  let b ← trimCmt p b.tail
  let (vs, b) ← ordMembersC p cfg pU 0 ms b
  let b ← endTupC p cfg exact b
  .ok (.cls vs, b)

/-! ## Arrays and maps -/

/-- The elements of an array, `daw_json_parse_array_iterator.h` L118-160.  See `arrLoop`. -/
def arrLoopC (p : Cmt) (f : Bytes → Res (Val × Bytes)) (bs : Bytes) : Res (List Val × Bytes) := do
  ensure (!bs.isEmpty) .unexpectedEndOfData
  let (v, b) ← f bs
  let b ← trimCmt p b
  ensure (headIs (fun c => c == chComma || c == chRBrack) b) .unexpectedEndOfData
  let b ← moveNextCmt p b
  ensure (!b.isEmpty) .unexpectedEndOfData
  if headIs (· == chRBrack) b then do
    let r ← trimCmt p b.tail
    .ok ([v], r)
  else if _h : b.length < bs.length then do
    let (vs, r) ← arrLoopC p f b
    .ok (v :: vs, r)
  else .ub
termination_by bs.length

/-- `parse_value_array`, `daw_json_parse_value.h` L672-689, and the constructor of the iterator, `daw_json_parse_array_iterator.h` L100-112.  Behind the
bracket `trim_left_unchecked` of the policy is called (L679), which skips comments only in front of the whitespace.  (Simplification: a range that is
the body of a string is taken to end here, not with its closing quote.) -/
def parseArrC (p : Cmt) (cfg : Cfg) (f : Bytes → Res (Val × Bytes)) (bs : Bytes) : Res (Val × Bytes) := do
  let b ← trimCmt p bs
  ensure (headIs (· == chLBrack) b) .invalidArrayStart
  let b ← trimCmtUnchecked p b.tail
  let c ← derefEnd cfg b
  if c = chRBrack then do
    let r ← trimCmt p b.tail
    .ok (.arr [], r)
  else do
    let (vs, r) ← arrLoopC p f b
    .ok (.arr vs, r)

/-- The pairs of a map, `daw_json_parse_kv_class_iterator.h` L113-160.  See `mapLoop`. -/
def mapLoopC (p : Cmt) (cfg : Cfg) (f : Bytes → Res (Val × Bytes)) (bs : Bytes) : Res (List (Bytes × Val) × Bytes) := do
  ensure (!bs.isEmpty) .unexpectedEndOfData
  let (k, b) ← parseStr cfg true bs
  let b ← trimEndOfNameC p b
  let (v, b) ← f b
  let b ← moveNextCmt p b
  ensure (!b.isEmpty) .unexpectedEndOfData
  if headIs (· == chRBrace) b then do
    let r ← trimCmt p b.tail
    .ok ([(k, v)], r)
  else if _h : b.length < bs.length then do
    let (vs, r) ← mapLoopC p cfg f b
    .ok ((k, v) :: vs, r)
  else .ub
termination_by bs.length

/-- `parse_value_keyvalue`, `daw_json_parse_value.h` L621-641, and the constructor of the iterator, `daw_json_parse_kv_class_iterator.h` L95-108. -/
def parseMapC (p : Cmt) (cfg : Cfg) (f : Bytes → Res (Val × Bytes)) (bs : Bytes) : Res (Val × Bytes) := do
  ensure (headIs (· == chLBrace) bs) .expectedKeyValueToStartWithBrace
  let b ← trimCmt p bs.tail
  ensure (!b.isEmpty) .unexpectedEndOfData
  if headIs (· == chRBrace) b then do
    let r ← trimCmt p b.tail
    .ok (.map [], r)
  else do
    let (vs, r) ← mapLoopC p cfg f b
    .ok (.map vs, r)

/-! ## Scalars -/

/-- `parse_value_bool<JsonMember, false>`, `daw_json_parse_value.h` L395-431. -/
def parseBoolC (p : Cmt) (cfg : Cfg) (bs : Bytes) : Res (Bool × Bytes) := do
  let (r, b) ← eatBool cfg bs
  let b ← trimCmt p b
  ensure (endOfItem b) .invalidEndOfValue
  .ok (r, b)

/-- `parse_value_signed<JsonMember, false>`, `daw_json_parse_value.h` L177-233. -/
def parseSignedC (p : Cmt) (cfg : Cfg) (bits : Nat) (rc : Bool) (bs : Bytes) : Res (Int × Bytes) := do
  ensure (!bs.isEmpty) .unexpectedEndOfData
  let (sign, b) ← validateSignedFirst cfg bs
  let (u, b) ← unsignedNotKnown cfg bits rc b
  let b ← trimCmt p b
  ensure (endOfItem b) .invalidEndOfValue
  .ok (toSigned bits u sign, b)

/-- Parsing an integer type when the end of the number is not known; `parse_value_unsigned`, `daw_json_parse_value.h` L252-290, does not trim. -/
def parseIntC (p : Cmt) (cfg : Cfg) (t : IntTy) (rc : Bool) (bs : Bytes) : Res (Int × Bytes) :=
  if t.signed then parseSignedC p cfg t.bits rc bs else parseUnsigned cfg t.bits rc bs

/-- What `parse_value_null<JsonMember, false>` finds, `daw_json_parse_value.h` L336-352: behind `null` a comment is not seen before `at_end_of_item`. -/
def eatNullC (p : Cmt) (bs : Bytes) : Res (Option Bytes) :=
  if bs.isEmpty || headIs isTokenAfterValue bs then .ok (some bs)
  else if (txtNull).isPrefixOf bs then do
    ensure (endOfItem (bs.drop 4)) .invalidLiteral
    let r ← trimCmt p (bs.drop 4)
    .ok (some r)
  else .ok none

/-- `parse_value_bool<JsonMember, false>`, `daw_json_parse_value.h` L392-428, with `LiteralAsStringOpt::Always` or `Maybe`. -/
def parseBoolQC (p : Cmt) (cfg : Cfg) (always : Bool) (bs : Bytes) : Res (Bool × Bytes) := do
  let b ← skipQuote cfg always bs
  let (r, b) ← eatBool cfg b
  let b ← skipQuote cfg always b
  let b ← trimCmt p b
  ensure (endOfItem b) .invalidEndOfValue
  .ok (r, b)

/-- `parse_value_signed<JsonMember, false>`, `daw_json_parse_value.h` L192-230, with `LiteralAsStringOpt::Always` or `Maybe`. -/
def parseSignedQC (p : Cmt) (cfg : Cfg) (always : Bool) (bits : Nat) (rc : Bool) (bs : Bytes) : Res (Int × Bytes) := do
  let b ← skipQuote cfg always bs
  let (sign, b) ← validateSignedFirst cfg b
  let (u, b) ← unsignedNotKnown cfg bits rc b
  let b ← skipQuote cfg always b
  let b ← trimCmt p b
  ensure (endOfItem b) .invalidEndOfValue
  .ok (toSigned bits u sign, b)

/-- `parse_value_bool`, `parse_value_signed` and `parse_value_unsigned` with unknown bounds, for a literal that is or may be a string. -/
def parseLitC (p : Cmt) (cfg : Cfg) (always : Bool) (l : LitTy) (bs : Bytes) : Res (Lit × Bytes) :=
  match l with
  | .bool => do
    let (b, r) ← parseBoolQC p cfg always bs
    .ok (.bool b, r)
  | .int t rc => do
    let (i, r) ← if t.signed then parseSignedQC p cfg always t.bits rc bs else parseUnsignedQ cfg always t.bits rc bs
    .ok (.int i, r)

/-- `skip_literal`, `daw_json_skip.h` L403-438, with a comment policy: as `skip_value`, without strings, arrays and objects. -/
def skipLiteralCmt (p : Cmt) (cfg : Cfg) (bs : Bytes) : Res (Range × Bytes) :=
  if headIs (fun c => c == chQuote || c == chLBrack || c == chLBrace) bs then .err .invalidStartOfValue
  else skipValueCmt p cfg.exclSpecial false bs

/-- The text that `parse_value_custom<JsonMember, false>` takes, `daw_json_parse_value.h` L538-574.  See `customText`. -/
def customTextC (p : Cmt) (cfg : Cfg) (c : CustomKind) (bs : Bytes) : Res (Bytes × Bytes) :=
  match c with
  | .str => customText cfg .str bs
  | .lit => do
    let (r, rest) ← skipLiteralCmt p cfg bs
    .ok (r.text, rest)
  | .any => do
    let d ← derefEnd cfg bs
    if d = chQuote then customText cfg .any bs
    else do
      let (r, rest) ← skipValueCmt p cfg.exclSpecial false bs
      .ok (r.text, rest)

/-- Text, time points, reals and quoted literals with unknown bounds.  See `parseTxt`. -/
def parseTxtC (p : Cmt) (cfg : Cfg) (k : TxtKind) (bs : Bytes) : Res (Val × Bytes) :=
  match k with
  | .custom c => do
    let (x, rest) ← customTextC p cfg c bs
    customStart cfg x
    .ok (.txt x, rest)
  | .raw => do
    let (r, rest) ← skipValueCmt p cfg.exclSpecial true bs
    .ok (.txt r.text, rest)
  | .quoted al l => do
    let (x, rest) ← parseLitC p cfg al l bs
    .ok (.lit x, rest)
  | k => parseTxt cfg k bs

/-! ## Dispatch -/

mutual
/-- `parse_value<JsonMember, false>`, `daw_json_parse_value.h` L1176-1222 and the functions it calls.  See `parseU`. -/
def parseUC (p : Cmt) (t : TCfg) (Δ : Env) (fuel : Nat) (ty : Ty) (bs : Bytes) : Res (Val × Bytes) :=
  match fuel with
  | 0 => .ub
  | f + 1 =>
    match ty with
    | .bool => do
      let (b, r) ← parseBoolC p t.cfg bs
      .ok (.bool b, r)
    | .int ity rc => do
      let (i, r) ← parseIntC p t.cfg ity rc bs
      .ok (.int i, r)
    | .str ah => do
      let (s, r) ← parseStr t.cfg ah bs
      .ok (.str s, r)
    | .txt k => parseTxtC p t.cfg k bs
    | .opt ty => do
      match ← eatNullC p bs with
      | some r => .ok (.none, r)
      | none => do
        let (v, r) ← parseUC p t Δ f ty bs
        .ok (.some v, r)
    | .arr ty => parseArrC p t.cfg (parseUC p t Δ f ty) bs
    | .map ty => parseMapC p t.cfg (parseUC p t Δ f ty) bs
    | .ref i =>
      match Δ i with
      | .obj ms exact => do
        ensure (!bs.isEmpty) .unexpectedEndOfData
        let (v, r) ← parseObjC p t (exact || t.exactAll) ms (parseUC p t Δ f) (parseKC p t Δ f) bs
        let r ← trimCmt p r
        .ok (v, r)
      | .tup ts exact => parseTupC p t.cfg (exact || t.exactAll) ts (parseUC p t Δ f) bs
      | .ord ms exact => do
        ensure (!bs.isEmpty) .unexpectedEndOfData
        let (v, r) ← parseOrdC p t.cfg (exact || t.exactAll) ms (parseUC p t Δ f) bs
        let r ← trimCmt p r
        .ok (v, r)
      | .var alts => do
        let c ← derefEnd t.cfg bs
        let a ← altOfChar t.cfg Δ alts c
        let (v, r) ← parseUC p t Δ f a.2 bs
        .ok (.alt a.1 v, r)
      | .ivar tag sw alts => do
        ensure (!bs.isEmpty) .unexpectedEndOfData
        let (x, _) ← parseObjC p t t.exactAll [tag] (parseUC p t Δ f) (parseKC p t Δ f) bs
        let a ← altOfTag t.cfg sw alts x
        let (v, r) ← parseUC p t Δ f a.2 bs
        .ok (.alt a.1 v, r)
/-- `parse_value<JsonMember, true>`, same lines, on the range `r` that `skip_value` returned.  See `parseK`. -/
def parseKC (p : Cmt) (t : TCfg) (Δ : Env) (fuel : Nat) (ty : Ty) (r : Range) (after : Bytes) : Res Val :=
  match fuel with
  | 0 => .ub
  | f + 1 =>
    match ty with
    | .bool => do
      let b ← parseBoolKnown (t.inside r).cfg r
      .ok (.bool b)
    | .int ity rc => do
      let i ← parseIntKnown (t.inside r).cfg ity rc r.text
      .ok (.int i)
    | .str ah => do
      let s ← parseStrRange t.cfg ah r after
      .ok (.str s)
    | .txt k => parseTxtKnown t.cfg k r after
    | .opt ty =>
      if r.null then .ok .none
      else do
        let v ← parseKC p t Δ f ty r after
        .ok (.some v)
    | .arr ty => do
      let (v, _) ← parseArrC p (t.inside r).cfg (parseUC p (t.inside r) Δ f ty) r.text
      .ok v
    | .map ty => do
      let (v, _) ← parseMapC p (t.inside r).cfg (parseUC p (t.inside r) Δ f ty) r.text
      .ok v
    | .ref i =>
      match Δ i with
      | .obj ms exact => do
        ensure (!r.text.isEmpty) .unexpectedEndOfData
        let (v, _) ← parseObjC p (t.inside r) (exact || t.exactAll) ms (parseUC p (t.inside r) Δ f) (parseKC p (t.inside r) Δ f) r.text
        .ok v
      | .tup ts exact => do
        let (v, _) ← parseTupC p (t.inside r).cfg (exact || t.exactAll) ts (parseUC p (t.inside r) Δ f) r.text
        .ok v
      | .ord ms exact => do
        ensure (!r.text.isEmpty) .unexpectedEndOfData
        let (v, _) ← parseOrdC p (t.inside r).cfg (exact || t.exactAll) ms (parseUC p (t.inside r) Δ f) r.text
        .ok v
      | .var alts => do
        let a ← altOfRange t.cfg Δ alts r
        let v ← parseKC p t Δ f a.2 r after
        .ok (.alt a.1 v)
      | .ivar tag sw alts => do
        ensure (!r.text.isEmpty) .unexpectedEndOfData
        let (x, _) ← parseObjC p (t.inside r) t.exactAll [tag] (parseUC p (t.inside r) Δ f) (parseKC p (t.inside r) Δ f) r.text
        let a ← altOfTag t.cfg sw alts x
        let (v, _) ← parseUC p (t.inside r) Δ f a.2 r.text
        .ok (.alt a.1 v)
end

/-- `from_json<T>( doc )` on a non-null pointer, `daw_from_json.h` L36-84, with a comment policy. -/
def fromJsonC (p : Cmt) (t : TCfg) (Δ : Env) (fuel : Nat) (ty : Ty) (bs : Bytes) : Res Val := do
  ensure (!bs.isEmpty) .emptyJSONDocument
  let b := if bs.getLast? = some 0 then bs.dropLast else bs
  let (v, r) ← parseUC p t Δ fuel ty b
  if t.verifyEnd then do
    let r ← trimCmt p r
    ensure r.isEmpty .invalidEndOfValue
    .ok v
  else .ok v

end Verif
