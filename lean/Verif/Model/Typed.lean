import Verif.Model.Int
import Verif.Model.Str
import Verif.Model.Hash
import Verif.Model.Text

/-!
# Parsing to typed values

Models `daw_json_parse_value.h`, `daw_json_parse_class.h`, `daw_json_location_info.h`, `daw_json_parse_name.h`
(member names), `daw_json_parse_array_iterator.h`, `daw_json_parse_kv_class_iterator.h` and `from_json` of
`daw_from_json.h`, for booleans, integers, strings, raw strings, timestamps, custom types, raw JSON, nullable values, arrays, string-keyed maps, classes, tuples and
ordered (array mapped) classes, variants told apart by the kind of the JSON value and variants told apart by a member
of the object.

The C++ chooses the functions to run by the static type of the value.  Here the static type is data: a `Ty`, and
for user classes an environment of `Shape`s, so that classes may refer to each other and to themselves.

Every function takes the remaining depth of the C++ call stack, one unit per nested `parse_value`.  Running out of
it is undefined behaviour, as in the code.
-/

namespace Verif

/-- Static types, `JsonParseTypes` in `daw_json_enums.h`: `json_bool`, `json_number` of an integer type with or
without range checking, `json_string` with its `EightBitModes`, types that take the text of a value and `json_number` of a real, `json_nullable`, `json_array`, `json_key_value`
with string keys, and a mapped class or tuple, by number. -/
inductive Ty where
  | bool
  | int (t : IntTy) (rangeChecked : Bool)
  | str (allowHigh : Bool)
  | txt (k : TxtKind)
  | opt (t : Ty)
  | arr (t : Ty)
  | map (t : Ty)
  | ref (i : Nat)
  deriving DecidableEq, Repr

/-- `is_json_nullable_v`. -/
def Ty.isOpt : Ty → Bool
  | .opt _ => true
  | _ => false

/-- A mapped member: `json_link<"name", T>`. -/
structure Member where
  name : Bytes
  ty : Ty
  deriving DecidableEq, Repr

/-- Parsed values.  A map keeps its pairs in the order they are handed to the container's constructor; a class
keeps its members in constructor order; `txt` is the text that `json_string_raw`, `json_custom` or `json_raw` hand to the
user's constructor or converter (simplification: what that makes of the text is the text itself), `date` a time point, `real` a real, `lit` a boolean or an integer with `LiteralAsStringOpt::Always` or
`Maybe`; a variant keeps the number of the alternative it holds.  (Simplification: the
alternatives of the C++ variant are those of the `json_variant_type_list`, in the same order.) -/
inductive Val where
  | bool (b : Bool)
  | int (i : Int)
  | str (s : Bytes)
  | txt (s : Bytes)
  | date (t : Int)
  | real (x : Dec)
  | lit (x : Lit)
  | none
  | some (v : Val)
  | arr (vs : List Val)
  | map (kvs : List (Bytes × Val))
  | cls (vs : List Val)
  | alt (k : Nat) (v : Val)

mutual
/-- Equality test for values. -/
def Val.beq : Val → Val → Bool
  | .bool a, .bool b => a == b
  | .int a, .int b => a == b
  | .str a, .str b => a == b
  | .txt a, .txt b => a == b
  | .date a, .date b => a == b
  | .real a, .real b => decide (a = b)
  | .lit a, .lit b => decide (a = b)
  | .none, .none => true
  | .some a, .some b => a.beq b
  | .arr a, .arr b => Val.beqs a b
  | .map a, .map b => Val.beqk a b
  | .cls a, .cls b => Val.beqs a b
  | .alt i a, .alt j b => i == j && a.beq b
  | _, _ => false
/-- Equality test for lists of values. -/
def Val.beqs : List Val → List Val → Bool
  | [], [] => true
  | a :: as, b :: bs => a.beq b && Val.beqs as bs
  | _, _ => false
/-- Equality test for lists of pairs. -/
def Val.beqk : List (Bytes × Val) → List (Bytes × Val) → Bool
  | [], [] => true
  | (k, a) :: as, (l, b) :: bs => k == l && a.beq b && Val.beqk as bs
  | _, _ => false
end

mutual
theorem Val.beq_iff : (a b : Val) → (a.beq b = true ↔ a = b)
  | .bool _, b | .int _, b | .str _, b | .txt _, b | .date _, b | .real _, b | .lit _, b | .none, b => by cases b <;> simp [Val.beq]
  | .some a, b => by cases b <;> simp [Val.beq, Val.beq_iff a]
  | .arr a, b => by cases b <;> simp [Val.beq, Val.beqs_iff a]
  | .map a, b => by cases b <;> simp [Val.beq, Val.beqk_iff a]
  | .cls a, b => by cases b <;> simp [Val.beq, Val.beqs_iff a]
  | .alt i a, b => by cases b <;> simp [Val.beq, Val.beq_iff a]
theorem Val.beqs_iff : (a b : List Val) → (Val.beqs a b = true ↔ a = b)
  | [], b => by cases b <;> simp [Val.beqs]
  | a :: as, b => by cases b <;> simp [Val.beqs, Val.beq_iff a, Val.beqs_iff as]
theorem Val.beqk_iff : (a b : List (Bytes × Val)) → (Val.beqk a b = true ↔ a = b)
  | [], b => by cases b <;> simp [Val.beqk]
  | (k, a) :: as, b => by
    cases b with
    | nil => simp [Val.beqk]
    | cons y b => obtain ⟨l, y⟩ := y; simp [Val.beqk, Val.beq_iff a, Val.beqk_iff as, and_assoc]
end

instance : DecidableEq Val := fun a b => decidable_of_iff _ (Val.beq_iff a b)

/-- What a mapped class looks like in JSON.
* `obj`: `json_member_list<...>`,
* `tup`: `json_tuple` / `json_tuple_member_list<...>`,
* `ord`: `json_ordered_member_list<...>`; a member may carry the index it is stored at.
* `var`: not a class but `json_variant` with its `json_variant_type_list<...>`, `daw_json_link_types.h` L968-998;
* `ivar`: `json_intrusive_variant`, L1669-1742: the tag member, the switcher, the alternatives.  (Simplification: the tag is a
  named member; a tag that is an element of an array is not modelled.)
`exact` is `is_exact_class_mapping_v`, `daw_json_traits.h` L295-296; the trait `ignore_unknown_members` is not
modelled. -/
inductive Shape where
  | obj (ms : List Member) (exact : Bool)
  | tup (ts : List Ty) (exact : Bool)
  | ord (ms : List (Option Nat × Ty)) (exact : Bool)
  | var (alts : List Ty)
  | ivar (tag : Member) (sw : Val → Nat) (alts : List Ty)

/-- The mapped classes of a program: `json_data_contract` specialisations, by number. -/
abbrev Env := Nat → Shape

/-- The options of a parse: `daw_json_parse_policy.h` L60-134 (`CheckedParseMode` and `ExcludeSpecialEscapes` in
`cfg`, `AllowEscapedNames`, `ExpectLongNames`, `ForceFullNameCheck`, `UseExactMappingsByDefault`,
`MustVerifyEndOfDataIsValid`). -/
structure TCfg where
  cfg : Cfg := {}
  escNames : Bool := false
  longNames : Bool := false
  forceFull : Bool := false
  exactAll : Bool := false
  verifyEnd : Bool := false
  deriving DecidableEq, Repr

/-! ## Member names -/

/-- `trim_end_of_name`, `daw_json_parse_name.h` L33-41.  `front_checked`, `daw_json_parse_policy.h` L348-352. -/
def trimEndOfName (cfg : Cfg) (bs : Bytes) : Res Bytes := do
  let b ← trim cfg bs
  whenChecked cfg do
    ensure (!b.isEmpty) .unexpectedEndOfData
    ensure (headIs (· == chColon) b) .invalidMemberName
  trim cfg b.tail

/-- `memchr_checked<'"'>` / `memchr_unchecked<'"'>`: the text in front of the next quote, and the text from it. -/
def toQuote : Bytes → Bytes × Bytes
  | [] => ([], [])
  | c :: cs => if c = chQuote then ([], c :: cs) else ((c :: (toQuote cs).1), (toQuote cs).2)

/-- `name_parser::parse_nq`, `daw_json_parse_name.h` L43-65, and `parse_name`, L148-155: the name as it stands in
the text (escapes are not decoded), and the position of the value. -/
def parseName (t : TCfg) (bs : Bytes) : Res (Bytes × Bytes) := do
  assertWeak t.cfg.checked (headIs (· == chQuote) bs) .invalidMemberName
  let _ ← deref bs
  if t.escNames then do
    let (r, b) ← skipStringNq t.cfg bs.tail
    let b ← trimEndOfName t.cfg b
    .ok (r.text, b)
  else do
    let (nm, b) := toQuote bs.tail
    assertWeak t.cfg.checked (!b.isEmpty && nm.getLast? != some chBslash) .invalidString
    let _ ← deref b
    let b ← trimEndOfName t.cfg b.tail
    .ok (nm, b)

/-! ## Finding class members -/

/-- `do_hashes_collide`, `daw_json_location_info.h` L152-163.  Simplified: sorting and looking for equal neighbours
is "some hash occurs twice". -/
def hashesCollide (names : List Bytes) : Bool := !decide (names.map (nameHash false)).Nodup

/-- `do_full_name_match` of `make_locations_info`, `daw_json_location_info.h` L178-180. -/
def fullMatch (t : TCfg) (names : List Bytes) : Bool := t.forceFull || hashesCollide names

/-- The loop of `find_name`, `daw_json_location_info.h` L135-146, from index `n` on. -/
def findFrom (full : Bool) (hash : UInt32) (key : Bytes) (n : Nat) : List Bytes → Nat
  | [] => n
  | nm :: ns =>
    if nameHash false nm = hash ∧ (full = false ∨ key = nm) then n else findFrom full hash key (n + 1) ns

/-- `find_name<expect_long_strings, start_pos>`, `daw_json_location_info.h` L127-147.  The number of names means
not found. -/
def findName (t : TCfg) (names : List Bytes) (start : Nat) (key : Bytes) : Nat :=
  findFrom (fullMatch t names) (nameHash t.longNames key) key start (names.drop start)

/-- `location_info_t`, `daw_json_location_info.h` L40-95: nothing while `missing( )`, else the range of the value
and the text that follows the range in the buffer. -/
abbrev Locs := List (Option (Range × Bytes))

/-- The result of `find_class_member`: the value is at the current position (`known == false`), it was skipped
earlier, or the class does not have it. -/
inductive Found where
  | here
  | known (r : Range) (after : Bytes)
  | absent

/-- `locations[name_pos].set_range( skip_value( ... ) )`, `daw_json_location_info.h` L262: the null range of a
skipped `null` leaves the location missing. -/
def setLoc (locs : Locs) (n : Nat) (r : Range) (after : Bytes) : Locs :=
  locs.set n (if r.null then none else some (r, after))

/-- The text that follows the range `r` of the value that `b` starts with: the range of a string is its body, which
begins one byte later (`skip_value<false>`, `daw_json_skip.h` L318-361). -/
def afterRange (b : Bytes) (r : Range) : Bytes :=
  b.drop (if headIs (· == chQuote) b then r.text.length + 1 else r.text.length)

/-- The range `r` of the value that `b` starts with, with what `*( first - 1 )` is: a quote if the value is a string, as the skip
function drops the quotes, `daw_json_parse_value.h` L752-756.  (Simplification: in front of another value there is the colon or
whitespace.) -/
def markRange (b : Bytes) (r : Range) : Range := { r with quoted := headIs (· == chQuote) b }

/-- `move_next_member_unchecked`, `daw_json_parse_policy_no_comments.h` L83-90: to the next quote. -/
def moveNextMemberUnchecked (bs : Bytes) : Res Bytes :=
  if (toQuote bs).2.isEmpty then .ub else .ok (toQuote bs).2

/-- The loop of `find_class_member`, `daw_json_location_info.h` L222-277, while `locations[pos]` is missing.
A step that does not move forward would loop for ever; it cannot happen in checked mode. -/
def findLoop (t : TCfg) (exact : Bool) (names : List Bytes) (pos : Nat) (locs : Locs) (bs : Bytes) :
    Res (Found × Locs × Bytes) :=
  match bs with
  | [] => .ok (.absent, locs, [])
  | c :: cs =>
    if c = chRBrace then .ok (.absent, locs, c :: cs)
    else do
      let (name, b) ← parseName t (c :: cs)
      let np := findName t names pos name
      if exact = true ∧ names.length ≤ np then
        -- checked: the assertion of L235; unchecked: `locations[name_pos]`, L105-108
        if t.cfg.checked then .err .unknownMember else .err .numberOutOfRange
      else if names.length ≤ np then do
        let (_, b₂) ← skipValue t.cfg false b
        let b₃ ← moveNext t.cfg b₂
        if _h : b₃.length < (c :: cs).length then findLoop t exact names pos locs b₃ else .ub
      else if np = pos then .ok (.here, locs, b)
      else do
        let (r, b₂) ← skipValue t.cfg false b
        let b₃ ← if t.cfg.checked = false ∧ np + 1 < names.length then moveNextMemberUnchecked b₂
                 else moveNext t.cfg b₂
        if _h : b₃.length < (c :: cs).length then
          findLoop t exact names pos (setLoc locs np (markRange b r) (afterRange b r)) b₃
        else .ub
termination_by bs.length

/-- `find_class_member`, `daw_json_location_info.h` L206-293. -/
def findMember (t : TCfg) (exact : Bool) (names : List Bytes) (pos : Nat) (nullable : Bool) (locs : Locs)
    (bs : Bytes) : Res (Found × Locs × Bytes) := do
  assertWeak t.cfg.checked (nullable || ((locs[pos]?).join).isSome || !headIs (· == chRBrace) bs) .missingMember
  let b ← trimUnchecked bs
  match (locs[pos]?).join with
  | some (r, after) => .ok (.known r after, locs, b)
  | none => findLoop t exact names pos locs b

/-- `parse_class_member`, `daw_json_parse_class.h` L93-151, for the members from `pos` on: the expansion of the pack
in `parse_json_class`, L241-245.  `pU`, `pK` are `parse_value` with unknown and known bounds. -/
def classMembers (t : TCfg) (exact : Bool) (names : List Bytes) (pU : Ty → Bytes → Res (Val × Bytes))
    (pK : Ty → Range → Bytes → Res Val) (pos : Nat) (ms : List Member) (locs : Locs) (bs : Bytes) :
    Res (List Val × Bytes) :=
  match ms with
  | [] => .ok ([], bs)
  | m :: ms => do
    let b ← moveNext t.cfg bs
    assertWeak t.cfg.checked (headIs (fun c => c == chQuote || c == chRBrace) b) .missingMemberNameOrEndOfClass
    let (f, locs, b) ← findMember t exact names pos m.ty.isOpt locs b
    let (v, b) ← (match f with
      | .here => pU m.ty b
      | .known r after => do
        let v ← pK m.ty r after
        .ok (v, b)
      | .absent => if m.ty.isOpt then .ok (.none, b) else .err .missingMember : Res (Val × Bytes))
    let (vs, b) ← classMembers t exact names pU pK (pos + 1) ms locs b
    .ok (v :: vs, b)

/-- `move_to_next_class_member`, `daw_json_parse_policy.h` L473-475, `move_to_next_of<'"','}'>`,
`daw_json_parse_policy_no_comments.h` L92-135. -/
def moveToNextClassMember (cfg : Cfg) : Bytes → Res Bytes
  | [] => if cfg.checked then .err .unexpectedEndOfData else .ub
  | c :: cs => if c = chQuote ∨ c = chRBrace then .ok (c :: cs) else moveToNextClassMember cfg cs

/-- `class_cleanup_now`, `daw_json_parse_class.h` L153-173. -/
def classCleanup (cfg : Cfg) (exact : Bool) (bs : Bytes) : Res Bytes := do
  assertWeak cfg.checked (!bs.isEmpty) .unexpectedEndOfData
  let b ← moveNext cfg bs
  let b ← moveToNextClassMember cfg b
  if exact then do
    assertWeak cfg.checked (headIs (· == chRBrace) b) .unknownMember
    .ok (trimChecked b.tail)
  else do
    let (_, b) ← skipBracketed cfg objBr b
    .ok (trimChecked b)

/-- `parse_json_class`, `daw_json_parse_class.h` L182-277. -/
def parseObj (t : TCfg) (exact : Bool) (ms : List Member) (pU : Ty → Bytes → Res (Val × Bytes))
    (pK : Ty → Range → Bytes → Res Val) (bs : Bytes) : Res (Val × Bytes) := do
  let b ← trim t.cfg bs
  assertWeak t.cfg.checked (headIs (· == chLBrace) b) .invalidClassStart
  let b ← trim t.cfg b.tail
  let (vs, b) ← classMembers t exact (ms.map Member.name) pU pK 0 ms (ms.map fun _ => none) b
  let b ← classCleanup t.cfg exact b
  .ok (.cls vs, b)

/-! ## Tuples and ordered classes -/

/-- The condition on `front( )` of the loop of `maybe_skip_members`, `daw_json_parse_value.h` L919-925: whether the
array ends here.  An unchecked parse of a nullable member does not look. -/
def atArrayEnd (cfg : Cfg) (nullable : Bool) (bs : Bytes) : Res Bool :=
  if cfg.checked = false ∧ nullable = true then .ok false
  else do
    let c ← derefEnd cfg bs
    .ok (c == chRBrack)

/-- The loop of `maybe_skip_members`, `daw_json_parse_value.h` L919-929, `n` positions to go.  The condition of the
`while` reads `front( )` even when nothing is to be skipped. -/
def skipMembers (cfg : Cfg) (nullable : Bool) : Nat → Bytes → Res (Nat × Bytes)
  | 0, bs => do
    let _ ← atArrayEnd cfg nullable bs
    .ok (0, bs)
  | n + 1, bs => do
    let atEnd ← atArrayEnd cfg nullable bs
    if atEnd then .ok (n + 1, bs)
    else do
      let (_, b) ← skipValue cfg false bs
      let b ← moveNext cfg b
      assertWeak cfg.checked (!b.isEmpty) .unexpectedEndOfData
      skipMembers cfg nullable n b

/-- `maybe_skip_members`, `daw_json_parse_value.h` L912-932: from position `cur` to `want`; returns the position
reached. -/
def maybeSkip (cfg : Cfg) (nullable : Bool) (cur want : Nat) (bs : Bytes) : Res (Nat × Bytes) := do
  assertWeak cfg.checked (decide (cur ≤ want)) .outOfOrderOrderedMembers
  let (left, b) ← skipMembers cfg nullable (want - cur) bs
  .ok ((max want cur) - left, b)

/-- `parse_value_help` for the elements of a tuple, `daw_json_parse_value.h` L1032-1090 (without the MSVC branch;
members of a `json_tuple_member_list` with an explicit index are not modelled here, see `ordMembers`). -/
def tupMembers (cfg : Cfg) (pU : Ty → Bytes → Res (Val × Bytes)) (ts : List Ty) (bs : Bytes) :
    Res (List Val × Bytes) :=
  match ts with
  | [] => .ok ([], bs)
  | ty :: ts => do
    assertWeak cfg.checked (!bs.isEmpty) .unexpectedEndOfData
    let (v, b) ← pU ty bs
    let b ← moveNext cfg b
    let (vs, b) ← tupMembers cfg pU ts b
    .ok (v :: vs, b)

/-- `parse_tuple_value`, `daw_json_parse_value.h` L1005-1148. -/
def parseTup (cfg : Cfg) (exact : Bool) (ts : List Ty) (pU : Ty → Bytes → Res (Val × Bytes)) (bs : Bytes) :
    Res (Val × Bytes) := do
  let b ← trim cfg bs
  assertWeak cfg.checked (headIs (· == chLBrack) b) .invalidArrayStart
  let b ← moveNext cfg b.tail
  let b ← trim cfg b
  let (vs, b) ← tupMembers cfg pU ts b
  if exact then do
    let b ← trim cfg b
    let c ← derefEnd cfg b
    assertWeak cfg.checked (c == chRBrack) .unknownMember
    let b ← trim cfg b.tail
    .ok (.cls vs, b)
  else do
    let (_, b) ← skipBracketed cfg arrBr b
    .ok (.cls vs, b)

/-- `parse_ordered_class_member`, `daw_json_parse_class.h` L45-81, for the members left; `idx` is `member_index`.
`pN` parses a nullable member from a null range (L68-71). -/
def ordMembers (cfg : Cfg) (pU : Ty → Bytes → Res (Val × Bytes)) (idx : Nat) (ms : List (Option Nat × Ty))
    (bs : Bytes) : Res (List Val × Bytes) :=
  match ms with
  | [] => .ok ([], bs)
  | (want, ty) :: ms => do
    let b ← moveNext cfg bs
    let (idx, b) ← (match want with
      | some w => maybeSkip cfg ty.isOpt idx w b
      | none => do
        assertWeak cfg.checked (!b.isEmpty) .unexpectedEndOfData
        .ok (idx, b) : Res (Nat × Bytes))
    let c ← derefEnd cfg b
    let (v, b) ← (if c = chRBrack then
        if ty.isOpt then .ok (.none, b) else .err .missingMember
      else pU ty b : Res (Val × Bytes))
    let (vs, b) ← ordMembers cfg pU (idx + 1) ms b
    .ok (v :: vs, b)

/-- `parse_json_tuple_class`, `daw_json_parse_class.h` L284-345. -/
def parseOrd (cfg : Cfg) (exact : Bool) (ms : List (Option Nat × Ty)) (pU : Ty → Bytes → Res (Val × Bytes))
    (bs : Bytes) : Res (Val × Bytes) := do
  let b ← trim cfg bs
  assertWeak cfg.checked (headIs (· == chLBrack) b) .invalidArrayStart
  let b ← trim cfg b.tail
  let (vs, b) ← ordMembers cfg pU 0 ms b
  if exact then do
    let b ← trim cfg b
    let c ← derefEnd cfg b
    assertWeak cfg.checked (c == chRBrack) .unknownMember
    let b ← trim cfg b.tail
    .ok (.cls vs, b)
  else do
    let (_, b) ← skipBracketed cfg arrBr b
    .ok (.cls vs, b)

/-! ## Arrays and maps -/

/-- The elements of an array: `operator*` and `operator++` of `json_parse_array_iterator`,
`daw_json_parse_array_iterator.h` L118-160, called in turn by the container's constructor.  A step that does not
move forward would loop for ever; it cannot happen in checked mode. -/
def arrLoop (cfg : Cfg) (p : Bytes → Res (Val × Bytes)) (bs : Bytes) : Res (List Val × Bytes) := do
  assertWeak cfg.checked (!bs.isEmpty) .unexpectedEndOfData
  let (v, b) ← p bs
  let b ← trim cfg b
  assertWeak cfg.checked (headIs (fun c => c == chComma || c == chRBrack) b) .unexpectedEndOfData
  let b ← moveNext cfg b
  assertWeak cfg.checked (!b.isEmpty) .unexpectedEndOfData
  let c ← deref b
  if c = chRBrack then .ok ([v], trimChecked b.tail)
  else if _h : b.length < bs.length then do
    let (vs, r) ← arrLoop cfg p b
    .ok (v :: vs, r)
  else .ub
termination_by bs.length

/-- `parse_value_array`, `daw_json_parse_value.h` L672-689, and the constructor of the iterator,
`daw_json_parse_array_iterator.h` L100-112.  `can_be_random_iterator_v` is the constant `false`, so known bounds
make no difference.  `trim_left_unchecked` is called in checked mode too. -/
def parseArr (cfg : Cfg) (p : Bytes → Res (Val × Bytes)) (bs : Bytes) : Res (Val × Bytes) := do
  let b ← trim cfg bs
  assertWeak cfg.checked (headIs (· == chLBrack) b) .invalidArrayStart
  let b ← trimUncheckedEnd cfg b.tail
  let c ← derefEnd cfg b
  if c = chRBrack then .ok (.arr [], trimChecked b.tail)
  else do
    let (vs, r) ← arrLoop cfg p b
    .ok (.arr vs, r)

/-- The pairs of a map: `operator*` and `operator++` of `json_parse_kv_class_iterator`,
`daw_json_parse_kv_class_iterator.h` L113-160. -/
def mapLoop (cfg : Cfg) (p : Bytes → Res (Val × Bytes)) (bs : Bytes) : Res (List (Bytes × Val) × Bytes) := do
  assertWeak cfg.checked (!bs.isEmpty) .unexpectedEndOfData
  let (k, b) ← parseStr cfg true bs
  let b ← trimEndOfName cfg b
  let (v, b) ← p b
  let b ← moveNext cfg b
  assertWeak cfg.checked (!b.isEmpty) .unexpectedEndOfData
  let c ← deref b
  if c = chRBrace then .ok ([(k, v)], trimChecked b.tail)
  else if _h : b.length < bs.length then do
    let (vs, r) ← mapLoop cfg p b
    .ok ((k, v) :: vs, r)
  else .ub
termination_by bs.length

/-- `parse_value_keyvalue`, `daw_json_parse_value.h` L621-641, and the constructor of the iterator,
`daw_json_parse_kv_class_iterator.h` L95-108. -/
def parseMap (cfg : Cfg) (p : Bytes → Res (Val × Bytes)) (bs : Bytes) : Res (Val × Bytes) := do
  assertWeak cfg.checked (headIs (· == chLBrace) bs) .expectedKeyValueToStartWithBrace
  let b ← trim cfg bs.tail
  ensure (!b.isEmpty) .unexpectedEndOfData
  let c ← deref b
  if c = chRBrace then .ok (.map [], trimChecked b.tail)
  else do
    let (vs, r) ← mapLoop cfg p b
    .ok (.map vs, r)

/-! ## Scalars -/

/-- `true` -/ notation "txtTrue" => ([0x74, 0x72, 0x75, 0x65] : List UInt8)
/-- `false` -/ notation "txtFalse" => ([0x66, 0x61, 0x6C, 0x73, 0x65] : List UInt8)
/-- `null` -/ notation "txtNull" => ([0x6E, 0x75, 0x6C, 0x6C] : List UInt8)

/-- The first half of `parse_value_bool<JsonMember, false>`, `daw_json_parse_value.h` L401-418
(`LiteralAsStringOpt::Never`). -/
def eatBool (cfg : Cfg) (bs : Bytes) : Res (Bool × Bytes) :=
  if cfg.checked then
    if (txtTrue).isPrefixOf bs then .ok (true, bs.drop 4)
    else if (txtFalse).isPrefixOf bs then .ok (false, bs.drop 5)
    else .err .invalidLiteral
  else do
    let c ← deref bs
    let n := if c = chT then 4 else 5
    if bs.length < n then .ub else .ok (c == chT, bs.drop n)

/-- `parse_value_bool<JsonMember, false>`, `daw_json_parse_value.h` L395-431. -/
def parseBool (cfg : Cfg) (bs : Bytes) : Res (Bool × Bytes) := do
  let (r, b) ← eatBool cfg bs
  let b ← trim cfg b
  assertWeak cfg.checked (endOfItem b) .invalidEndOfValue
  .ok (r, b)

/-- `parse_value_bool<JsonMember, true>`, `daw_json_parse_value.h` L377-394: only the first character is looked at;
in unchecked mode the counter of the range. -/
def parseBoolKnown (cfg : Cfg) (r : Range) : Res Bool :=
  if cfg.checked then do
    let c ← derefEnd cfg r.text
    if c = chT then .ok true else if c = chF then .ok false else .err .invalidLiteral
  else .ok (decide (r.counter ≠ 0))

/-- What `parse_value_null<JsonMember, false>` finds, `daw_json_parse_value.h` L327-352: `some rest` if the value is
taken to be empty, `none` if a value of the base type must be parsed. -/
def eatNull (cfg : Cfg) (bs : Bytes) : Res (Option Bytes) :=
  if bs.isEmpty || headIs isTokenAfterValue bs then .ok (some bs)
  else if cfg.checked then
    if (txtNull).isPrefixOf bs then do
      ensure (endOfItem (bs.drop 4)) .invalidLiteral
      .ok (some (trimChecked (bs.drop 4)))
    else .ok none
  else if headIs (· == chN) bs then do
    -- L332-336: the character after the whitespace is dropped as well
    let b ← if bs.length < 4 then .ub else trimUnchecked (bs.drop 4)
    .ok (some b.tail)
  else .ok none

/-! ## Variants -/

/-- `underlying_json_type`, `none` for `None`: `daw_json_link_types.h` L462, L561, L698, L826 (nullable), L884 (class), L990, L1259
(array), L1453 (map), L1636 (tuple), L1718.  A class is `Class` even if it is stored in an array
(`json_tuple_member_list`). -/
def underlying (Δ : Env) : Ty → Option BaseTy
  | .bool => some .bool
  | .int _ _ => some .number
  | .str _ => some .string
  | .txt k => k.underlying
  | .opt ty => underlying Δ ty
  | .arr _ => some .array
  | .map _ => some .cls
  | .ref i =>
    match Δ i with
    | .obj _ _ => some .cls
    | .tup _ _ => some .array
    | .ord _ _ => some .cls
    | .var _ => none
    | .ivar _ _ _ => none

/-- The cases of the `switch` of `parse_value_variant`, `daw_json_parse_value.h` L762-790. -/
def baseOfChar (c : UInt8) : Option BaseTy :=
  if c = chLBrace then some .cls
  else if c = chLBrack then some .array
  else if c = chT ∨ c = chF then some .bool
  else if c = chQuote then some .string
  else if isDigit c ∨ c = chPlus ∨ c = chMinus then some .number
  else none

/-- `find_json_element`, `daw_json_link_types_fwd.h` L519-531, through `base_map`, `daw_json_link_types.h` L950-965, from number
`n` on: the first alternative of the kind. -/
def findAlt (Δ : Env) (b : BaseTy) (n : Nat) : List Ty → Option (Nat × Ty)
  | [] => none
  | ty :: ts => if underlying Δ ty = some b then some (n, ty) else findAlt Δ b (n + 1) ts

/-- `parse_variant_value`, `daw_json_parse_value.h` L729-747: the alternative to parse. -/
def altOfBase (Δ : Env) (alts : List Ty) (b : BaseTy) : Res (Nat × Ty) :=
  match findAlt Δ b 0 alts with
  | some a => .ok a
  | none => .err .unexpectedJSONVariantType

/-- The `switch` of `parse_value_variant`, `daw_json_parse_value.h` L762-796. -/
def altOfChar (cfg : Cfg) (Δ : Env) (alts : List Ty) (c : UInt8) : Res (Nat × Ty) :=
  match baseOfChar c with
  | some b => altOfBase Δ alts b
  | none => if cfg.checked then .err .invalidStartOfValue else .ub

/-- `parse_value_variant<JsonMember, true>`, `daw_json_parse_value.h` L750-797. -/
def altOfRange (cfg : Cfg) (Δ : Env) (alts : List Ty) (r : Range) : Res (Nat × Ty) :=
  if r.quoted then altOfBase Δ alts .string
  else do
    let c ← deref r.text
    altOfChar cfg Δ alts c

/-- `parse_visit`, `daw_json_parse_value.h` L799-826: the alternative with the number that the switcher gives for the tag, which is
the only member of the wrapper class that was read. -/
def altOfTag (cfg : Cfg) (sw : Val → Nat) (alts : List Ty) (wrapper : Val) : Res (Nat × Ty) :=
  match wrapper with
  | .cls [x] =>
    match alts[sw x]? with
    | some ty => .ok (sw x, ty)
    | none => if cfg.checked then .err .missingMemberNameOrEndOfClass else .ub
  | _ => .ub

/-- What `parse_value` with known bounds can see of a container: the range that `skip_value` returned; without checks the end of the
range is not looked at, and reads behind it see the text that follows.  (Simplification: `trim_left_checked`, the word-at-a-time loops
and the test for an empty position in `parse_value_null` do look at the end of the range in unchecked mode too; here they see the end
of the text.) -/
def Range.seen (cfg : Cfg) (r : Range) (after : Bytes) : Bytes := if cfg.checked then r.text else r.text ++ after

/-- The policy with which `parse_value` is called for the range `r`: with checks the end of the range is seen, and behind the body of a
string stands its closing quote.  (Simplification: a range inside of such a body is taken to end in front of a quote too.) -/
def TCfg.inside (t : TCfg) (r : Range) : TCfg :=
  if t.cfg.checked = true ∧ r.quoted = true then { t with cfg := { t.cfg with endQuote := true } } else t

theorem TCfg.inside_unquoted (t : TCfg) {r : Range} (h : r.quoted = false) : t.inside r = t := by simp [TCfg.inside, h]

theorem TCfg.inside_unchecked (t : TCfg) (r : Range) (h : t.cfg.checked = false) : t.inside r = t := by simp [TCfg.inside, h]

@[simp] theorem TCfg.inside_checked (t : TCfg) (r : Range) : (t.inside r).cfg.checked = t.cfg.checked := by
  unfold TCfg.inside; split <;> rfl

/-! ## Text -/

/-- `parse_value_bool<JsonMember, false>`, `daw_json_parse_value.h` L392-428, with `LiteralAsStringOpt::Always` or `Maybe`. -/
def parseBoolQ (cfg : Cfg) (always : Bool) (bs : Bytes) : Res (Bool × Bytes) := do
  let b ← skipQuote cfg always bs
  let (r, b) ← eatBool cfg b
  let b ← skipQuote cfg always b
  let b ← trim cfg b
  assertWeak cfg.checked (endOfItem b) .invalidEndOfValue
  .ok (r, b)

/-- `parse_value_bool`, `parse_value_signed` and `parse_value_unsigned` with unknown bounds, for a literal that is or may be a string. -/
def parseLit (cfg : Cfg) (always : Bool) (l : LitTy) (bs : Bytes) : Res (Lit × Bytes) :=
  match l with
  | .bool => do
    let (b, r) ← parseBoolQ cfg always bs
    .ok (.bool b, r)
  | .int t rc => do
    let (i, r) ← if t.signed then parseSignedQ cfg always t.bits rc bs else parseUnsignedQ cfg always t.bits rc bs
    .ok (.int i, r)

/-- The policy that a leaf sees for a range: as `TCfg.inside`. -/
def Cfg.inside (cfg : Cfg) (r : Range) : Cfg := if cfg.checked = true ∧ r.quoted = true then { cfg with endQuote := true } else cfg

theorem TCfg.inside_cfg (t : TCfg) (r : Range) : (t.inside r).cfg = t.cfg.inside r := by
  unfold TCfg.inside Cfg.inside; split <;> rfl

/-- The same with known bounds, `daw_json_parse_value.h` L188-191, L245-251, L377-394: `literal_as_string` is not looked at. -/
def parseLitKnown (cfg : Cfg) (l : LitTy) (r : Range) : Res Lit :=
  match l with
  | .bool => do
    let b ← parseBoolKnown (cfg.inside r) r
    .ok (.bool b)
  | .int t rc => do
    let i ← parseIntKnown (cfg.inside r) t rc r.text
    .ok (.int i)

/-- `parse_value_string_raw`, `parse_value_date`, `parse_value_custom`, `parse_value_unknown`, `parse_value_real` and quoted literals with unknown bounds,
`daw_json_parse_value.h` L433-457, L526-581, L1161-1174, L74-175. -/
def parseTxt (cfg : Cfg) (k : TxtKind) (bs : Bytes) : Res (Val × Bytes) :=
  match k with
  | .rawStr _ => do
    let (r, rest) ← skipString cfg false bs
    .ok (.txt r.text, rest)
  | .date => do
    let (x, rest) ← parseDate cfg bs
    .ok (.date x, rest)
  | .custom c => do
    let (x, rest) ← parseCustom cfg c bs
    .ok (.txt x, rest)
  | .raw => do
    let (r, rest) ← skipValue cfg true bs
    .ok (.txt r.text, rest)
  | .real dbl _ => do
    let (x, rest) ← parseReal cfg dbl bs
    .ok (.real x, rest)
  | .quoted al l => do
    let (x, rest) ← parseLit cfg al l bs
    .ok (.lit x, rest)

/-- The same with known bounds, on the range that `skip_value` returned; `after` is what follows it. -/
def parseTxtKnown (cfg : Cfg) (k : TxtKind) (r : Range) (after : Bytes) : Res Val :=
  match k with
  | .rawStr _ => .ok (.txt r.text)
  | .date => do
    let x ← parseDateKnown cfg r.text
    .ok (.date x)
  | .custom c => do
    let x ← parseCustomKnown cfg c r
    .ok (.txt x)
  | .raw => .ok (.txt r.text)
  | .real dbl _ => do
    let x ← parseRealKnown cfg dbl r after
    .ok (.real x)
  | .quoted _ l => do
    let x ← parseLitKnown cfg l r
    .ok (.lit x)

/-! ## Dispatch -/

mutual
/-- `parse_value<JsonMember, false>`, `daw_json_parse_value.h` L1176-1222 and the functions it calls, with `fuel`
stack frames left.  `parse_value_class`, L583-611; `parse_value_variant`, L749-797; `parse_value_variant_intrusive`, L860-886,
which reads the tag from a copy of the position as the only member of a class (its stack frame is not counted). -/
def parseU (t : TCfg) (Δ : Env) (fuel : Nat) (ty : Ty) (bs : Bytes) : Res (Val × Bytes) :=
  match fuel with
  | 0 => .ub
  | f + 1 =>
    match ty with
    | .bool => do
      let (b, r) ← parseBool t.cfg bs
      .ok (.bool b, r)
    | .int ity rc => do
      let (i, r) ← parseInt t.cfg ity rc bs
      .ok (.int i, r)
    | .str ah => do
      let (s, r) ← parseStr t.cfg ah bs
      .ok (.str s, r)
    | .txt k => parseTxt t.cfg k bs
    | .opt ty => do
      match ← eatNull t.cfg bs with
      | some r => .ok (.none, r)
      | none => do
        let (v, r) ← parseU t Δ f ty bs
        .ok (.some v, r)
    | .arr ty => parseArr t.cfg (parseU t Δ f ty) bs
    | .map ty => parseMap t.cfg (parseU t Δ f ty) bs
    | .ref i =>
      match Δ i with
      | .obj ms exact => do
        assertWeak t.cfg.checked (!bs.isEmpty) .unexpectedEndOfData
        let (v, r) ← parseObj t (exact || t.exactAll) ms (parseU t Δ f) (parseK t Δ f) bs
        .ok (v, trimChecked r)
      | .tup ts exact => parseTup t.cfg (exact || t.exactAll) ts (parseU t Δ f) bs
      | .ord ms exact => do
        assertWeak t.cfg.checked (!bs.isEmpty) .unexpectedEndOfData
        let (v, r) ← parseOrd t.cfg (exact || t.exactAll) ms (parseU t Δ f) bs
        .ok (v, trimChecked r)
      | .var alts => do
        let c ← derefEnd t.cfg bs
        let a ← altOfChar t.cfg Δ alts c
        let (v, r) ← parseU t Δ f a.2 bs
        .ok (.alt a.1 v, r)
      | .ivar tag sw alts => do
        assertWeak t.cfg.checked (!bs.isEmpty) .unexpectedEndOfData
        let (x, _) ← parseObj t t.exactAll [tag] (parseU t Δ f) (parseK t Δ f) bs
        let a ← altOfTag t.cfg sw alts x
        let (v, r) ← parseU t Δ f a.2 bs
        .ok (.alt a.1 v, r)
/-- `parse_value<JsonMember, true>`, same lines, on the range `r` that `skip_value` returned; `after` is the text
that follows the range.  Containers are parsed as with unknown bounds. -/
def parseK (t : TCfg) (Δ : Env) (fuel : Nat) (ty : Ty) (r : Range) (after : Bytes) : Res Val :=
  match fuel with
  | 0 => .ub
  | f + 1 =>
    match ty with
    | .bool => do
      let b ← parseBoolKnown (t.inside r).cfg r
      .ok (.bool b)
    | .int ity rc => do
      let i ← parseIntKnown (t.inside r).cfg ity rc r.text
      .ok (.int i)
    | .str ah => do
      let s ← parseStrRange t.cfg ah r after
      .ok (.str s)
    | .txt k => parseTxtKnown t.cfg k r after
    | .opt ty =>
      if r.null then .ok .none
      else do
        let v ← parseK t Δ f ty r after
        .ok (.some v)
    | .arr ty => do
      let (v, _) ← parseArr (t.inside r).cfg (parseU (t.inside r) Δ f ty) (r.seen t.cfg after)
      .ok v
    | .map ty => do
      let (v, _) ← parseMap (t.inside r).cfg (parseU (t.inside r) Δ f ty) (r.seen t.cfg after)
      .ok v
    | .ref i =>
      match Δ i with
      | .obj ms exact => do
        assertWeak t.cfg.checked (!r.text.isEmpty) .unexpectedEndOfData
        let (v, _) ← parseObj (t.inside r) (exact || t.exactAll) ms (parseU (t.inside r) Δ f) (parseK (t.inside r) Δ f) (r.seen t.cfg after)
        .ok v
      | .tup ts exact => do
        let (v, _) ← parseTup (t.inside r).cfg (exact || t.exactAll) ts (parseU (t.inside r) Δ f) (r.seen t.cfg after)
        .ok v
      | .ord ms exact => do
        assertWeak t.cfg.checked (!r.text.isEmpty) .unexpectedEndOfData
        let (v, _) ← parseOrd (t.inside r).cfg (exact || t.exactAll) ms (parseU (t.inside r) Δ f) (r.seen t.cfg after)
        .ok v
      | .var alts => do
        let a ← altOfRange t.cfg Δ alts r
        let v ← parseK t Δ f a.2 r after
        .ok (.alt a.1 v)
      | .ivar tag sw alts => do
        assertWeak t.cfg.checked (!r.text.isEmpty) .unexpectedEndOfData
        let (x, _) ← parseObj (t.inside r) t.exactAll [tag] (parseU (t.inside r) Δ f) (parseK (t.inside r) Δ f) (r.seen t.cfg after)
        let a ← altOfTag t.cfg sw alts x
        let (v, _) ← parseU (t.inside r) Δ f a.2 (r.seen t.cfg after)
        .ok (.alt a.1 v)
end

/-- `from_json<T>( doc )` on a non-null pointer, `daw_from_json.h` L36-84. -/
def fromJson (t : TCfg) (Δ : Env) (fuel : Nat) (ty : Ty) (bs : Bytes) : Res Val := do
  ensure (!bs.isEmpty) .emptyJSONDocument
  let b := if bs.getLast? = some 0 then bs.dropLast else bs
  let (v, r) ← parseU t Δ fuel ty b
  if t.verifyEnd then do
    let r ← trim t.cfg r
    ensure r.isEmpty .invalidEndOfValue
    .ok v
  else .ok v

/-- `from_json_array<Element>( doc )` on a non-null pointer, `daw_from_json.h` L497-554: whitespace in front of the document is skipped
without a check for its end, and a `'\0'` at the end belongs to the document. -/
def fromJsonArray (t : TCfg) (Δ : Env) (fuel : Nat) (ty : Ty) (bs : Bytes) : Res Val := do
  ensure (!bs.isEmpty) .emptyJSONDocument
  let b ← trimUnchecked bs
  assertWeak t.cfg.checked (headIs (· == chLBrack) b) .invalidArrayStart
  let (v, r) ← parseArr t.cfg (parseU t Δ fuel ty) b
  if t.verifyEnd then do
    let r ← trim t.cfg r
    ensure r.isEmpty .invalidEndOfValue
    .ok v
  else .ok v

end Verif
