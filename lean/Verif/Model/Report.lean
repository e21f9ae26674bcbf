import Verif.Model.Typed
import Verif.Model.Format
import Verif.Spec.Ascii

/-!
# Exceptions and what they say

`json_exception` of `daw_json_exception.h`, the functions of `impl/daw_json_assert.h` that raise one, and which member a
class parse names.
-/

namespace Verif

/-- `reason_message`, `daw_json_exception.h` L93-194.  `missingMember` of the model is `MemberNotFound` with a name; it has that message. -/
def reasonMessage : Err → Bytes
  | .unknown => asc! "Unknown reason for error"
  | .unexpectedEndOfData => asc! "Unexpected end of data"
  | .invalidNumber => asc! "Invalid Number"
  | .invalidNumberStart => asc! "Invalid Number started, expected a \"0123456789-\""
  | .invalidNumberUnexpectedQuoting => asc! "Unexpected double quote prior to number"
  | .invalidTimestamp => asc! "Invalid Timestamp"
  | .invalidUTFEscape => asc! "Invalid UTF Escape"
  | .invalidUTFCodepoint => asc! "Invalid UTF Codepoint"
  | .invalidEndOfValue => asc! "Did not find \\\",}]\" at end of value"
  | .invalidLiteral => asc! "Literal data was corrupt"
  | .invalidString => asc! "Invalid or corrupt string"
  | .invalidStringHighASCII => asc! "String support limited to 0x20 < chr <= 0x7F when DisallowHighEightBit or InvalidStringHighASCII is true"
  | .expectedKeyValueToStartWithBrace => asc! "Expected key/value's JSON type to be of class type and beginning with '{'"
  | .expectedKeyValueArrayToStartWithBracket => asc! "Expected key/value's JSON type to be of array type and beginning with '['"
  | .invalidArrayStart => asc! "Expected array type to begin with '['"
  | .invalidClassStart => asc! "Expected class type to begin with '{'"
  | .invalidStartOfValue => asc! "Unexpected character data at start of value"
  | .invalidTrue => asc! "Expected true not found"
  | .invalidFalse => asc! "Expected false not found"
  | .invalidNull => asc! "Expected null not found"
  | .unexpectedNull => asc! "An unexpected null value was encountered while serializing"
  | .numberIsNaN => asc! "NaN encountered while serializing to JSON Number literal"
  | .numberIsInf => asc! "Infinity encountered while serializing to JSON Number literal"
  | .numberOutOfRange => asc! "Number is outside of the representable range"
  | .emptyJSONDocument => asc! "Attempt to parse an empty JSON document"
  | .emptyJSONPath => asc! "Empty JSON Path specified"
  | .jsonPathNotFound => asc! "JSON Path specified not found in document"
  | .invalidJSONPath => asc! "Invalid JSON Path specified"
  | .nullOutputIterator => asc! "Null pointer specified for output"
  | .outputError => asc! "General error while performing output"
  | .missingMemberNameOrEndOfClass => asc! "Missing member name or end of class"
  | .missingMemberName => asc! "Missing member name"
  | .invalidMemberName => asc! "Member names must be JSON strings"
  | .expectedArrayOrClassStart => asc! "Expected start of a JSON class or array"
  | .unknownMember => asc! "Could not find member in JSON class"
  | .invalidBracketing => asc! "Invalid Bracketing"
  | .attemptToAccessPastEndOfValue => asc! "A value of known size was accessed past the end"
  | .outOfOrderOrderedMembers => asc! "Order of ordered members must be ascending"
  | .memberNotFound => asc! "Expected member not found"
  | .missingMember => asc! "Expected member not found"
  | .tagMemberNotFound => asc! "Expected tag member not found, they are required for tagged Variants"
  | .expectedMemberNotFound => asc! "Expected member missing"
  | .expectedTokenNotFound => asc! "Expected token missing"
  | .unexpectedJSONVariantType => asc! "Unexpected JSON Variant Type"
  | .trailingComma => asc! "Trailing comma"
  | .attemptToCallOpStarOnConstIterator => asc! "Use of operator*( ) on const iterator"

/-- `data_t`, the union of `json_exception`, `daw_json_exception.h` L204-212, with the member that is active.  A pointer is null or to a text that
ends with a zero. -/
inductive Payload where
  | pointer (p : Option Bytes)
  | token (c : UInt8)
  deriving DecidableEq

/-- `json_exception`, `daw_json_exception.h` L202-247.  `loc` is `m_parse_loc`, as the offset in the document. -/
structure Exc where
  reason : Err
  data : Payload
  loc : Option Nat
  deriving DecidableEq

/-- `missing_member`, `daw_json_exception.h` L26-35, of a mapped name.  Of the name only the pointer is kept: what is read of it later ends with
its first zero (names of a mapping are stored with a zero behind them, `daw_json_name.h`). -/
def memberText (name : Bytes) : Bytes :=
  if headIs (· == 0x07) name then asc! "no_name" else name.takeWhile (· ≠ 0)

/-- `daw_json_error( ErrorReason, ParseState const & )`, `daw_json_assert.h` L80-92; `first` and `cls` are `first` and `class_first` of the range. -/
def raise (e : Err) (first cls : Option Nat) : Exc :=
  match first with
  | some p => ⟨e, .pointer none, some p⟩
  | none => ⟨e, .pointer none, cls⟩

/-- `daw_json_error( missing_member, ParseState const & )`, `daw_json_assert.h` L106-138.  The length computed there is not used: the exception
keeps the pointer. -/
def raiseMember (name : Bytes) (first cls : Option Nat) : Exc :=
  match first, cls with
  | some _, some p => ⟨.memberNotFound, .pointer (some (memberText name)), some p⟩
  | _, _ => ⟨.memberNotFound, .pointer (some (memberText name)), none⟩

/-- `daw_json_error( missing_token, ParseState const & )`, `daw_json_assert.h` L140-153.  Nothing in the library calls it. -/
def raiseToken (c : UInt8) (first cls : Option Nat) : Exc :=
  match first with
  | some p => ⟨.expectedTokenNotFound, .token c, some p⟩
  | none => ⟨.expectedTokenNotFound, .token c, cls⟩

/-- `json_exception::reason( )`, `daw_json_exception.h` L249-270.  A text made from a null pointer, and a read of the member of the union that is not
active, are undefined. -/
def Exc.text (je : Exc) : Res Bytes :=
  match je.reason, je.data with
  | .memberNotFound, .pointer (some p) => .ok (asc! "Could not find required class member '" ++ p ++ asc! "'")
  | .memberNotFound, _ => .ub
  | .expectedTokenNotFound, .token c => .ok (asc! "Could not find expected parse token '" ++ [c] ++ asc! "'")
  | .expectedTokenNotFound, _ => .ub
  | e, _ => .ok (reasonMessage e)

/-- `to_formatted_string( je, json_document )`, `daw_json_exception.h` L293-351: `toFormatted` with the reason and the place of the exception. -/
def Exc.formatted (colour : Bool) (je : Exc) (doc : Option Bytes) : Res Bytes := do
  let r ← je.text
  toFormatted colour r doc je.loc

/-! ## The member a class parse names -/

/-- `parse_class_member`, `daw_json_parse_class.h` L93-151: one step of `classMembers`. -/
def classMember (t : TCfg) (exact : Bool) (names : List Bytes) (pU : Ty → Bytes → Res (Val × Bytes))
    (pK : Ty → Range → Bytes → Res Val) (pos : Nat) (m : Member) (locs : Locs) (bs : Bytes) : Res (Val × Locs × Bytes) := do
  let b ← moveNext t.cfg bs
  assertWeak t.cfg.checked (headIs (fun c => c == chQuote || c == chRBrace) b) .missingMemberNameOrEndOfClass
  let (f, locs, b) ← findMember t exact names pos m.ty.isOpt locs b
  let (v, b) ← (match f with
    | .here => pU m.ty b
    | .known r after => do
      let v ← pK m.ty r after
      .ok (v, b)
    | .absent => if m.ty.isOpt then .ok (.none, b) else .err .missingMember : Res (Val × Bytes))
  .ok (v, locs, b)

/-- Whether `find_class_member` has nothing for a member that is not nullable: `daw_json_location_info.h` L217-221. -/
def notFound (opt : Bool) : Res (Found × Locs × Bytes) → Bool
  | .err .missingMember => true
  | .ok (.absent, _, _) => !opt
  | _ => false

/-- Whether `parse_class_member` throws `missing_member( JsonMember::name )`: `daw_json_location_info.h` L217-221, `daw_json_parse_class.h` L137-144. -/
def memberMissing (t : TCfg) (exact : Bool) (names : List Bytes) (pos : Nat) (m : Member) (locs : Locs) (bs : Bytes) : Bool :=
  match moveNext t.cfg bs with
  | .ok b => (!t.cfg.checked || headIs (fun c => c == chQuote || c == chRBrace) b) && notFound m.ty.isOpt (findMember t exact names pos m.ty.isOpt locs b)
  | _ => false

/-- The name given to `missing_member` if reading the members from `pos` on ends so, the class being the one named and not one inside of it:
`daw_json_parse_class.h` L93-151, expanded in L241-245. -/
def missingNamed (t : TCfg) (exact : Bool) (names : List Bytes) (pU : Ty → Bytes → Res (Val × Bytes))
    (pK : Ty → Range → Bytes → Res Val) (pos : Nat) (ms : List Member) (locs : Locs) (bs : Bytes) : Option Bytes :=
  match ms with
  | [] => none
  | m :: ms =>
    if memberMissing t exact names pos m locs bs then some m.name
    else match classMember t exact names pU pK pos m locs bs with
      | .ok (_, locs, b) => missingNamed t exact names pU pK (pos + 1) ms locs b
      | _ => none

/-- The exception of `from_json<T>( bs )` if it is about a missing member of the class `T` itself: `parse_json_class`, `daw_json_parse_class.h` L182-277.
`class_first` is the brace, L201. -/
def classException (t : TCfg) (Δ : Env) (f : Nat) (ms : List Member) (ex : Bool) (bs : Bytes) : Option Exc :=
  let bs := if bs.getLast? = some 0 then bs.dropLast else bs
  match trim t.cfg bs with
  | .ok b =>
    let brace := bs.length - b.length
    if headIs (· == chLBrace) b then
      match trim t.cfg b.tail with
      | .ok b => (missingNamed t (ex || t.exactAll) (ms.map Member.name) (parseU t Δ f) (parseK t Δ f) 0 ms (ms.map fun _ => none) b).map
          fun n => raiseMember n (some brace) (some brace)
      | _ => none
    else none
  | _ => none

end Verif
