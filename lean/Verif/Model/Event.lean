import Verif.Model.Value

/-!
# The event parser

Models `json_event_parser` of `daw_json_event_parser.h`.

The handler is a function of the calls made so far and the current one; that covers every deterministic handler with
state.  A callback that the handler does not have counts as answering `Continue` (`handle_on_value` and its siblings,
L155-270).  Which callbacks are found is modelled by `detected` in `Verif.Model.FindPath`.
-/

namespace Verif

/-- `json_parse_handler_result`, `daw_json_event_parser.h` L29-36. -/
inductive HRes where
  | cont | skip | complete
  deriving DecidableEq, Repr

/-- The calls made to a handler. -/
inductive Ev where
  | value (name : Option Bytes) (jv : JV)
  | arrayStart (jv : JV) | arrayEnd
  | classStart (jv : JV) | classEnd
  | number (jv : JV) | bool (jv : JV) | string (jv : JV) | null (jv : JV) | error (jv : JV)
  deriving DecidableEq, Repr

/-- The answer to a call, given the calls made before. -/
abbrev Handler := List Ev → Ev → HRes

/-- `StackParseStateType`, `daw_json_event_parser.h` L274. -/
inductive Frame where
  | cls | array
  deriving DecidableEq, Repr

/-- The local variables of `json_event_parser`, L333-341, and the calls made so far.  Of the pair of iterators on the
stack only the first is kept; the second is always the end iterator. -/
structure EvState where
  seen : List Ev
  stack : List (Frame × JIter)
  classDepth : Int
  arrayDepth : Int

/-- `jv.end( )`, a default constructed iterator. -/
def endIter : JIter := ⟨0, []⟩

/-- A handler asked to stop or to skip, as in L350-359: `parent_stack.clear( )`, or `move_to_last`, L343-345 (undefined
on an empty stack). -/
def evStop (s : EvState) : HRes → EvState × Res Unit
  | .cont => (s, .ok ())
  | .complete => ({ s with stack := [] }, .ok ())
  | .skip =>
    match s.stack with
    | [] => (s, .ub)
    | (f, _) :: tl => ({ s with stack := (f, endIter) :: tl }, .ok ())

/-- Record a call. -/
def EvState.call (s : EvState) (e : Ev) : EvState := { s with seen := s.seen ++ [e] }

/-- Call the handler for the start of a container; if it wants to go on, push the container:
`daw_json_event_parser.h` L365-380, L382-397. -/
def evOpen (t : TCfg) (h : Handler) (s : EvState) (e : Ev) (f : Frame) (jv : JV) : EvState × Res Unit :=
  match h s.seen e with
  | .cont =>
    match jvBegin t.cfg jv with
    | .ok it => ({ s.call e with stack := (f, it) :: s.stack }, .ok ())
    | .err r => (s.call e, .err r)
    | .ub => (s.call e, .ub)
  | r => evStop (s.call e) r

/-- The second part of `process_value`, `daw_json_event_parser.h` L362-464. -/
def evTyped (t : TCfg) (h : Handler) (s : EvState) (jv : JV) : EvState × Res Unit :=
  match jvType t.cfg jv with
  | .ok .array => evOpen t h { s with arrayDepth := s.arrayDepth + 1 } (.arrayStart jv) .array jv
  | .ok .cls => evOpen t h { s with classDepth := s.classDepth + 1 } (.classStart jv) .cls jv
  | .ok .number => evStop (s.call (.number jv)) (h s.seen (.number jv))
  | .ok .bool => evStop (s.call (.bool jv)) (h s.seen (.bool jv))
  | .ok .string => evStop (s.call (.string jv)) (h s.seen (.string jv))
  | .ok .null => evStop (s.call (.null jv)) (h s.seen (.null jv))
  | .ok .none => evStop (s.call (.error jv)) (h s.seen (.error jv))
  | .err r => (s, .err r)
  | .ub => (s, .ub)

/-- `process_value`, `daw_json_event_parser.h` L347-465. -/
def evValue (t : TCfg) (h : Handler) (s : EvState) (p : Option Bytes × JV) : EvState × Res Unit :=
  match h s.seen (.value p.1 p.2) with
  | .cont => evTyped t h (s.call (.value p.1 p.2)) p.2
  | r => evStop (s.call (.value p.1 p.2)) r

/-- The end of a container, `daw_json_event_parser.h` L474-509. -/
def evClose (t : TCfg) (h : Handler) (s : EvState) (f : Frame) (it : JIter) : EvState × Res Unit :=
  match f with
  | .cls =>
    if t.cfg.checked = true ∧ ¬ (0 < s.classDepth ∧ headIs (· == chRBrace) it.pos = true) then (s, .err .invalidEndOfValue)
    else ({ s.call .classEnd with
      classDepth := s.classDepth - 1
      stack := if h s.seen .classEnd = .complete then [] else s.stack }, .ok ())
  | .array =>
    if t.cfg.checked = true ∧ ¬ (0 < s.arrayDepth ∧ headIs (· == chRBrack) it.pos = true) then (s, .err .invalidEndOfValue)
    else ({ s.call .arrayEnd with
      arrayDepth := s.arrayDepth - 1
      stack := if h s.seen .arrayEnd = .complete then [] else s.stack }, .ok ())

/-- `process_range`, `daw_json_event_parser.h` L467-511; the entry has been taken off the stack. -/
def evRange (t : TCfg) (h : Handler) (s : EvState) (f : Frame) (it : JIter) : EvState × Res Unit :=
  match it.good with
  | .ok true =>
    match it.get t with
    | .ok p =>
      match it.next t with
      | .ok it' => evValue t h { s with stack := (f, it') :: s.stack } p
      | .err r => (s, .err r)
      | .ub => (s, .ub)
    | .err r => (s, .err r)
    | .ub => (s, .ub)
  | .ok false => evClose t h s f it
  | .err r => (s, .err r)
  | .ub => (s, .ub)

/-- The loop and the final check, `daw_json_event_parser.h` L515-521: the calls made, and how the parse ended.  `none`:
not finished after `fuel` steps. -/
def evLoop (t : TCfg) (h : Handler) : Nat → EvState × Res Unit → Option (List Ev × Res Unit)
  | _, (s, .err r) => some (s.seen, .err r)
  | _, (s, .ub) => some (s.seen, .ub)
  | fuel, (s, .ok ()) =>
    match fuel, s.stack with
    | _, [] => some (s.seen, ensure (s.classDepth == 0 && s.arrayDepth == 0) .invalidEndOfValue)
    | 0, _ :: _ => none
    | n + 1, (f, it) :: tl => evLoop t h n (evRange t h { s with stack := tl } f it)

/-- `json_event_parser( json_document, handler )`, `daw_json_event_parser.h` L319-340, L513, L532-547. -/
def eventParse (t : TCfg) (h : Handler) (fuel : Nat) (bs : Bytes) : Option (List Ev × Res Unit) :=
  match jvMake t.cfg bs with
  | .ok jv => evLoop t h fuel (evValue t h ⟨[], [], 0, 0⟩ (none, jv))
  | .err r => some ([], .err r)
  | .ub => some ([], .ub)

end Verif
