import Verif.Model.Event
import Verif.Model.Int

/-!
# Where in the document

Models `daw_json_find_path.h`, and from `daw_json_event_parser.h` which of the functions of a handler are called at all.
Positions are offsets from the start of the document; null pointers are not modelled.
-/

namespace Verif

/-! ## Lines and columns -/

/-- `find_line_number_of`, `daw_json_find_path.h` L300-315. -/
def findLine (doc : Bytes) (pos : Nat) : Res Nat := do
  ensure (decide (0 < pos)) .unexpectedEndOfData
  .ok ((doc.take pos).foldl (fun n c => if c = chNl then n + 1 else n) 0)

/-- `find_column_number_of`, `daw_json_find_path.h` L322-334: how far the search for a newline, backwards from the position, gets. -/
def findColumn (doc : Bytes) (pos : Nat) : Res Nat := do
  ensure (decide (0 < pos)) .unexpectedEndOfData
  .ok ((doc.take pos).reverse.takeWhile (· != chNl)).length

/-! ## Which callbacks are called -/

/-- The functions a handler may have. -/
inductive Cb where
  | onValue | onArrayStart | onArrayEnd | onClassStart | onClassEnd | onNumber | onBool | onString | onNull | onError
  deriving DecidableEq, Repr

/-- What a function of a handler may be called with: a `basic_json_pair`, a `basic_json_value`, the allocator of the parse policy, a number, a truth value, a string, nothing. -/
inductive ArgTy where
  | pair | value | alloc | dbl | bool | str | nothing
  deriving DecidableEq, Repr

/-- The handler type: which functions it has and what they accept. -/
abbrev Callbacks := Cb → ArgTy → Bool

/-- Whether a callback is called for an event: `handle_on_value` and its siblings, `daw_json_event_parser.h` L155-270, with the tests L55-147.  `has_on_value_handler_v`, `has_on_array_start_handler_v` and
`has_on_class_start_handler_v` (L61-63, L70-72, L83-85) take the type of the argument as their third parameter and are given (L158, L169, L190) the allocator type. -/
def detected (c : Callbacks) : Ev → Bool
  | .value .. => c .onValue .alloc
  | .arrayStart _ => c .onArrayStart .alloc
  | .arrayEnd => c .onArrayEnd .nothing
  | .classStart _ => c .onClassStart .alloc
  | .classEnd => c .onClassEnd .nothing
  | .number _ => c .onNumber .value || c .onNumber .dbl
  | .bool _ => c .onBool .value || c .onBool .bool
  | .string _ => c .onString .value || c .onString .str
  | .null _ => c .onNull .value || c .onNull .nothing
  | .error _ => c .onError .value

/-- The handler as the event parser sees it: events without a callback are passed over. -/
def dispatch (c : Callbacks) (h : Handler) : Handler := fun seen e =>
  if detected c e then h (seen.filter (detected c)) e else .cont

/-! ## The path to a position -/

/-- `json_path_node`, `daw_json_find_path.h` L48-88. -/
structure PathNode where
  name : Bytes := []
  index : Int := -1
  start : Option Nat := none
  kind : Kind := .none
  deriving DecidableEq, Repr

/-- The handler of `find_json_path_stack_to`, `daw_json_find_path.h` L121-129; the back of the stack is the head of the list. -/
structure PathState where
  stack : List PathNode := []
  lastPopped : Option PathNode := none
  state : PathNode := {}
  deriving DecidableEq, Repr

/-- `handle_on_value`, `daw_json_find_path.h` L138-157.  `len`: length of the document, `last`: one more than the position looked for. -/
def pathOnValue (cfg : Cfg) (len last : Nat) (s : PathState) (name : Option Bytes) (jv : JV) : PathState × HRes :=
  if jv.isEmpty || last ≤ len - jv.length then (s, .complete)
  else
    let kind := match jvType cfg jv with | .ok k => k | _ => .none
    let st : PathNode := match s.stack.head?.map PathNode.kind with
      | some .cls => { name := name.getD [], index := -1, start := some (len - jv.length), kind := kind }
      | some .array => { name := [], index := s.state.index + 1, start := some (len - jv.length), kind := kind }
      | _ => { name := [], index := -1, start := some (len - jv.length), kind := kind }
    ({ s with state := st, lastPopped := none }, .cont)

/-- `handle_on_array_start` and `handle_on_class_start`, `daw_json_find_path.h` L159-163, L174-178. -/
def pathOnStart (s : PathState) : PathState × HRes := ({ s with stack := s.state :: s.stack, state := {} }, .cont)

/-- `handle_on_array_end` and `handle_on_class_end`, `daw_json_find_path.h` L165-172, L180-187. -/
def pathOnEnd (s : PathState) : PathState × HRes :=
  match s.stack with
  | [] => (s, .cont)
  | n :: tl => ({ stack := tl, lastPopped := some n, state := n }, .cont)

/-- `handle_on_number` and so on, `daw_json_find_path.h` L189-263.  The text of a string starts behind its quote; `null` has none (a null pointer, taken to lie in front of everything). -/
def pathOnScalar (cfg : Cfg) (len last : Nat) (s : PathState) (off : Nat) (jv : JV) : PathState × HRes :=
  match jvStringView cfg jv with
  | .ok txt =>
    if !txt.isEmpty && (len - jv.length + off ≤ last && last ≤ len - jv.length + off + txt.length) then
      ({ s with stack := s.state :: s.stack }, .complete)
    else (s, .cont)
  | _ => ({ s with stack := s.state :: s.stack }, .complete)

/-- One call to the handler. -/
def locStep (cfg : Cfg) (len last : Nat) (s : PathState) : Ev → PathState × HRes
  | .value n jv => pathOnValue cfg len last s n jv
  | .arrayStart _ | .classStart _ => pathOnStart s
  | .arrayEnd | .classEnd => pathOnEnd s
  | .number jv | .bool jv | .null jv => pathOnScalar cfg len last s 0 jv
  | .string jv => pathOnScalar cfg len last s 1 jv
  | .error _ => (s, .cont)

/-- The state of the handler after some calls. -/
def pathRun (cfg : Cfg) (len last : Nat) (es : List Ev) : PathState :=
  es.foldl (fun s e => (locStep cfg len last s e).1) {}

/-- The type of the handler, `daw_json_find_path.h` L138-263.  (`basic_json_value` has explicit constructors only, so that no allocator is accepted.) -/
def pathCallbacks : Callbacks
  | .onValue, .pair => true
  | .onArrayStart, .value => true
  | .onArrayEnd, .nothing => true
  | .onClassStart, .value => true
  | .onClassEnd, .nothing => true
  | .onNumber, .value => true
  | .onBool, .value => true
  | .onString, .value => true
  | .onNull, .value => true
  | _, _ => false

/-- `find_json_path_stack_to`, `daw_json_find_path.h` L111-281: the nodes from the root on.  Exceptions of the parser are caught.  `none`: not finished after `fuel` steps, or undefined. -/
def findPathStack (t : TCfg) (fuel : Nat) (doc : Bytes) (pos : Nat) : Option (List PathNode) :=
  let h : Handler := fun seen e => (locStep t.cfg doc.length (pos + 1) (pathRun t.cfg doc.length (pos + 1) seen) e).2
  match eventParse t (dispatch pathCallbacks h) fuel doc with
  | none => none
  | some (_, .ub) => none
  | some (seen, _) =>
    let s := pathRun t.cfg doc.length (pos + 1) (seen.filter (detected pathCallbacks))
    some ((s.lastPopped.toList ++ s.stack).reverse)

/-- One node of `to_json_path_string`, `daw_json_find_path.h` L97-102. -/
def pathNodeText (n : PathNode) : Bytes :=
  if 0 ≤ n.index then chLBrack :: (writeUnsigned n.index.toNat ++ [chRBrack])
  else if n.name.isEmpty then [] else chDot :: n.name

/-- `to_json_path_string`, `daw_json_find_path.h` L90-105. -/
def pathText (ns : List PathNode) : Bytes := ns.flatMap pathNodeText

/-- `find_json_path_to`, `daw_json_find_path.h` L288-292. -/
def findPath (t : TCfg) (fuel : Nat) (doc : Bytes) (pos : Nat) : Option Bytes := (findPathStack t fuel doc pos).map pathText

end Verif
