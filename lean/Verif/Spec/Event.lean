import Verif.Spec.Value
import Verif.Model.Event

/-!
# The events of a document

Of `Verif.Model.Event` only the names of the calls (`Ev`) are used.
-/

namespace Verif.Spec

open Verif

/-- What happens when a document is walked through. -/
inductive DocEv where
  /-- a value is reached; in an object it has a name -/
  | value (name : Option Bytes) (d : JVal)
  /-- a scalar -/
  | scalar (d : JVal)
  | arrayStart (d : JVal) | arrayEnd
  | objStart (d : JVal) | objEnd

mutual
/-- The events of a value: that it is reached; what it is; for a container, the events of its elements and that it
ends. -/
def JVal.events (n : Option Bytes) : JVal → List DocEv
  | .arr w es => .value n (.arr w es) :: .arrayStart (.arr w es) :: (es.events ++ [.arrayEnd])
  | .obj w ms => .value n (.obj w ms) :: .objStart (.obj w ms) :: (ms.events ++ [.objEnd])
  | .null => [.value n .null, .scalar .null]
  | .tru => [.value n .tru, .scalar .tru]
  | .fls => [.value n .fls, .scalar .fls]
  | .num t => [.value n (.num t), .scalar (.num t)]
  | .str b => [.value n (.str b), .scalar (.str b)]
/-- The events of the elements of an array. -/
def JElems.events : JElems → List DocEv
  | .nil => []
  | .cons _ v _ tl => v.events none ++ tl.events
/-- The events of the members of an object. -/
def JMems.events : JMems → List DocEv
  | .nil => []
  | .cons _ n _ _ v _ tl => v.events (some n) ++ tl.events
end

/-- The text starts with that of the value `d`, and what follows cannot be taken for a part of it. -/
def ShowsValue (d : JVal) (v : Bytes) : Prop := ∃ k, v = d.text ++ k ∧ AfterValue k

/-- The call reports the event: with the right name, the callback for the right kind of value and that value. -/
def Reports : Ev → DocEv → Prop
  | .value n v, .value n' d => n = n' ∧ ShowsValue d v
  | .arrayStart v, .arrayStart d => ShowsValue d v
  | .arrayEnd, .arrayEnd => True
  | .classStart v, .objStart d => ShowsValue d v
  | .classEnd, .objEnd => True
  | .number v, .scalar (.num t) => ShowsValue (.num t) v
  | .string v, .scalar (.str b) => ShowsValue (.str b) v
  | .bool v, .scalar .tru => ShowsValue .tru v
  | .bool v, .scalar .fls => ShowsValue .fls v
  | .null v, .scalar .null => ShowsValue .null v
  | _, _ => False

/-- The calls report the events, one for one. -/
def ReportsAll : List Ev → List DocEv → Prop
  | [], [] => True
  | e :: es, x :: xs => Reports e x ∧ ReportsAll es xs
  | _, _ => False

/-- The call is for the end of a container. -/
def isEnd : Ev → Bool
  | .arrayEnd | .classEnd => true
  | _ => false

/-- The call is for the start of a container. -/
def isStart : Ev → Bool
  | .arrayStart _ | .classStart _ => true
  | _ => false

/-- The number of containers that have been started and not ended. -/
def openContainers (es : List Ev) : Int := (es.countP isStart : Int) - es.countP isEnd

end Verif.Spec
