import Verif.Spec.Typed
import Verif.Model.Value

/-!
# Members, elements and paths of a document

Of `Verif.Model.Value` only the names of the kinds of values (`Kind`) are used.
-/

namespace Verif.Spec

open Verif

/-- The members or elements of a container, in document order, with the name as written if there is one. -/
def JVal.items : JVal → List (Option Bytes × JVal)
  | .arr _ es => es.toList.map fun d => (none, d)
  | .obj _ ms => ms.toList.map fun p => (some p.1, p.2)
  | _ => []

/-- The value is an object or an array. -/
def JVal.isContainer : JVal → Bool
  | .arr .. | .obj .. => true
  | _ => false

/-- The JSON kind of a value. -/
def JVal.kind : JVal → Kind
  | .null => .null
  | .tru => .bool
  | .fls => .bool
  | .num _ => .number
  | .str _ => .string
  | .arr .. => .array
  | .obj .. => .cls

mutual
/-- All names of members, at any depth, satisfy `P`. -/
def JVal.allNames (P : Bytes → Prop) : JVal → Prop
  | .arr _ es => es.allNames P
  | .obj _ ms => ms.allNames P
  | _ => True
/-- All names in the elements. -/
def JElems.allNames (P : Bytes → Prop) : JElems → Prop
  | .nil => True
  | .cons _ v _ tl => v.allNames P ∧ tl.allNames P
/-- All names of the members, and in their values. -/
def JMems.allNames (P : Bytes → Prop) : JMems → Prop
  | .nil => True
  | .cons _ n _ _ v _ tl => P n ∧ v.allNames P ∧ tl.allNames P
end

/-- Names as the parser can cope with: written without escapes unless `AllowEscapedNames` is set. -/
def JVal.NamesOk (esc : Bool) (d : JVal) : Prop := d.allNames fun n => PlainName n ∨ esc = true

/-- One component of a path: a name, or the decimal digits of an index. -/
inductive Step where
  | name (n : Bytes)
  | index (ds : Bytes)

/-- The member with that name (the first one), or the member or element with that index. -/
def JVal.step (d : JVal) (s : Step) : Option JVal :=
  match s with
  | .name n =>
    match d with
    | .obj _ ms => ms.get? n
    | _ => none
  | .index ds => (d.items[decVal ds]?).map Prod.snd

/-- Follow a path one component at a time. -/
def JVal.follow (d : JVal) : List Step → Option JVal
  | [] => some d
  | s :: ss =>
    match d.step s with
    | some e => e.follow ss
    | none => none

/-- A name as it is written in a path: the delimiters are escaped. -/
def escName (n : Bytes) : Bytes := n.flatMap fun c => if c = 0x2E ∨ c = 0x5B ∨ c = 0x5D then [0x5C, c] else [c]

/-- One component as it is written in a path. -/
def Step.text : Step → Bytes
  | .name n => escName n
  | .index ds => 0x5B :: (ds ++ [0x5D])

/-- The components after the first: names are separated by a dot. -/
def pathTail : List Step → Bytes
  | [] => []
  | .name n :: ss => 0x2E :: (escName n ++ pathTail ss)
  | .index ds :: ss => 0x5B :: (ds ++ 0x5D :: pathTail ss)

/-- A path as text, such as `a.b[2][3].c\.d`. -/
def pathText : List Step → Bytes
  | [] => []
  | s :: ss => s.text ++ pathTail ss

/-- A component that can be written: names are not empty and have no backslash, indices are 64 bit numbers. -/
def Step.Ok : Step → Prop
  | .name n => n ≠ [] ∧ 0x5C ∉ n
  | .index ds => IsDigits ds ∧ decVal ds < 2 ^ 64

/-- As `JVal.step`, but only arrays have indices. -/
def JVal.stepArr (d : JVal) (s : Step) : Option JVal :=
  match s, d with
  | .name n, .obj _ ms => ms.get? n
  | .index ds, .arr _ es => es.toList[decVal ds]?
  | _, _ => none

/-- Follow a path one component at a time, with indices only into arrays. -/
def JVal.followArr (d : JVal) : List Step → Option JVal
  | [] => some d
  | s :: ss =>
    match d.stepArr s with
    | some e => e.followArr ss
    | none => none

/-- Paths such as `a.b[2].c`: the first component is a name, and so is the one after an index. -/
def DottedPath : List Step → Prop
  | [] => True
  | .name _ :: .index _ :: ss => DottedPath ss
  | .name _ :: ss => DottedPath ss
  | .index _ :: _ => False

/-- An index of at most 64 digits. -/
def Step.Short : Step → Prop
  | .name _ => True
  | .index ds => ds.length ≤ 64

end Verif.Spec
