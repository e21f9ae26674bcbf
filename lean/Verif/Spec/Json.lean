import Verif.Model.Base

/-!
# What a well-formed JSON text is (RFC 8259), independent of the model

A `JVal` is a JSON value together with its concrete layout: the exact text of numbers, the exact body of
strings, and the whitespace between tokens.  `JVal.text` writes it out; `JVal.WF` says that the pieces are
as the RFC requires.  A byte list is well-formed JSON iff it is the text of a well-formed `JVal`.

The only import is for the type `Bytes` and the character constants.
-/

namespace Verif.Spec

open Verif

/-- JSON insignificant whitespace: space, tab, line feed, carriage return. -/
def isWsByte (c : UInt8) : Prop := c = 0x20 ∨ c = 0x09 ∨ c = 0x0A ∨ c = 0x0D

/-- A run of JSON whitespace. -/
def IsWs (w : Bytes) : Prop := ∀ c ∈ w, isWsByte c

/-- An ASCII decimal digit. -/
def IsDig (c : UInt8) : Prop := 0x30 ≤ c ∧ c ≤ 0x39

/-- An ASCII hexadecimal digit. -/
def IsHex (c : UInt8) : Prop := IsDig c ∨ (0x41 ≤ c ∧ c ≤ 0x46) ∨ (0x61 ≤ c ∧ c ≤ 0x66)

/-- A non-empty run of digits. -/
def IsDigits (ds : Bytes) : Prop := ds ≠ [] ∧ ∀ c ∈ ds, IsDig c

/-- `int = zero / ( digit1-9 *DIGIT )`. -/
def IsInt (ds : Bytes) : Prop := ds = [0x30] ∨ (IsDigits ds ∧ ds.head? ≠ some 0x30)

/-- `frac = "." 1*DIGIT`, or absent. -/
def IsFrac (f : Bytes) : Prop := f = [] ∨ ∃ ds, IsDigits ds ∧ f = 0x2E :: ds

/-- `exp = ("e" / "E") [ "-" / "+" ] 1*DIGIT`, or absent. -/
def IsExp (x : Bytes) : Prop :=
  x = [] ∨ ∃ e s ds, (e = 0x65 ∨ e = 0x45) ∧ (s = [] ∨ s = [0x2B] ∨ s = [0x2D]) ∧ IsDigits ds ∧
    x = e :: (s ++ ds)

/-- `number = [ "-" ] int [ frac ] [ exp ]`. -/
def IsNumber (n : Bytes) : Prop :=
  ∃ m i f x, (m = [] ∨ m = [0x2D]) ∧ IsInt i ∧ IsFrac f ∧ IsExp x ∧ n = m ++ (i ++ (f ++ x))

/-- The characters that may follow a backslash in a two-character escape. -/
def isSimpleEsc (c : UInt8) : Prop :=
  c = 0x22 ∨ c = 0x5C ∨ c = 0x2F ∨ c = 0x62 ∨ c = 0x66 ∨ c = 0x6E ∨ c = 0x72 ∨ c = 0x74

/-- The body of a JSON string, between the quotes.  Bytes from 0x80 up are accepted without requiring
valid UTF-8. -/
inductive IsStrBody : Bytes → Prop
  | nil : IsStrBody []
  | plain {c cs} : 0x20 ≤ c → c ≠ 0x22 → c ≠ 0x5C → IsStrBody cs → IsStrBody (c :: cs)
  | esc {c cs} : isSimpleEsc c → IsStrBody cs → IsStrBody (0x5C :: c :: cs)
  | uni {a b c d cs} : IsHex a → IsHex b → IsHex c → IsHex d → IsStrBody cs →
      IsStrBody (0x5C :: 0x75 :: a :: b :: c :: d :: cs)

mutual
/-- A JSON value with its layout.  In `arr w es` and `obj w ms`, `w` is the text in front of the closing bracket
(whitespace; for an empty container all there is between the brackets). -/
inductive JVal where
  | null | tru | fls
  | num (txt : Bytes)
  | str (body : Bytes)
  | arr (w : Bytes) (es : JElems)
  | obj (w : Bytes) (ms : JMems)
/-- Array elements: whitespace before, the value, whitespace after. -/
inductive JElems where
  | nil
  | cons (pre : Bytes) (v : JVal) (post : Bytes) (tl : JElems)
/-- Object members: whitespace before the name, name body, whitespace before and after the colon, the value,
whitespace after. -/
inductive JMems where
  | nil
  | cons (pre : Bytes) (name : Bytes) (pc : Bytes) (qc : Bytes) (v : JVal) (post : Bytes) (tl : JMems)
end

mutual
/-- The text of a value. -/
def JVal.text : JVal → Bytes
  | .null => [0x6E, 0x75, 0x6C, 0x6C]
  | .tru => [0x74, 0x72, 0x75, 0x65]
  | .fls => [0x66, 0x61, 0x6C, 0x73, 0x65]
  | .num t => t
  | .str b => 0x22 :: (b ++ [0x22])
  | .arr w .nil => 0x5B :: (w ++ [0x5D])
  | .arr w (.cons pre v post tl) =>
      0x5B :: (pre ++ (v.text ++ (post ++ (tl.text ++ (w ++ [0x5D])))))
  | .obj w .nil => 0x7B :: (w ++ [0x7D])
  | .obj w (.cons pre n pc qc v post tl) =>
      0x7B :: (pre ++ (0x22 :: (n ++ (0x22 :: (pc ++ (0x3A :: (qc ++ (v.text ++ (post ++
        (tl.text ++ (w ++ [0x7D])))))))))))
/-- The text of the elements after the first: each preceded by a comma. -/
def JElems.text : JElems → Bytes
  | .nil => []
  | .cons pre v post tl => 0x2C :: (pre ++ (v.text ++ (post ++ tl.text)))
/-- The text of the members after the first: each preceded by a comma. -/
def JMems.text : JMems → Bytes
  | .nil => []
  | .cons pre n pc qc v post tl =>
      0x2C :: (pre ++ (0x22 :: (n ++ (0x22 :: (pc ++ (0x3A :: (qc ++ (v.text ++ (post ++ tl.text)))))))))
end

/-- What may stand in front of a closing bracket: whitespace, and if `tc` (an extension of the RFC) one comma. -/
def IsTail (tc : Bool) (w : Bytes) : Prop :=
  IsWs w ∨ (tc = true ∧ ∃ w₁ w₂, IsWs w₁ ∧ IsWs w₂ ∧ w = w₁ ++ 0x2C :: w₂)

mutual
/-- All pieces are as the RFC requires, except that with `tc` a comma may stand in front of a closing
bracket. -/
def JVal.WFt (tc : Bool) : JVal → Prop
  | .null => True
  | .tru => True
  | .fls => True
  | .num t => IsNumber t
  | .str b => IsStrBody b
  | .arr w es => IsTail tc w ∧ es.WFt tc
  | .obj w ms => IsTail tc w ∧ ms.WFt tc
/-- Well-formed elements. -/
def JElems.WFt (tc : Bool) : JElems → Prop
  | .nil => True
  | .cons pre v post tl => IsWs pre ∧ v.WFt tc ∧ IsWs post ∧ tl.WFt tc
/-- Well-formed members. -/
def JMems.WFt (tc : Bool) : JMems → Prop
  | .nil => True
  | .cons pre n pc qc v post tl =>
      IsWs pre ∧ IsStrBody n ∧ IsWs pc ∧ IsWs qc ∧ v.WFt tc ∧ IsWs post ∧ tl.WFt tc
end

/-- All pieces are as the RFC requires. -/
abbrev JVal.WF (v : JVal) : Prop := v.WFt false

mutual
/-- Nesting depth of containers: 0 for scalars. -/
def JVal.depth : JVal → Nat
  | .null => 0
  | .tru => 0
  | .fls => 0
  | .num _ => 0
  | .str _ => 0
  | .arr _ es => es.depth + 1
  | .obj _ ms => ms.depth + 1
/-- Maximum depth of the elements. -/
def JElems.depth : JElems → Nat
  | .nil => 0
  | .cons _ v _ tl => max v.depth tl.depth
/-- Maximum depth of the members' values. -/
def JMems.depth : JMems → Nat
  | .nil => 0
  | .cons _ _ _ _ v _ tl => max v.depth tl.depth
end

/-- Number of elements. -/
def JElems.length : JElems → Nat
  | .nil => 0
  | .cons _ _ _ tl => tl.length + 1

/-- Number of members. -/
def JMems.length : JMems → Nat
  | .nil => 0
  | .cons _ _ _ _ _ _ tl => tl.length + 1

/-- A byte list is well-formed JSON: one value, surrounded by whitespace. -/
def IsJson (bs : Bytes) : Prop :=
  ∃ v w₁ w₂, JVal.WF v ∧ IsWs w₁ ∧ IsWs w₂ ∧ bs = w₁ ++ (v.text ++ w₂)

end Verif.Spec

namespace Verif.Spec

/-- `c` is what may follow a value inside a document: whitespace, then the end of the text or one of
`,`, `]`, `}`. -/
def AfterValue (c : Verif.Bytes) : Prop :=
  ∃ w t, IsWs w ∧ c = w ++ t ∧ (t = [] ∨ ∃ x t', t = x :: t' ∧ (x = 0x2C ∨ x = 0x5D ∨ x = 0x7D))

/-- The text without its leading JSON whitespace. -/
def dropWs : Verif.Bytes → Verif.Bytes
  | [] => []
  | c :: cs => if c = 0x20 ∨ c = 0x09 ∨ c = 0x0A ∨ c = 0x0D then dropWs cs else c :: cs

/-- `true`, `false` and `null`. -/
def JVal.isLiteral : JVal → Bool
  | .null => true
  | .tru => true
  | .fls => true
  | _ => false

/-- The text of a skipped value that is handed to the caller: the exact text, except that a string loses its
quotes unless they are kept, and `null` is reported as an empty range. -/
def rangeText (keepQuotes : Bool) : JVal → Verif.Bytes
  | .null => []
  | .str b => if keepQuotes then 0x22 :: (b ++ [0x22]) else b
  | v => v.text

/-- The number reported with a skipped value that is not a string: 1 for `true`, the number of elements or
members after the first for a container (plus a comma in front of the closing bracket, which a well-formed value
does not have), 0 otherwise. -/
def rangeCounter : JVal → Nat
  | .tru => 1
  | .arr w .nil => w.count 0x2C
  | .obj w .nil => w.count 0x2C
  | .arr w (.cons _ _ _ tl) => tl.length + w.count 0x2C
  | .obj w (.cons _ _ _ _ _ _ tl) => tl.length + w.count 0x2C
  | _ => 0

end Verif.Spec
