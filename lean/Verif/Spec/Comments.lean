import Verif.Spec.Json

/-!
# Comments between the tokens of a JSON text
-/

namespace Verif.Spec

open Verif

/-- A gap between tokens: whitespace and comments that go from `#` to the end of the line. -/
inductive HashGap : Bytes → Prop
  | nil : HashGap []
  | ws {c g} : isWsByte c → HashGap g → HashGap (c :: g)
  | comment {t g} : 0x0A ∉ t → HashGap g → HashGap (0x23 :: (t ++ 0x0A :: g))

/-- `*/` does not occur in the text. -/
def NoClose : Bytes → Prop
  | [] => True
  | [_] => True
  | c :: d :: cs => ¬ (c = 0x2A ∧ d = 0x2F) ∧ NoClose (d :: cs)

/-- A gap between tokens: whitespace, comments from `//` to the end of the line, and comments from `/*` to the first `*/`.  `B`
restricts the block comments: their text and what follows them in the gap. -/
inductive CppGapOf (B : Bytes → Bytes → Prop) : Bytes → Prop
  | nil : CppGapOf B []
  | ws {c g} : isWsByte c → CppGapOf B g → CppGapOf B (c :: g)
  | line {t g} : 0x0A ∉ t → CppGapOf B g → CppGapOf B (0x2F :: 0x2F :: (t ++ 0x0A :: g))
  | block {t g} : NoClose (t ++ [0x2A]) → B t g → CppGapOf B g → CppGapOf B (0x2F :: 0x2A :: (t ++ 0x2A :: 0x2F :: g))

/-- No restriction. -/
abbrev CppGap : Bytes → Prop := CppGapOf fun _ _ => True

/-- The number of stars at the end of a text. -/
def endStars (t : Bytes) : Nat := (t.reverse.takeWhile (· == 0x2A)).length

/-- The text of the comment does not end in an odd number of stars (the one of `*/` not counted). -/
abbrev EvenStars (t _g : Bytes) : Prop := endStars t % 2 = 0

/-- The comment has neither stars nor slashes in it and is followed by two bytes of whitespace. -/
abbrev SimpleBlock (t g : Bytes) : Prop := 0x2A ∉ t ∧ 0x2F ∉ t ∧ ∃ a b g', g = a :: b :: g' ∧ isWsByte a ∧ isWsByte b

mutual
/-- All pieces are as the RFC requires, with `G` saying what may stand between tokens. -/
def JVal.WFg (G : Bytes → Prop) : JVal → Prop
  | .null => True
  | .tru => True
  | .fls => True
  | .num t => IsNumber t
  | .str b => IsStrBody b
  | .arr w es => G w ∧ es.WFg G
  | .obj w ms => G w ∧ ms.WFg G
/-- Well-formed elements. -/
def JElems.WFg (G : Bytes → Prop) : JElems → Prop
  | .nil => True
  | .cons pre v post tl => G pre ∧ v.WFg G ∧ G post ∧ tl.WFg G
/-- Well-formed members. -/
def JMems.WFg (G : Bytes → Prop) : JMems → Prop
  | .nil => True
  | .cons pre n pc qc v post tl =>
      G pre ∧ IsStrBody n ∧ G pc ∧ G qc ∧ v.WFg G ∧ G post ∧ tl.WFg G
end

/-- What may follow a gap after a value: the end of the text or one of `,`, `]`, `}`. -/
def EndToken (t : Bytes) : Prop := t = [] ∨ ∃ x t', t = x :: t' ∧ (x = 0x2C ∨ x = 0x5D ∨ x = 0x7D)

/-- The number of elements or members after the first. -/
def extraElems : JVal → Nat
  | .arr _ (.cons _ _ _ tl) => tl.length
  | .obj _ (.cons _ _ _ _ _ _ tl) => tl.length
  | _ => 0

end Verif.Spec
