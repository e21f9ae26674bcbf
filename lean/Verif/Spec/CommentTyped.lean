import Verif.Spec.Typed
import Verif.Spec.Comments

/-!
# Documents with comments, for readers of typed values
-/

namespace Verif.Spec

open Verif

/-- Comments that go from `#` to the end of the line, one directly behind the other, then whitespace. -/
inductive HashLead : Bytes → Prop
  | ws {w} : IsWs w → HashLead w
  | comment {t g} : 0x0A ∉ t → HashLead g → HashLead (0x23 :: (t ++ 0x0A :: g))

/-- Comments from `//` to the end of the line and comments from `/*` to `*/`, one directly behind the other, then whitespace; `B` as in `CppGapOf`. -/
inductive CppLeadOf (B : Bytes → Bytes → Prop) : Bytes → Prop
  | ws {w} : IsWs w → CppLeadOf B w
  | line {t g} : 0x0A ∉ t → CppLeadOf B g → CppLeadOf B (0x2F :: 0x2F :: (t ++ 0x0A :: g))
  | block {t g} : NoClose (t ++ [0x2A]) → B t g → CppLeadOf B g → CppLeadOf B (0x2F :: 0x2A :: (t ++ 0x2A :: 0x2F :: g))

/-- Numbers and `null`: only whitespace or a punctuation character tells where they end. -/
def JVal.tight : JVal → Bool
  | .null | .num _ => true
  | _ => false

/-- What may stand behind the value `v`, up to the next comma or closing bracket: a gap, which behind a number or `null` must not start with a
comment. -/
def Behind (cc : UInt8) (G : Bytes → Prop) (v : JVal) (g : Bytes) : Prop := G g ∧ (v.tight = true → g.head? ≠ some cc)

mutual
/-- All pieces are as the RFC requires, with `G` saying what may stand between tokens, but comments do not touch the end of numbers and of `null`, and behind
`[` only gaps satisfying `L` are allowed.  `cc` is the byte that comments start with.  No comma is allowed in front of a closing bracket; what stands there is counted to the last element. -/
def JVal.WFc (cc : UInt8) (G L : Bytes → Prop) : JVal → Prop
  | .null => True
  | .tru => True
  | .fls => True
  | .num t => IsNumber t
  | .str b => IsStrBody b
  | .arr w .nil => L w
  | .arr w (.cons pre v post tl) => w = [] ∧ L pre ∧ v.WFc cc G L ∧ Behind cc G v post ∧ tl.WFc cc G L
  | .obj w .nil => G w
  | .obj w (.cons pre n pc qc v post tl) => w = [] ∧ G pre ∧ IsStrBody n ∧ G pc ∧ G qc ∧ v.WFc cc G L ∧ Behind cc G v post ∧ tl.WFc cc G L
/-- The same for elements. -/
def JElems.WFc (cc : UInt8) (G L : Bytes → Prop) : JElems → Prop
  | .nil => True
  | .cons pre v post tl => G pre ∧ v.WFc cc G L ∧ Behind cc G v post ∧ tl.WFc cc G L
/-- The same for members. -/
def JMems.WFc (cc : UInt8) (G L : Bytes → Prop) : JMems → Prop
  | .nil => True
  | .cons pre n pc qc v post tl => G pre ∧ IsStrBody n ∧ G pc ∧ G qc ∧ v.WFc cc G L ∧ Behind cc G v post ∧ tl.WFc cc G L
end

/-- No booleans or integers that are or may be strings. -/
def _root_.Verif.Ty.unquoted : Ty → Bool
  | .txt (.quoted ..) => false
  | .opt t => t.unquoted
  | .arr t => t.unquoted
  | .map t => t.unquoted
  | _ => true

/-- The same for what a class is made of. -/
def _root_.Verif.Shape.unquoted : Shape → Bool
  | .obj ms _ => ms.all fun m => m.ty.unquoted
  | .tup ts _ => ts.all Ty.unquoted
  | .ord ms _ => ms.all fun m => m.2.unquoted
  | .var alts => alts.all Ty.unquoted
  | .ivar tag _ alts => tag.ty.unquoted && alts.all Ty.unquoted

end Verif.Spec
