import Verif.Spec.Json

/-!
# Documents without whitespace between tokens

Nothing here mentions the parser or the writer.
-/

namespace Verif.Spec

open Verif

mutual
/-- There is nothing between the tokens. -/
def JVal.NoGaps : JVal → Prop
  | .arr w es => w = [] ∧ es.NoGaps
  | .obj w ms => w = [] ∧ ms.NoGaps
  | _ => True
/-- The same for elements. -/
def JElems.NoGaps : JElems → Prop
  | .nil => True
  | .cons pre v post tl => pre = [] ∧ v.NoGaps ∧ post = [] ∧ tl.NoGaps
/-- The same for members. -/
def JMems.NoGaps : JMems → Prop
  | .nil => True
  | .cons pre _ pc qc v post tl => pre = [] ∧ pc = [] ∧ qc = [] ∧ v.NoGaps ∧ post = [] ∧ tl.NoGaps
end

/-- The text is not that of a document with something between the tokens. -/
def MinText (s : Bytes) : Prop := ∀ d : JVal, d.WF → d.text = s → d.NoGaps

end Verif.Spec
