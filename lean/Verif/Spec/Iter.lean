import Verif.Spec.Typed

/-!
# Specification: iteration over arrays and JSON lines

Independent of the iterators: documents that are sequences of values, and which elements the library can move over
without parsing them.
-/

namespace Verif.Spec

/-- A text with the given values in it, with whitespace in front, between and behind. -/
inductive LinesDoc : List JVal → Bytes → Prop
  | nil {w} : IsWs w → LinesDoc [] w
  | cons {w d ds rest} : IsWs w → LinesDoc ds rest → (rest = [] ∨ ∃ c cs, rest = c :: cs ∧ IsWs [c]) →
      LinesDoc (d :: ds) (w ++ (d.text ++ rest))

/-- Elements that can be passed without having been dereferenced: not booleans, not nullable values unless they are
numbers, not classes stored in arrays, not custom types unless they are strings, not quoted booleans and integers.  (A boolean held by a variant or as raw JSON can be passed too, but is left out here.) -/
def Passable (Δ : Env) : Ty → JVal → Prop
  | .bool, _ => False
  | .opt _, d => ∃ txt, d = .num txt
  | .txt (.custom _), d => ∃ b, d = .str b
  | .txt (.quoted ..), d => ∃ txt, d = .num txt
  | .txt .raw, d => d ≠ .tru ∧ d ≠ .fls
  | .ref i, d => (∀ ms ex, Δ i ≠ .ord ms ex) ∧ ∀ alts, Δ i = .var alts → d ≠ .tru ∧ d ≠ .fls
  | _, _ => True

/-- Elements that can stand in front of others in a JSON lines document: strings, arrays, objects and unsigned
integers; not quoted booleans and integers. -/
def LineElem (ty : Ty) (d : JVal) (v : Val) : Prop := d.ends v = true ∨ ∃ t rc, ty = .int t rc ∧ t.signed = false

/-- The whitespace behind the last element. -/
def JElems.lastPost : JElems → Bytes
  | .nil => []
  | .cons _ _ post .nil => post
  | .cons _ _ _ tl => tl.lastPost

end Verif.Spec
