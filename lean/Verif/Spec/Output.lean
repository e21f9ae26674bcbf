import Verif.Model.Output

/-!
# Outputs: specification

What the calls on an output amount to: a text.
-/

namespace Verif.Spec

/-- The text of one call. -/
def opText : OutOp → Bytes
  | .write ps => ps.flatten
  | .put c => [c]

/-- The text of a sequence of calls. -/
def opsText : List OutOp → Bytes
  | [] => []
  | op :: ops => opText op ++ opsText ops

mutual
/-- Text that is written as it is (raw strings, custom types, raw JSON) is ASCII wherever it occurs in the value. -/
def _root_.Verif.Val.AsciiText : Val → Prop
  | .txt s => ∀ c ∈ s, c.toNat < 0x80
  | .some v => v.AsciiText
  | .alt _ v => v.AsciiText
  | .arr vs => AsciiTexts vs
  | .cls vs => AsciiTexts vs
  | .map kvs => AsciiTextPairs kvs
  | _ => True
/-- `AsciiText` for every value of a list. -/
def AsciiTexts : List Val → Prop
  | [] => True
  | v :: vs => v.AsciiText ∧ AsciiTexts vs
/-- `AsciiText` for every value of a list of pairs. -/
def AsciiTextPairs : List (Bytes × Val) → Prop
  | [] => True
  | (_, v) :: kvs => v.AsciiText ∧ AsciiTextPairs kvs
end

end Verif.Spec
