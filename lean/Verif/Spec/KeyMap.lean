import Verif.Spec.Write
import Verif.Spec.Shaped

/-!
# Maps with keys that are not strings: what they mean
-/

namespace Verif.Spec

open Verif

/-- Types whose values are stored as strings. -/
inductive KeyTy : Ty → Prop
  | str {ah} : KeyTy (.str ah)
  | rawStr {ah} : KeyTy (.txt (.rawStr ah))
  | date : KeyTy (.txt .date)
  | custom : KeyTy (.txt (.custom .str))
  | quoted {l} : KeyTy (.txt (.quoted true l))

/-- The pairs, in document order: each name is the string that a key is stored as. -/
inductive ReadsKeyed (Δ : Env) (nm : List Bytes → Bytes → Prop) (ea : Bool) (kt ty : Ty) : JMems → List (Val × Val) → Prop
  | nil : ReadsKeyed Δ nm ea kt ty .nil []
  | cons {pre n pc qc d post tl k v kvs} : Reads Δ nm ea kt (.str n) k → Reads Δ nm ea ty d v → ReadsKeyed Δ nm ea kt ty tl kvs →
      ReadsKeyed Δ nm ea kt ty (.cons pre n pc qc d post tl) ((k, v) :: kvs)

/-- Keys and values are of their types. -/
def HasKeyed (Δ : Env) (P T : Bytes → Prop) (kt ty : Ty) (kvs : List (Val × Val)) : Prop :=
  ∀ p ∈ kvs, HasTy Δ P T kt p.1 ∧ HasTy Δ P T ty p.2

/-- What a name that is taken for a boolean or an integer looks like: `true` or `false`; digits, in front of them a minus sign if the
type is signed. -/
def KeyText : LitTy → Bytes → Prop
  | .bool, n => n = [0x74, 0x72, 0x75, 0x65] ∨ n = [0x66, 0x61, 0x6C, 0x73, 0x65]
  | .int t _, n => ∃ ds : Bytes, (∀ c ∈ ds, IsDig c) ∧ (n = ds ∧ ds ≠ [] ∨ t.signed = true ∧ n = 0x2D :: ds)

end Verif.Spec
