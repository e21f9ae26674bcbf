import Verif.Spec.Schema
import Verif.Spec.Value
import Verif.Model.Schema

/-!
# Conditions on types for their schemas

Of `Verif.Model.Schema` only the descriptions of types (`STy`) are used.
-/

namespace Verif

open Spec

mutual
/-- All names of members satisfy `P`. -/
def STy.NamesOk (P : Bytes → Prop) : STy → Prop
  | .null t | .arr t | .kv t => t.NamesOk P
  | .tup ts | .variant ts | .ord ts => ts.NamesOk P
  | .obj ms => ms.NamesOk P
  | _ => True
/-- All names in the types. -/
def STys.NamesOk (P : Bytes → Prop) : STys → Prop
  | .nil => True
  | .cons t tl => t.NamesOk P ∧ tl.NamesOk P
/-- All names of the members, of the members they depend on, and in their types. -/
def SMems.NamesOk (P : Bytes → Prop) : SMems → Prop
  | .nil => True
  | .cons name dep t tl => P name ∧ (∀ d, dep = some d → P d) ∧ t.NamesOk P ∧ tl.NamesOk P
end

/-- A class without members, or a nullable one. -/
def STy.isEmptyClass : STy → Bool
  | .null t => t.isEmptyClass
  | .obj ms => ms.isNil
  | .ord ts => ts.isNil
  | _ => false

/-- The names of the members. -/
def SMems.names : SMems → List Bytes
  | .nil => []
  | .cons name _ _ tl => name :: tl.names

mutual
/-- Types that can be described in draft `D` by what the writer uses: the names of a class are different from each other;
tuples and classes stored in arrays need a draft with `items` for each position; tuples and variants are not empty. -/
def STy.Sound (D : Draft) : STy → Prop
  | .null t | .arr t | .kv t => t.Sound D
  | .tup ts => D = .upTo2019 ∧ ts.isNil = false ∧ ts.Sound D
  | .variant ts => ts.isNil = false ∧ ts.Sound D
  | .ord ts => (ts.isNil = false → D = .upTo2019) ∧ ts.Sound D
  | .obj ms => ms.names.Nodup ∧ ms.Sound D
  | _ => True
/-- All types are. -/
def STys.Sound (D : Draft) : STys → Prop
  | .nil => True
  | .cons t tl => t.Sound D ∧ tl.Sound D
/-- The types of all members are. -/
def SMems.Sound (D : Draft) : SMems → Prop
  | .nil => True
  | .cons _ _ t tl => t.Sound D ∧ tl.Sound D
end

mutual
/-- The only nullable parts are members of classes stored in objects: the writer leaves these out when they are empty, it writes
`null` for all others. -/
def STy.NullsOmitted : STy → Prop
  | .null _ => False
  | .arr t | .kv t => t.NullsOmitted
  | .tup ts | .variant ts | .ord ts => ts.NullsOmitted
  | .obj ms => ms.NullsOmitted
  | _ => True
/-- Not allowed directly in any of the types. -/
def STys.NullsOmitted : STys → Prop
  | .nil => True
  | .cons t tl => t.NullsOmitted ∧ tl.NullsOmitted
/-- Allowed as the type of a member. -/
def SMems.NullsOmitted : SMems → Prop
  | .nil => True
  | .cons _ _ (.null t) tl => t.NullsOmitted ∧ tl.NullsOmitted
  | .cons _ _ t tl => t.NullsOmitted ∧ tl.NullsOmitted
end

end Verif

namespace Verif.Spec

mutual
/-- There is no `null` in the document. -/
def JVal.noNull : JVal → Prop
  | .null => False
  | .arr _ es => es.noNull
  | .obj _ ms => ms.noNull
  | _ => True
/-- No `null` in the elements. -/
def JElems.noNull : JElems → Prop
  | .nil => True
  | .cons _ v _ tl => v.noNull ∧ tl.noNull
/-- No `null` in the members. -/
def JMems.noNull : JMems → Prop
  | .nil => True
  | .cons _ _ _ _ v _ tl => v.noNull ∧ tl.noNull
end

/-- The names of mapped members are written without escapes. -/
def PlainMapped (Δ : Env) : Prop := ∀ i ms ex, Δ i = .obj ms ex → ∀ m ∈ ms, PlainName m.name

/-- Element by element. -/
def FitList (F : Ty → JVal → Prop) : List Ty → List JVal → Prop
  | [], [] => True
  | ty :: ts, e :: es => F ty e ∧ FitList F ts es
  | _, _ => False

/-- `FitWith R ty d`: the parts of `d` that are of the kind the type asks for have values the C++ type can represent; nothing is
said about parts of another kind, and nothing about members that are missing.  `R i` says the same for class `i`. -/
def FitWith (R : Nat → JVal → Prop) : Ty → JVal → Prop
  | .int t _, .num x => t.Valid ∧ ∃ i, IsNumeral x i ∧ t.InRange i
  | .str _, .str b => ∃ s, Unesc b s
  | .txt k, .str b => ∃ v, ReadsTxt k (.str b) v
  | .txt (.real dbl fmt), .num x => ∃ v, ReadsTxt (.real dbl fmt) (.num x) v
  | .opt ty, d => FitWith R ty d
  | .arr ty, .arr _ es => ∀ e ∈ es.toList, FitWith R ty e
  | .map ty, .obj _ ms => ∀ p ∈ ms.toList, (∃ s, Unesc p.1 s) ∧ FitWith R ty p.2
  | .ref i, d => R i d
  | _, _ => True

/-- The same for class `i`, up to `f` nested classes.  For an object: the names in it are usable, no mapped name occurs twice, and
if all members must be mapped they are.  For an array: the number of elements is right.  A class without members has the right
kind of document. -/
def FitRef (Δ : Env) (nm : List Bytes → Bytes → Prop) (ea : Bool) : Nat → Nat → JVal → Prop
  | 0, _, _ => True
  | f + 1, i, d =>
    match Δ i with
    | .obj ms ex =>
      (ms = [] → ∃ w jm, d = .obj w jm) ∧
      ∀ w jm, d = .obj w jm → (∀ n ∈ jm.names, nm (ms.map Member.name) n) ∧ (∀ m ∈ ms, jm.names.count m.name ≤ 1) ∧
        ((ex || ea) = true → ∀ n ∈ jm.names, ∃ m ∈ ms, m.name = n) ∧
        ∀ m ∈ ms, ∀ e, jm.get? m.name = some e → FitWith (FitRef Δ nm ea f) m.ty e
    | .tup ts _ => ∀ w es, d = .arr w es → FitList (FitWith (FitRef Δ nm ea f)) ts es.toList
    | .ord ms _ =>
      (ms = [] → ∃ w es, d = .arr w es) ∧
      ∀ w es, d = .arr w es → FitList (FitWith (FitRef Δ nm ea f)) (ms.map Prod.snd) es.toList
    | _ => True

/-- The document has values the C++ type can represent where it is of the right kind. -/
def Fit (Δ : Env) (nm : List Bytes → Bytes → Prop) (ea : Bool) (f : Nat) (ty : Ty) (d : JVal) : Prop :=
  FitWith (FitRef Δ nm ea f) ty d

end Verif.Spec
