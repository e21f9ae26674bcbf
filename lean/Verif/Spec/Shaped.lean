import Verif.Spec.Typed

/-!
# When a JSON document fits a type

`Shaped Δ nm ea T doc`: the document has the kinds of values the type asks for, at every depth.  Unlike `Reads` it says nothing about
the value that is read.  Written from the English; the parser is not mentioned.
-/

namespace Verif.Spec

/-- Every name of the object may occur in an object read as a class with these members, and no mapped name occurs twice. -/
def NamesClear (nm : List Bytes → Bytes → Prop) (ms : List Member) (jm : JMems) : Prop :=
  (∀ n ∈ jm.names, nm (ms.map Member.name) n) ∧ ∀ m ∈ ms, jm.names.count m.name ≤ 1

/-- The mapped members of the object come in the order of the class, and none is left out before another one. -/
def InOrder (ms : List Member) (jm : JMems) : Prop :=
  (jm.mapped (ms.map Member.name)).map Prod.fst <+: ms.map Member.name

/-- The type of a string, or one that takes the text of the value. -/
def TextTy : Ty → Prop
  | .str _ | .txt _ => True
  | _ => False

mutual
/-- The document fits the type.
`nm N n`: the name `n` may occur in an object read as a class with mapped names `N`;
`ea`: unmapped members are errors for every class. -/
inductive Shaped (Δ : Env) (nm : List Bytes → Bytes → Prop) (ea : Bool) : Ty → JVal → Prop
  | tru : Shaped Δ nm ea .bool .tru
  | fls : Shaped Δ nm ea .bool .fls
  /-- An integer has neither fraction nor exponent, and a sign only if the type is signed. -/
  | int {t rc m i} : (m = [] ∨ m = [0x2D] ∧ t.signed = true) → IsInt i → Shaped Δ nm ea (.int t rc) (.num (m ++ i))
  | str {ah b} : Shaped Δ nm ea (.str ah) (.str b)
  /-- Raw strings, dates, custom types stored as strings. -/
  | txtStr {k b} : k.kind = some .string → Shaped Δ nm ea (.txt k) (.str b)
  | customLit {d} : d.IsLit → Shaped Δ nm ea (.txt (.custom .lit)) d
  | customAny {d} : (d.IsLit ∨ ∃ b, d = .str b) → Shaped Δ nm ea (.txt (.custom .any)) d
  | raw {d} : Shaped Δ nm ea (.txt .raw) d
  | real {dbl fmt x} : Shaped Δ nm ea (.txt (.real dbl fmt)) (.num x)
  | quoted {l b} : Shaped Δ nm ea (.txt (.quoted true l)) (.str b)
  | null {t} : Shaped Δ nm ea (.opt t) .null
  | some {t d} : d ≠ .null → Shaped Δ nm ea t d → Shaped Δ nm ea (.opt t) d
  | arr {t w es} : (∀ d ∈ es.toList, Shaped Δ nm ea t d) → Shaped Δ nm ea (.arr t) (.arr w es)
  | map {t w ms} : (∀ p ∈ ms.toList, Shaped Δ nm ea t p.2) → Shaped Δ nm ea (.map t) (.obj w ms)
  | obj {i ms ex w jm} : Δ i = .obj ms ex → ShapedObj Δ nm ea ms (ex || ea) jm → Shaped Δ nm ea (.ref i) (.obj w jm)
  /-- A tuple of which all elements must be mapped: elements that are not there are nullable. -/
  | tup {i ts ex w es} : Δ i = .tup ts ex → es.toList.length ≤ ts.length →
      (∀ (p : Nat) ty d, ts[p]? = .some ty → es.toList[p]? = .some d → Shaped Δ nm ea ty d) →
      (∀ (p : Nat) ty, ts[p]? = .some ty → es.toList.length ≤ p → ty.isOpt = true) → Shaped Δ nm ea (.ref i) (.arr w es)
  | var {i alts ty d} : Δ i = .var alts → ty ∈ alts → d ≠ .null → Shaped Δ nm ea ty d → Shaped Δ nm ea (.ref i) d
  | ivar {i tag sw alts ty w jm} : Δ i = .ivar tag sw alts → ShapedObj Δ nm ea [tag] ea jm → ty ∈ alts →
      Shaped Δ nm ea ty (.obj w jm) → Shaped Δ nm ea (.ref i) (.obj w jm)
/-- The object fits the mapped members, if its names are clear: members that are missing are nullable; if all members must be mapped
they are; the values of mapped members fit their types, strictly if the members are in order. -/
inductive ShapedObj (Δ : Env) (nm : List Bytes → Bytes → Prop) (ea : Bool) : List Member → Bool → JMems → Prop
  | mk {ms exact jm} : (NamesClear nm ms jm → ∀ m ∈ ms, jm.get? m.name = .none → m.ty.isOpt = true) →
      (NamesClear nm ms jm → exact = true → ∀ n ∈ jm.names, ∃ m ∈ ms, m.name = n) →
      (NamesClear nm ms jm → ∀ m ∈ ms, ∀ d, jm.get? m.name = .some d → Loose Δ nm ea m.ty d) →
      (NamesClear nm ms jm → InOrder ms jm → ∀ m ∈ ms, ∀ d, jm.get? m.name = .some d → Shaped Δ nm ea m.ty d) →
      ShapedObj Δ nm ea ms exact jm
/-- What can be said about the value of a member that is out of order: it fits the type, or it is a string, or the type is that of
text, or it is a number, perhaps with fraction or exponent, where an integer is asked for. -/
inductive Loose (Δ : Env) (nm : List Bytes → Bytes → Prop) (ea : Bool) : Ty → JVal → Prop
  | string {ty b} : Loose Δ nm ea ty (.str b)
  | text {ty d} : TextTy ty → Loose Δ nm ea ty d
  | number {t rc x} : Loose Δ nm ea (.int t rc) (.num x)
  | opt {t d} : Loose Δ nm ea t d → Loose Δ nm ea (.opt t) d
  | var {i alts ty d} : Δ i = .var alts → ty ∈ alts → Loose Δ nm ea ty d → Loose Δ nm ea (.ref i) d
  | shaped {ty d} : Shaped Δ nm ea ty d → Loose Δ nm ea ty d
end

/-- No part of the type is a boolean or integer that may be a string or not. -/
def _root_.Verif.Ty.strict : Ty → Bool
  | .txt (.quoted false _) => false
  | .opt t | .arr t | .map t => t.strict
  | _ => true

/-- The same for a class, tuple or variant. -/
def _root_.Verif.Shape.strict : Shape → Bool
  | .obj ms _ => ms.all fun m => m.ty.strict
  | .ord ms _ => ms.all fun m => m.2.strict
  | .tup ts _ | .var ts => ts.all fun t => t.strict
  | .ivar tag _ alts => tag.ty.strict && alts.all fun t => t.strict

/-- No classes stored in arrays, all elements of tuples must be mapped, and booleans and integers are not both with and without quotes. -/
def PlainShapes (Δ : Env) (ea : Bool) : Prop :=
  (∀ i ms ex, Δ i ≠ .ord ms ex) ∧ (∀ i ts ex, Δ i = .tup ts ex → (ex || ea) = true) ∧ ∀ i, (Δ i).strict = true

end Verif.Spec
