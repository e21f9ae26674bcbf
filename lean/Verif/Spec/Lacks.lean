import Verif.Spec.Typed
import Verif.Spec.Ascii

/-!
# What a document lacks

`Lacks T doc n`: the first thing wrong with the document, in the order in which it is read as `T`, is a class without its required member `n`.
-/

namespace Verif.Spec

mutual
/-- `Lacks Δ nm ea T doc n`: read as type `T`, the document has a class without the required member `n`, and all that is read before is right.
`nm`, `ea` as for `Reads`. -/
inductive Lacks (Δ : Env) (nm : List Bytes → Bytes → Prop) (ea : Bool) : Ty → JVal → Bytes → Prop
  /-- The class has the members mapped in front of `m`, but not `m`. -/
  | here {i ex w jm vs a m b} : Δ i = .obj (a ++ m :: b) ex → (∀ n ∈ jm.names, nm ((a ++ m :: b).map Member.name) n) →
      (∀ m' ∈ a ++ m :: b, jm.names.count m'.name ≤ 1) →
      ((ex || ea) = true → ∀ n ∈ jm.names, ∃ m' ∈ a ++ m :: b, m'.name = n) →
      ReadsMembers Δ nm ea a jm vs → jm.get? m.name = none → m.ty.isOpt = false → Lacks Δ nm ea (.ref i) (.obj w jm) m.name
  /-- The class has the members mapped in front of `m`; the value of `m` lacks one. -/
  | inside {i ex w jm vs a m b d n} : Δ i = .obj (a ++ m :: b) ex → (∀ n ∈ jm.names, nm ((a ++ m :: b).map Member.name) n) →
      (∀ m' ∈ a ++ m :: b, jm.names.count m'.name ≤ 1) →
      ((ex || ea) = true → ∀ n ∈ jm.names, ∃ m' ∈ a ++ m :: b, m'.name = n) →
      ReadsMembers Δ nm ea a jm vs → jm.get? m.name = some d → Lacks Δ nm ea m.ty d n → Lacks Δ nm ea (.ref i) (.obj w jm) n
  | some {t d n} : Lacks Δ nm ea t d n → Lacks Δ nm ea (.opt t) d n
  | arr {t w es n} : LacksElems Δ nm ea t es n → Lacks Δ nm ea (.arr t) (.arr w es) n
  | map {t w ms n} : LacksPairs Δ nm ea t ms n → Lacks Δ nm ea (.map t) (.obj w ms) n
  | var {i alts ty d n} {k : Nat} : Δ i = .var alts → alts[k]? = .some ty → Lacks Δ nm ea ty d n → Lacks Δ nm ea (.ref i) d n
  /-- The tag of a variant is missing. -/
  | tag {i tag sw alts w jm} : Δ i = .ivar tag sw alts → (∀ n ∈ jm.names, nm [tag.name] n) →
      (ea = true → ∀ n ∈ jm.names, n = tag.name) → jm.get? tag.name = none → tag.ty.isOpt = false → Lacks Δ nm ea (.ref i) (.obj w jm) tag.name
  /-- The alternative that the tag tells lacks a member. -/
  | ivar {i tag sw alts ty w jm x n} : Δ i = .ivar tag sw alts → (∀ n ∈ jm.names, nm [tag.name] n) →
      jm.names.count tag.name ≤ 1 → (ea = true → ∀ n ∈ jm.names, n = tag.name) →
      ReadsMembers Δ nm ea [tag] jm [x] → alts[sw x]? = .some ty → Lacks Δ nm ea ty (.obj w jm) n → Lacks Δ nm ea (.ref i) (.obj w jm) n
  | tup {i ts ex w es n} : Δ i = .tup ts ex → LacksTuple Δ nm ea ts es n → Lacks Δ nm ea (.ref i) (.arr w es) n
  | ord {i ms ex w es n} : Δ i = .ord ms ex → LacksOrdered Δ nm ea 0 ms es n → Lacks Δ nm ea (.ref i) (.arr w es) n
/-- An element of the array does, the ones in front of it are right. -/
inductive LacksElems (Δ : Env) (nm : List Bytes → Bytes → Prop) (ea : Bool) : Ty → JElems → Bytes → Prop
  | first {t pre d post tl n} : Lacks Δ nm ea t d n → LacksElems Δ nm ea t (.cons pre d post tl) n
  | next {t pre d post tl v n} : Reads Δ nm ea t d v → LacksElems Δ nm ea t tl n → LacksElems Δ nm ea t (.cons pre d post tl) n
/-- A value of the map does, the pairs in front of it are right. -/
inductive LacksPairs (Δ : Env) (nm : List Bytes → Bytes → Prop) (ea : Bool) : Ty → JMems → Bytes → Prop
  | first {t pre k pc qc d post tl u n} : Unesc k u → Lacks Δ nm ea t d n → LacksPairs Δ nm ea t (.cons pre k pc qc d post tl) n
  | next {t pre k pc qc d post tl u v n} : Unesc k u → Reads Δ nm ea t d v → LacksPairs Δ nm ea t tl n →
      LacksPairs Δ nm ea t (.cons pre k pc qc d post tl) n
/-- A component of the tuple does, the ones in front of it are right. -/
inductive LacksTuple (Δ : Env) (nm : List Bytes → Bytes → Prop) (ea : Bool) : List Ty → JElems → Bytes → Prop
  | first {t ts pre d post tl n} : Lacks Δ nm ea t d n → LacksTuple Δ nm ea (t :: ts) (.cons pre d post tl) n
  | next {t ts pre d post tl v n} : Reads Δ nm ea t d v → LacksTuple Δ nm ea ts tl n → LacksTuple Δ nm ea (t :: ts) (.cons pre d post tl) n
/-- A class stored in an array, `idx` as for `ReadsOrdered`: a member does, or there is no element for a member that is not nullable; the members in front of it
are right.  Members of such a class have no names. -/
inductive LacksOrdered (Δ : Env) (nm : List Bytes → Bytes → Prop) (ea : Bool) : Nat → List (Option Nat × Ty) → JElems → Bytes → Prop
  | skip {idx want ty ms pre d post tl n} : idx < want → LacksOrdered Δ nm ea (idx + 1) ((some want, ty) :: ms) tl n →
      LacksOrdered Δ nm ea idx ((some want, ty) :: ms) (.cons pre d post tl) n
  | first {idx want ty ms pre d post tl n} : (want = none ∨ want = some idx) → Lacks Δ nm ea ty d n →
      LacksOrdered Δ nm ea idx ((want, ty) :: ms) (.cons pre d post tl) n
  | next {idx want ty ms pre d post tl v n} : (want = none ∨ want = some idx) → Reads Δ nm ea ty d v → LacksOrdered Δ nm ea (idx + 1) ms tl n →
      LacksOrdered Δ nm ea idx ((want, ty) :: ms) (.cons pre d post tl) n
  | gone {idx want ty ms n} : (∀ w, want = some w → idx ≤ w) → ty.isOpt = true → LacksOrdered Δ nm ea ((want.getD idx) + 1) ms .nil n →
      LacksOrdered Δ nm ea idx ((want, ty) :: ms) .nil n
  | absent {idx want ty ms} : (∀ w, want = some w → idx ≤ w) → ty.isOpt = false →
      LacksOrdered Δ nm ea idx ((want, ty) :: ms) .nil asc! "ordered_class_member"
end

end Verif.Spec
