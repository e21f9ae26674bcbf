import Verif.Model.Typed

/-!
# Where a parse of a `std::string_view` may look behind its end

Descriptions of types and texts for the properties about reads outside of the buffer.
-/

namespace Verif.Spec

open Verif

/-- The last byte of the text that is not whitespace is `c`.  (Whitespace is what the parser skips.) -/
def EndsIn (c : UInt8) (s : Bytes) : Prop := ∃ p w, s = p ++ c :: w ∧ ∀ x ∈ w, isSpace x = true

/-- A string, perhaps optional. -/
def IsStrTy : Ty → Prop
  | .str _ => True
  | .opt t => IsStrTy t
  | _ => False

/-- No optional member is listed before a string member. -/
def StringsFirst : List Member → Prop
  | [] => True
  | m :: ms => (m.ty.isOpt = true → ∀ x ∈ ms, ¬ IsStrTy x.ty) ∧ StringsFirst ms

/-- Which kinds of types occur: arrays, types that look at the first byte of the value to see what it is, classes stored in arrays
that look for the closing bracket. -/
structure Kinds where
  arrays : Bool
  peeking : Bool
  closing : Bool

/-- Only arrays, `json_custom` of any kind etc. if the kinds allow for it, and neither dates nor reals. -/
def TyWithin (k : Kinds) : Ty → Prop
  | .txt .date | .txt (.real ..) => False
  | .arr t => k.arrays = true ∧ TyWithin k t
  | .txt (.custom .any) => k.peeking = true
  | .opt t | .map t => TyWithin k t
  | _ => True

/-- The same for a mapped class; in addition no optional member is listed before a string member. -/
def ShapeWithin (k : Kinds) (exactAll : Bool) : Shape → Prop
  | .obj ms _ => StringsFirst ms ∧ ∀ m ∈ ms, TyWithin k m.ty
  | .tup ts ex => ((ex || exactAll) = true → k.closing = true) ∧ ∀ t ∈ ts, TyWithin k t
  | .ord ms _ => k.closing = true ∧ ∀ m ∈ ms, TyWithin k m.2
  | .var alts => k.peeking = true ∧ ∀ t ∈ alts, TyWithin k t
  | .ivar tag _ alts => TyWithin k tag.ty ∧ ∀ t ∈ alts, TyWithin k t

/-- How many types are passed before text is consumed: optionals count, and variants as `rk` says. -/
def TyRank (rk : Nat → Nat) : Ty → Nat
  | .opt t => TyRank rk t + 1
  | .ref i => rk i
  | _ => 0

/-- The type and the types its arrays and maps contain pass at most `R` types before text is consumed. -/
def RankOk (rk : Nat → Nat) (R : Nat) : Ty → Prop
  | .opt t => TyRank rk t < R ∧ RankOk rk R t
  | .arr t | .map t => RankOk rk R t
  | .ref i => rk i ≤ R
  | _ => True

instance RankOk.decide (rk : Nat → Nat) (R : Nat) : (ty : Ty) → Decidable (RankOk rk R ty)
  | .opt t => @instDecidableAnd _ _ _ (RankOk.decide rk R t)
  | .arr t | .map t => RankOk.decide rk R t
  | .ref i => inferInstanceAs (Decidable (rk i ≤ R))
  | .bool | .int _ _ | .str _ | .txt _ => .isTrue trivial

theorem RankOk.le {rk : Nat → Nat} {R : Nat} {ty : Ty} (h : RankOk rk R ty) : TyRank rk ty ≤ R := by
  cases ty <;> simp only [RankOk, TyRank] at * <;> omega

/-- The alternatives of a variant do not lead back to it except through an array, map or class (no C++ type does), and the number of types
passed without consuming text is bounded. -/
def Ranked (rk : Nat → Nat) (R : Nat) (Δ : Env) : Prop :=
  ∀ i, rk i ≤ R ∧ match Δ i with
    | .obj ms _ => ∀ m ∈ ms, RankOk rk R m.ty
    | .tup ts _ => ∀ t ∈ ts, RankOk rk R t
    | .ord ms _ => ∀ m ∈ ms, RankOk rk R m.2
    | .var alts => ∀ t ∈ alts, TyRank rk t < rk i ∧ RankOk rk R t
    | .ivar tag _ alts => RankOk rk R tag.ty ∧ ∀ t ∈ alts, TyRank rk t < rk i ∧ RankOk rk R t

end Verif.Spec
