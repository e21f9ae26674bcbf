import Verif.Spec.Bounds

/-!
# Types that are stored without names
-/

namespace Verif.Spec

/-- Types made of scalars, strings, optionals, arrays, maps, text, custom strings, literals in quotes (those in `lit`) and the types in `S`. -/
def NameFree (lit : LitTy → Prop) (S : Nat → Prop) : Ty → Prop
  | .bool | .int _ _ | .str _ => True
  | .opt t | .arr t | .map t => NameFree lit S t
  | .txt (.rawStr _) | .txt (.custom .str) => True
  | .txt (.quoted _ l) => lit l
  | .txt _ => False
  | .ref i => S i

/-- The types in `S` are tuples, classes stored as arrays (without indices) and variants chosen by the kind of value, of such types.  They may
contain themselves; as in every C++ type, the alternatives of a variant lead back to it only through an array, map, tuple or class (`rk`, `R`). -/
def NameFreeEnv (lit : LitTy → Prop) (S : Nat → Prop) (rk : Nat → Nat) (R : Nat) (Δ : Env) : Prop :=
  ∀ i, S i → rk i ≤ R ∧ match Δ i with
    | .tup ts _ => ∀ t ∈ ts, NameFree lit S t ∧ RankOk rk R t
    | .ord ms _ => ∀ m ∈ ms, m.1 = none ∧ NameFree lit S m.2 ∧ RankOk rk R m.2
    | .var alts => ∀ t ∈ alts, NameFree lit S t ∧ TyRank rk t < rk i ∧ RankOk rk R t
    | _ => False

/-- A literal that is not an unsigned number. -/
def NotUnsigned : LitTy → Prop
  | .bool => True
  | .int t _ => t.signed = true

end Verif.Spec
