import Verif.Model.Value

/-!
# `json_apply`, and `from_json_array` with a path

Models `daw_json_apply.h` and the overload of `from_json_array` in `daw_from_json.h` that takes a path.
-/

namespace Verif

/-- The components of a tuple.  A tuple is never anything else. -/
def Val.components : Val → List Val
  | .cls vs => vs
  | _ => []

/-- `json_apply_impl`, `daw_json_apply.h` L31-51, behind all overloads of `json_apply`, L65-142: `sig` are the types of the parameters of
the callable, `tup` is the number of the mapping of `std::tuple<Args...>`, `from` is `from_json<T>( params... )` for the document and the
path and flags, if any.  A callable with one parameter takes the document itself.  (Simplification: the callable is a function; what it
throws is not modelled.) -/
def jsonApply {α : Type} (sig : List Ty) (tup : Nat) (from_ : Ty → Res Val) (callable : List Val → α) : Res α :=
  match sig with
  | [ty] => do
    let v ← from_ ty
    .ok (callable [v])
  | _ => do
    let v ← from_ (.ref tup)
    .ok (callable v.components)

/-- `from_json_array<Element>( doc, path )` on non-null pointers, `daw_from_json.h` L588-656. -/
def fromJsonArrayPath (t : TCfg) (Δ : Env) (fuel : Nat) (ty : Ty) (path : Bytes) (bs : Bytes) : Res Val := do
  ensure (!bs.isEmpty) .emptyJSONDocument
  let jv ← jvMake t.cfg (if bs.getLast? = some 0 then bs.dropLast else bs)
  let jv ← jvFind t jv path
  let k ← jvType t.cfg jv
  ensure (k != .none) .jsonPathNotFound
  let b ← trimUnchecked jv
  assertWeak t.cfg.checked (headIs (· == chLBrack) b) .invalidArrayStart
  let (v, r) ← parseArr t.cfg (parseU t Δ fuel ty) b
  if t.verifyEnd then do
    let r ← trim t.cfg r
    ensure r.isEmpty .invalidEndOfValue
    .ok v
  else .ok v

end Verif
