import Verif.Model.Write

/-!
# Classes mapped by `json_type_alias`

A class that is parsed and written as another type is.  The constructed value is taken to be the value it is constructed from.
-/

namespace Verif

/-- `parse_value_class<JsonMember, false>`, `daw_json_parse_value.h` L583-611, with `json_type_alias::parse_to_class`, `daw_json_link_types.h` L177-196; `p` parses the
aliased type. -/
def aliasU (t : TCfg) (p : Bytes → Res (Val × Bytes)) (bs : Bytes) : Res (Val × Bytes) := do
  assertWeak t.cfg.checked (!bs.isEmpty) .unexpectedEndOfData
  let (v, r) ← p bs
  .ok (v, trimChecked r)

/-- The same with known bounds, `daw_json_parse_value.h` L590-592: `has_more( )` is asked of the range that `skip_value` returned. -/
def aliasK (t : TCfg) (p : Range → Bytes → Res Val) (r : Range) (after : Bytes) : Res Val := do
  assertWeak t.cfg.checked (!r.text.isEmpty) .unexpectedEndOfData
  p r after

/-- The type that a type is an alias of: `A` gives, by number, the classes that have a `json_type_alias`.  (Simplification: of a type that is no alias
itself.) `daw_json_link_types.h` L155-166. -/
def aliasOf (A : Nat → Option Ty) : Ty → Option Ty
  | .ref i => A i
  | _ => none

/-- `parse_value` of a type that may be an alias, `daw_json_link_types.h` L177-196. -/
def memberU (t : TCfg) (Δ : Env) (A : Nat → Option Ty) (f : Nat) (ty : Ty) (bs : Bytes) : Res (Val × Bytes) :=
  match aliasOf A ty with
  | some ty => aliasU t (parseU t Δ f ty) bs
  | none => parseU t Δ f ty bs

/-- The same with known bounds, `daw_json_link_types.h` L177-196. -/
def memberK (t : TCfg) (Δ : Env) (A : Nat → Option Ty) (f : Nat) (ty : Ty) (r : Range) (after : Bytes) : Res Val :=
  match aliasOf A ty with
  | some ty => aliasK t (parseK t Δ f ty) r after
  | none => parseK t Δ f ty r after

/-- `parse_value_class<JsonMember, false>`, `daw_json_parse_value.h` L583-611, of a class with members `ms` that may be aliases; see `parseU`. -/
def parseAliasClass (t : TCfg) (Δ : Env) (A : Nat → Option Ty) (f : Nat) (ms : List Member) (ex : Bool) (bs : Bytes) : Res (Val × Bytes) := do
  assertWeak t.cfg.checked (!bs.isEmpty) .unexpectedEndOfData
  let (v, r) ← parseObj t (ex || t.exactAll) ms (memberU t Δ A f) (memberK t Δ A f) bs
  .ok (v, trimChecked r)

/-- `from_json<T>( doc )`, `daw_from_json.h` L36-84, with the parser `p` for `T`; see `fromJson`. -/
def fromDoc (t : TCfg) (p : Bytes → Res (Val × Bytes)) (bs : Bytes) : Res Val := do
  ensure (!bs.isEmpty) .emptyJSONDocument
  let b := if bs.getLast? = some 0 then bs.dropLast else bs
  let (v, r) ← p b
  if t.verifyEnd then do
    let r ← trim t.cfg r
    ensure r.isEmpty .invalidEndOfValue
    .ok v
  else .ok v

/-- `to_json` of a class mapped by a `json_type_alias`, `to_daw_json_string.h` L931-937 and `daw_json_link_types.h` L168-173: what `to_json_data` returns, here the value itself, as
the aliased type. -/
def toJsonAlias (w : WCfg) (Δ : Env) (ty : Ty) (v : Val) : Res Bytes := toJson w Δ ty v

end Verif
