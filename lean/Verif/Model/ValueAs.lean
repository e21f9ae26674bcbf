import Verif.Model.Value

/-!
# Untyped values: conversion to types, values read later, writing

Models `basic_json_value::as`, the overloads of `from_json` that take a `basic_json_value`, `json_value` as the type of a `json_raw` member
(delayed parsing) and `to_json` of a `json_value`.
-/

namespace Verif

/-- `basic_json_value::as`, `daw_json_value.h` L503-509; the conversion operator, L511-514, and the function `as`, L715-719, call it.  Nothing is
asked of what follows the value. -/
def jvAs (t : TCfg) (Δ : Env) (fuel : Nat) (ty : Ty) (jv : JV) : Res Val := do
  let (v, _) ← parseU t Δ fuel ty jv
  .ok v

/-- `from_json<T>( json_value, flags )`, `daw_from_json.h` L379-418.  `given` are the options of the `json_value` as changed by the flags,
`SetPolicyOptions`; with no flags they are those of the `json_value`.  `MustVerifyEndOfDataIsValid` is not looked at. -/
def fromJv (given : TCfg) (Δ : Env) (fuel : Nat) (ty : Ty) (jv : JV) : Res Val := do
  let (v, _) ← parseU given Δ fuel ty jv
  .ok v

/-- `from_json<T>( json_value, path, flags )`, `daw_from_json.h` L431-467.  The policy is made from the flags alone, L441-442: the options `own`
of the `json_value` are not used. -/
def fromJvPath (own flags : TCfg) (Δ : Env) (fuel : Nat) (ty : Ty) (path : Bytes) (jv : JV) : Res Val := do
  let _ := own
  let jv ← jvMake flags.cfg jv
  let jv ← jvFind flags jv path
  let k ← jvType flags.cfg jv
  if k = .none ∧ ty.isOpt = true then .ok .none
  else do
    ensure (k != .none) .jsonPathNotFound
    let (v, _) ← parseU flags Δ fuel ty jv
    .ok v

/-- A `json_raw` member of type `json_value`, `daw_json_link_types.h` L1796-1852: the value is constructed from the text of the member,
`parse_value_unknown`, `daw_json_parse_value.h` L1161-1175, by `daw_json_value.h` L376-380. -/
def jvOfRaw (cfg : Cfg) (text : Bytes) : Res JV := jvMake cfg text

/-- `copy_to_iterator( it, json_value )`, `to_daw_json_string.h` L440-453, which `to_json_string_unknown`, L911-917, calls; `seven` as in
`writeTxt`. -/
def writeJv (cfg : Cfg) (seven : Bool) (jv : JV) : Res Bytes := do
  let k ← jvType cfg jv
  if k = .null then writeUnescaped seven (chN :: txtUll)
  else do
    let x ← jvStringView cfg jv
    writeUnescaped seven x

end Verif
