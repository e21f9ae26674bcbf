import Verif.Model.Typed

/-!
# `from_json` without checks: the document and the memory behind it

With `CheckedParseMode::no` the parser compares almost nothing with the end of the range, it relies on the bytes that
follow.  Here the document is given together with the bytes that can be read behind its end.
-/

namespace Verif

/-- `from_json<T>( doc, parse_flags<CheckedParseMode::no, …> )`, `daw_from_json.h` L36-84: `bs` is the character range of
the document and `mem` are the bytes behind it that the program may read; reading further is undefined.  `last` is moved
before a final zero (L66-68).  `empty( )` is `first >= last`, `daw_json_parse_policy.h` L293-302, so it holds as well when
`trim_left` went on behind `last`.  Simplified: in the parsing functions the few comparisons with `last` that are left
without checks (`daw_json_parse_value.h` L323, `daw_json_location_info.h` L227) see the end of `mem` instead. -/
def fromJsonMem (t : TCfg) (Δ : Env) (fuel : Nat) (ty : Ty) (bs mem : Bytes) : Res Val := do
  ensure (!bs.isEmpty) .emptyJSONDocument
  let b := if bs.getLast? = some 0 then bs.dropLast else bs
  let m := if bs.getLast? = some 0 then 0 :: mem else mem
  let (v, r) ← parseU t Δ fuel ty (b ++ m)
  if t.verifyEnd then do
    let r ← trim t.cfg r
    ensure (decide (r.length ≤ m.length)) .invalidEndOfValue
    .ok v
  else .ok v

end Verif
