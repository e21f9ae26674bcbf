import Verif.Model.Iter
import Verif.Model.Value

/-!
# Iterators over an array inside of a document

Models the constructors of `json_array_iterator` and `json_array_iterator_once` that take a path, `daw_json_iterator.h`.
-/

namespace Verif

/-- `json_array_iterator_t( jd, start_path )`, `daw_json_iterator.h` L108-118, with `get_range`, L64-74; `json_array_iterator_once( jd, start_path )`
and its `get_range`, L239-249, are the same.  So are `json_array_range( jd, start_path )` and `json_array_range_once( jd, start_path )`, L377-379, L418-420.
`result.front( )` is not checked. -/
def itMakePath (t : TCfg) (path bs : Bytes) : Res It := do
  let r ← findRange t path bs
  match r with
  | none => .err .jsonPathNotFound
  | some [] => .ub
  | some (c :: cs) => do
    ensure (c == chLBrack) .invalidArrayStart
    itMake t.cfg .array (c :: cs)

end Verif
