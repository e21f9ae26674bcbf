import Verif.Model.Base

/-!
# ASCII text as bytes
-/

namespace Verif

open Lean in
/-- `asc! "abc"` is the list of the bytes of the text, written out. -/
macro:max "asc!" s:str : term => do
  let es := s.getString.toUTF8.toList.map fun b => Syntax.mkNumLit (toString b.toNat)
  `(([$(es.toArray),*] : List UInt8))

end Verif
