import Verif.Model.Text
import Verif.Model.Str

/-!
# Output of C strings

Models `copy_to_iterator` for a `char const *`, used for strings, custom types and raw values that are kept as pointers.  The memory from the pointer to
the end of the object it points into is a list of bytes; reading behind it is undefined.
-/

namespace Verif

/-- What a call does: it returns a value, or it writes without end. -/
inductive Ends (α : Type) where
  | returns (a : α)
  | endless
  deriving DecidableEq

/-- What is written in front of the rest. -/
def Ends.before (x : Bytes) : Ends Bytes → Ends Bytes
  | .returns y => .returns (x ++ y)
  | .endless => .endless

/-- The loop of `copy_to_iterator<true, EightBitMode>( it, ptr )`, `to_daw_json_string.h` L376-425.  It stops at a zero byte where a code
point starts; that the iterator has moved, tested for at L291 for containers, is not looked at: where it has not the loop does not end. -/
def writeCBody (restrictHigh : Bool) (mem : Bytes) : Res (Ends Bytes) :=
  match mem with
  | [] => .ub
  | c :: cs =>
    if c = 0 then .ok (.returns [])
    else
      match _hn : utf8Next (c :: cs) with
      | .ub => .ub
      | .err e => .err e
      | .ok (cp, some rest) => do
        let e ← escapeCp restrictHigh cp
        let tl ← writeCBody restrictHigh rest
        .ok (tl.before e)
      | .ok (_, none) => .ok .endless
termination_by mem.length
decreasing_by exact utf8Next_lt (by assumption)

/-- `to_json_string_string_escaped`, `to_daw_json_string.h` L834-846, of a pointer, L361-438; `none`: the null pointer, for which nothing is written
between the quotes, L367-369. -/
def writeC (o : StrOut) (mem : Option Bytes) : Res (Ends Bytes) :=
  match mem with
  | none => .ok (.returns [chQuote, chQuote])
  | some mem => do
    let b ← writeCBody (!o.allowHigh || o.only7bit) mem
    match b with
    | .returns b => .ok (.returns (chQuote :: (b ++ [chQuote])))
    | .endless => .ok .endless

/-- `copy_to_iterator<false, EightBitMode>( it, ptr )`, `to_daw_json_string.h` L426-436.  (Simplification: as for `writeUnescaped`.) -/
def writeCPlain (restrict : Bool) (mem : Bytes) : Res Bytes :=
  match mem with
  | [] => .ub
  | c :: cs =>
    if c = 0 then .ok []
    else do
      ensure (!restrict || (decide (0x20 ≤ c.toNat) && decide (c.toNat ≤ 0x7F))) .invalidStringHighASCII
      let tl ← writeCPlain restrict cs
      .ok (c :: tl)

end Verif
