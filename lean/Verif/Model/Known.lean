import Verif.Model.Typed

/-!
# Documents whose bounds are known

`from_json<T, /* KnownBounds */ true>( text )` takes the text to be exactly that of one value and parses it as a member is parsed that
was located before its turn: without looking for the end of the value.
-/

namespace Verif

/-- The position that `ParseState( first, last )` makes, `daw_json_parse_policy.h` L166-170: the constructor sets `class_first` and
`class_last` to the ends of the text, and these are the fields in which `skip_number` stores where the decimal point and the exponent are
(`dec` and `exp` of a range); `counter` is zero. -/
def rootRange (b : Bytes) : Range := { text := b, counter := 0, dec := some 0, exp := some b.length }

/-- `from_json<T, true>( text )` on a non-null pointer, `daw_from_json.h` L36-84; `behind` is what follows the text in memory, as when the
text is a `std::string_view` of a part of a document.  (Simplification: `must_verify_end_of_data_is_valid`, L70-77, is taken to be off; only
texts that are not known to be zero terminated, which excludes arguments of type `std::string`.) -/
def fromJsonKnown (t : TCfg) (Δ : Env) (fuel : Nat) (ty : Ty) (bs behind : Bytes) : Res Val := do
  ensure (!bs.isEmpty) .emptyJSONDocument
  if bs.getLast? = some 0 then parseK t Δ fuel ty (rootRange bs.dropLast) (0 :: behind)
  else parseK t Δ fuel ty (rootRange bs) behind

end Verif
