import Verif.Model.Int
import Verif.Spec.Ascii

/-!
# Model of `to_formatted_string`

`include/daw/json/daw_json_exception.h` L285-352.  The characters readable from `json_document` on are a list, a location is an offset into it.
The reason of the exception, `je.reason( )`, is a parameter.  Reading in front of the document or behind what is readable is `ub`, and so is the
difference of a pointer and the null pointer.
-/

namespace Verif

/-- The loop of `daw::algorithm::accumulate` that counts lines, `daw_json_exception.h` L299-307: the characters left, the offset of the next
one, the count, and `last_nl`. -/
def scanLines : Bytes → Nat → Nat → Option Nat → Nat × Option Nat
  | [], _, count, nl => (count, nl)
  | c :: cs, i, count, nl => if c = chNl then scanLines cs (i + 1) (count + 1) (some i) else scanLines cs (i + 1) count nl

/-- What is appended for one character, `daw_json_exception.h` L325-342; `colour` is false with `DAW_JSON_NO_COLOUR`. -/
def shownChar (colour : Bool) (c : UInt8) : Bytes :=
  if c = chNl ∨ c = 0x0D then []
  else if colour = false ∧ c = chQuote then [chBslash, c]
  else [c]

/-- The text with a location, `daw_json_exception.h` L318-350; `std::to_string` writes the same digits as the library's own writer. -/
def locationText (colour : Bool) (reason : Bytes) (line col : Nat) (data : Bytes) : Bytes :=
  asc! "reason: " ++ (reason ++ (asc! " \nlocation: near line: " ++ (writeUnsigned line ++ (asc! " col: " ++ (writeUnsigned col ++ (asc! "\n\"" ++
    ((if colour then [0x1B, 0x5B, 0x31, 0x6D] else []) ++ (data.flatMap (shownChar colour) ++
      ((if colour then [0x1B, 0x5B, 0x30, 0x6D] else []) ++ asc! "\"\n")))))))))

/-- `previous_char_count` and `loc_data`, `daw_json_exception.h` L310-317: the view of the characters around the location `p`. -/
def locationData (doc : Bytes) (p : Nat) : Res Bytes :=
  let prev := min 50 (p + 1)
  if p < prev ∨ doc.length ≤ p then .ub
  else .ok ((doc.drop (p - prev)).take (prev + 1))

/-- `to_formatted_string( je, json_document )`, `daw_json_exception.h` L290-351. -/
def toFormatted (colour : Bool) (reason : Bytes) (doc : Option Bytes) (loc : Option Nat) : Res Bytes :=
  match doc, loc with
  | some doc, some p =>
    if doc.length < p then .ub
    else
      match scanLines (doc.take p) 0 1 none with
      | (_, none) => .ub
      | (line, some nl) => do
        let data ← locationData doc p
        .ok (locationText colour reason line (p - nl + 1) data)
  | _, _ => .ok (asc! "reason: " ++ reason)

end Verif
