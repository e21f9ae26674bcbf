import Verif.Model.Write
import Verif.Spec.Ascii

/-!
# The default converters of custom types

`default_to_json_converter_t` and `default_from_json_converter_t`, `to_daw_json_string.h` L90-203: which of the conversions that a type
has is used for its text.
-/

namespace Verif

/-- The conversions of a type to and from text that the converters ask for, `none` where the type does not have it. -/
structure Conv (α : Type) where
  /-- `is_string_view_like_v`: the characters of a contiguous range -/
  data : Option (α → Bytes) := none
  /-- `to_string( value )`, from `std` or found by the namespace of the type -/
  toStr : Option (α → Bytes) := none
  /-- `operator<<` for streams, a free function -/
  ostream : Option (α → Bytes) := none
  /-- convertible to `std::string_view` -/
  toSv : Option (α → Bytes) := none
  /-- convertible to `std::string` -/
  toString : Option (α → Bytes) := none
  /-- an enumeration: `to_string` of the number -/
  enum : Option (α → Bytes) := none
  /-- the type is `std::string_view` itself -/
  isSv : Option (Bytes → α) := none
  /-- `from_string( tag<T>, sv )` -/
  fromStr : Option (Bytes → α) := none
  /-- convertible from `std::string_view` -/
  fromSv : Option (Bytes → α) := none
  /-- convertible from `std::string` -/
  fromString : Option (Bytes → α) := none
  /-- `operator>>` for streams -/
  istream : Option (Bytes → α) := none

variable {α : Type}

/-- `default_to_json_converter_t<T>::operator( )` for a type that is not nullable, `to_daw_json_string.h` L99-116; `none`: there is no
text to return and the program does not compile.  (The test for arithmetic types, L113-114, is never reached: they have `to_string`.) -/
def defaultTo (c : Conv α) : Option (α → Bytes) :=
  match c.data with
  | some f => some f
  | none =>
    match c.toStr with
    | some f => some f
    | none =>
      match c.ostream with
      | some f => some f
      | none =>
        match c.toSv with
        | some f => some f
        | none =>
          match c.toString with
          | some f => some f
          | none => c.enum

/-- The text of an empty value. -/
def txtNullText : Bytes := asc! "null"

/-- The text of a nullable value by the way in which the value inside of it is written. -/
def orNull (f : α → Bytes) : Option α → Bytes
  | some v => f v
  | none => txtNullText

/-- The same for `std::optional<T>`: `to_string` of optionals, `to_daw_json_string.h` L56-63, is there if `T` has `to_string`; else the
branch for nullable types, L117-165, whose last case writes to the stream whether there is a value (L160). -/
def defaultToOpt (c : Conv α) : Option (Option α → Bytes) :=
  match c.toStr with
  | some f => some (orNull f)
  | none =>
    match c.data with
    | some f => some (orNull f)
    | none =>
      match c.toSv with
      | some f => some (orNull f)
      | none =>
        match c.toString with
        | some f => some (orNull f)
        | none => some (orNull fun _ => asc! "1")

/-- `default_from_json_converter_t<T>::operator( )`, `to_daw_json_string.h` L180-203. -/
def defaultFrom (c : Conv α) : Option (Bytes → α) :=
  match c.isSv with
  | some f => some f
  | none =>
    match c.fromStr with
    | some f => some f
    | none =>
      match c.fromSv with
      | some f => some f
      | none =>
        match c.fromString with
        | some f => some f
        | none => c.istream

/-- The same for `std::optional<T>`, which is convertible from what `T` is convertible from and cannot be read from a stream; `own` is
`from_string( tag<std::optional<T>>, sv )`. -/
def defaultFromOpt (c : Conv α) (own : Option (Bytes → Option α)) : Option (Bytes → Option α) :=
  match c.isSv with
  | some f => some fun b => some (f b)
  | none =>
    match own with
    | some f => some f
    | none =>
      match c.fromSv with
      | some f => some fun b => some (f b)
      | none =>
        match c.fromString with
        | some f => some fun b => some (f b)
        | none => none

/-- Writing a container of `json_custom` elements with a converter, `to_json_string_custom`, `to_daw_json_string.h` L954-980. -/
def toJsonCustoms (w : WCfg) (Δ : Env) (k : CustomKind) (wr : α → Bytes) (vs : List α) : Res Bytes :=
  toJson w Δ (.arr (.txt (.custom k))) (.arr (vs.map fun v => .txt (wr v)))

/-- The texts of the elements. -/
def customTexts : List Val → Option (List Bytes)
  | [] => some []
  | .txt b :: vs => (customTexts vs).map (b :: ·)
  | _ :: _ => none

/-- Reading it, `parse_value_custom`, `daw_json_parse_value.h` L526-581. -/
def fromJsonCustoms (t : TCfg) (Δ : Env) (fuel : Nat) (k : CustomKind) (from' : Bytes → α) (bs : Bytes) : Res (List α) := do
  match ← fromJson t Δ fuel (.arr (.txt (.custom k))) bs with
  | .arr vs =>
    match customTexts vs with
    | some bs => .ok (bs.map from')
    | none => .ub
  | _ => .ub

end Verif
