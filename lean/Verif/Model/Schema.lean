import Verif.Model.Write
import Verif.Spec.Ascii

/-!
# Writing JSON Schemas

Models `daw_json_schema.h`.

The C++ chooses the functions to run by the static type.  Here the static type is data, an `STy`, in which the mapped
classes are written out; `schemaTy` writes out the types of `Verif.Model.Typed`.  A class that contains itself cannot be
written out: for those the C++ does not compile (the templates call each other without end).

The C++ writes to an output iterator; here the text written is the result.  The indentation level, which the C++ changes by
`add_indent` and `del_indent` in pairs, is an argument.
-/

namespace Verif

mutual
/-- The static types as far as `daw_json_schema.h` can tell them apart, `JsonParseTypes` in `daw_json_enums.h`.
`string` stands for `StringEscaped`, `StringRaw` and `Custom` (which must be `JsonCustomTypes::String`,
`daw_json_schema.h` L59-60); `arr` for `Array`, `SizedArray` (L585-591) and `KeyValueArray` (L618-641, the same text for the
class of key and value); `variant` for `Variant`, `VariantIntrusive` and, if it is not the root, `VariantTagged` (L670-748,
the same text); `obj` for a class with a `json_member_list`, `ord` for one with a `json_tuple_member_list`. -/
inductive STy where
  | bool | real | signed | unsigned | string | date
  | null (t : STy)
  | arr (t : STy)
  | kv (t : STy)
  | tup (ts : STys)
  | variant (ts : STys)
  | obj (ms : SMems)
  | ord (ts : STys)
/-- Types of the components of a tuple, or of the alternatives of a variant. -/
inductive STys where
  | nil
  | cons (t : STy) (tl : STys)
/-- Members of a class: name, name of the member it depends on (`dependent_member_t`: the size of a sized array, the tag of a
tagged variant) if there is one, and type. -/
inductive SMems where
  | nil
  | cons (name : Bytes) (dep : Option Bytes) (t : STy) (tl : SMems)
end

/-- `sizeof...` of the list is 0. -/
def STys.isNil : STys → Bool
  | .nil => true
  | _ => false

/-- `sizeof...( JsonMembers )` is 0. -/
def SMems.isNil : SMems → Bool
  | .nil => true
  | _ => false

/-- `is_json_nullable_v`. -/
def STy.isNull : STy → Bool
  | .null _ => true
  | _ => false

/-- `utils::output_kv`, `daw_json_schema.h` L23-29. -/
def outputKv (w : WCfg) (key value : Bytes) : Bytes := key ++ (chColon :: (spaceText w ++ value))

/-- `if constexpr( not is_root ) { ... }`. -/
def notRoot (root : Bool) (b : Bytes) : Bytes := if root then [] else b

/-- The level inside: `add_indent` is called unless `is_root`. -/
def inner (root : Bool) (n : Nat) : Nat := if root then n else n + 1

/-- `to_json_schema` for `Bool`, `Custom`, `Real`, `Signed`, `StringEscaped` and `StringRaw`, `daw_json_schema.h` L32-75,
L101-183, which differ in the name of the type. -/
def schemaType (w : WCfg) (n : Nat) (root : Bool) (ty : Bytes) : Bytes :=
  notRoot root (chLBrace :: nextMember w (n + 1)) ++ (outputKv w asc! "\"type\"" ty ++ (nextMember w n ++
    notRoot root [chRBrace]))

/-- `to_json_schema` for `Date` and `Unsigned`, `daw_json_schema.h` L77-99, L185-205, which write one more member. -/
def schemaType2 (w : WCfg) (n : Nat) (root : Bool) (ty key value : Bytes) : Bytes :=
  notRoot root (chLBrace :: nextMember w (n + 1)) ++ (outputKv w asc! "\"type\"" ty ++ (chComma ::
    (nextMember w (inner root n) ++ (outputKv w key value ++ (nextMember w n ++ notRoot root [chRBrace])))))

/-- `output_required_members`, `daw_json_schema.h` L407-413, with `output_required_member`, L369-384: the members that are
not nullable; `first` is `is_first`. -/
def schemaRequired (w : WCfg) (n : Nat) (first : Bool) : SMems → Bytes
  | .nil => []
  | .cons name _ t tl =>
    if t.isNull then schemaRequired w n first tl
    else (if first then [] else [chComma]) ++ (nextMember w n ++ (chQuote :: (name ++ (chQuote ::
      schemaRequired w n false tl))))

/-- `( has_dependent_member_v<JsonMembers> or ... )`, `daw_json_schema.h` L310. -/
def SMems.anyDep : SMems → Bool
  | .nil => false
  | .cons _ dep _ tl => dep.isSome || tl.anyDep

/-- `output_dependency` for the members left, `daw_json_schema.h` L316-320, L386-405; `first` is `is_first`. -/
def schemaDeps (w : WCfg) (n : Nat) (first : Bool) : SMems → Bytes
  | .nil => []
  | .cons name dep _ tl =>
    match dep with
    | none => schemaDeps w n first tl
    | some dn =>
      (if first then [] else [chComma]) ++ (nextMember w n ++ (chQuote :: (name ++ (chQuote :: chColon :: (spaceText w ++
        (chLBrack :: (nextMember w (n + 1) ++ (chQuote :: (dn ++ (chQuote :: (nextMember w n ++ (chRBrack ::
          schemaDeps w n false tl))))))))))))

/-- The part of `json_class_processor::process` after the properties, `daw_json_schema.h` L300-327. -/
def schemaClassEnd (w : WCfg) (n : Nat) (ms : SMems) : Bytes :=
  chComma :: (nextMember w n ++ (outputKv w asc! "\"required\"" asc! "[" ++
    (schemaRequired w (n + 1) true ms ++ (nextMember w n ++ (chRBrack ::
      (if ms.anyDep then
        chComma :: (nextMember w n ++ (outputKv w asc! "\"dependencies\"" asc! "{" ++ (schemaDeps w (n + 1) true ms ++
          (nextMember w n ++ [chRBrace]))))
      else []))))))

mutual
/-- `json_details::to_json_schema`, `daw_json_schema.h` L32-748, at indentation level `n`: scalars, see `schemaType` and
`schemaType2`; `Null`, L577-583; `Array`, L553-575; `KeyValue`, L593-616; `Tuple`, L492-551; the variants, L670-748; `Class`,
L467-490, with `json_class_processor::process`, L276-329 (`json_member_list`) and L416-441 (`json_tuple_member_list`). -/
def schemaText (w : WCfg) (n : Nat) (root : Bool) (t : STy) : Bytes :=
  match t with
  | .bool => schemaType w n root asc! "\"boolean\""
  | .real => schemaType w n root asc! "\"number\""
  | .signed => schemaType w n root asc! "\"integer\""
  | .string => schemaType w n root asc! "\"string\""
  | .date => schemaType2 w n root asc! "\"string\"" asc! "\"format\"" asc! "\"date-time\""
  | .unsigned => schemaType2 w n root asc! "\"integer\"" asc! "\"minimum\"" asc! "0"
  | .null t => schemaText w n root t
  | .arr t =>
    notRoot root [chLBrace] ++ (nextMember w (inner root n) ++ (outputKv w asc! "\"type\"" asc! "\"array\"," ++
      (nextMember w (inner root n) ++ (asc! "\"items\":" ++ (spaceText w ++ (schemaText w (inner root n) false t ++
        (nextMember w n ++ notRoot root [chRBrace])))))))
  | .kv t =>
    notRoot root [chLBrace] ++ (nextMember w (inner root n) ++ (outputKv w asc! "\"type\"" asc! "\"object\"" ++ (chComma ::
      (nextMember w (inner root n) ++ (outputKv w asc! "\"additionalProperties\"" [] ++
        (schemaText w (inner root n) false t ++ (nextMember w n ++ notRoot root [chRBrace])))))))
  | .tup ts =>
    notRoot root [chLBrace] ++ (nextMember w (inner root n) ++ (outputKv w asc! "\"type\"" asc! "\"array\"," ++
      (nextMember w (inner root n) ++ (outputKv w asc! "\"items\"" asc! "[" ++
        ((if ts.isNil then [] else schemaItems w (inner root n + 1) true ts ++ nextMember w (inner root n)) ++
          (chRBrack :: (nextMember w n ++ notRoot root [chRBrace])))))))
  | .variant ts =>
    notRoot root [chLBrace] ++ (nextMember w (inner root n) ++ (outputKv w asc! "\"oneOf\"" asc! "[" ++
      ((if ts.isNil then [] else schemaItems w (inner root n + 1) true ts ++ nextMember w (inner root n)) ++
        (chRBrack :: (nextMember w n ++ notRoot root [chRBrace])))))
  | .obj ms =>
    notRoot root [chLBrace] ++ ((if ms.isNil then [] else
      nextMember w (inner root n) ++ (outputKv w asc! "\"type\"" asc! "\"object\"" ++ (chComma ::
        (nextMember w (inner root n) ++ (outputKv w asc! "\"properties\"" asc! "{" ++ (nextMember w (inner root n + 1) ++
          (schemaProps w (inner root n + 1) ms ++ (nextMember w (inner root n) ++ (chRBrace ::
            schemaClassEnd w (inner root n) ms))))))))) ++
      notRoot root (nextMember w n ++ [chRBrace]))
  | .ord ts =>
    notRoot root [chLBrace] ++ ((if ts.isNil then [] else
      nextMember w (inner root n) ++ (outputKv w asc! "\"type\"" asc! "\"array\"," ++
        (nextMember w (inner root n) ++ (outputKv w asc! "\"items\"" asc! "[" ++
          (schemaItems w (inner root n + 1) true ts ++ (nextMember w (inner root n) ++ [chRBrack])))))) ++
      notRoot root (nextMember w n ++ [chRBrace]))
/-- The loops over the components of a tuple or the alternatives of a variant: `process_member`, `daw_json_schema.h`
L509-528, `output_member_type` (tuple member list), L452-464, `output_element`, L649-667; `first` is `is_first`. -/
def schemaItems (w : WCfg) (n : Nat) (first : Bool) (ts : STys) : Bytes :=
  match ts with
  | .nil => []
  | .cons t tl =>
    (if first then [] else [chComma]) ++ (nextMember w n ++ (schemaText w n false t ++ schemaItems w n false tl))
/-- `output_member_types`, `daw_json_schema.h` L360-367, with `output_member_type`, L341-358.  Every index is visited once, so
`seen` has no effect. -/
def schemaProps (w : WCfg) (n : Nat) (ms : SMems) : Bytes :=
  match ms with
  | .nil => []
  | .cons name _ t tl =>
    chQuote :: (name ++ (chQuote :: chColon :: (spaceText w ++ (schemaText w n false t ++
      ((if tl.isNil then [] else chComma :: nextMember w n) ++ schemaProps w n tl)))))
end

/-- `to_json_schema<T>( it, id, title )`, `daw_json_schema.h` L759-800: `id` and `title` are copied as they are. -/
def toJsonSchema (w : WCfg) (t : STy) (id title : Bytes) : Bytes :=
  chLBrace :: (nextMember w 1 ++
    (outputKv w asc! "\"$schema\"" asc! "\"https://json-schema.org/draft/2020-12/schema\"," ++ (nextMember w 1 ++
      (outputKv w asc! "\"$id\"" asc! "\"" ++ (id ++ (asc! "\"," ++ (nextMember w 1 ++
        (outputKv w asc! "\"title\"" asc! "\"" ++ (title ++ (asc! "\"," ++
          (schemaText w 1 true t ++ (nextMember w 0 ++ [chRBrace]))))))))))))

/-! ## The types of `Verif.Model.Typed` -/

/-- The members of a class, each with its type written out by `r`.  The types of `Verif.Model.Typed` have no dependent
members. -/
def schemaMems (r : Ty → Option STy) : List Member → Option SMems
  | [] => some .nil
  | m :: ms => do
    let t ← r m.ty
    let tl ← schemaMems r ms
    some (.cons m.name none t tl)

/-- The types of the components of a tuple, written out by `r`. -/
def schemaTys (r : Ty → Option STy) : List Ty → Option STys
  | [] => some .nil
  | ty :: ts => do
    let t ← r ty
    let tl ← schemaTys r ts
    some (.cons t tl)

/-- The types of the components of a `json_tuple_member_list`.  A member with an index (`json_tuple_member`,
`daw_json_link_types.h` L238-249) has no `expected_type`, `daw_json_schema.h` L461-462 does not compile. -/
def schemaOrd (r : Ty → Option STy) : List (Option Nat × Ty) → Option STys
  | [] => some .nil
  | (want, ty) :: ms => do
    let t ← if want.isSome then none else r ty
    let tl ← schemaOrd r ms
    some (.cons t tl)

/-- Literals as strings: `LiteralAsStringOpt` is not looked at, `daw_json_schema.h` L33-53, L123-142, L185-213. -/
def schemaLit : LitTy → STy
  | .bool => .bool
  | .int t _ => if t.signed then .signed else .unsigned

/-- `json_string_raw`, `json_date`, `json_number` of a real and `json_custom`, which must be `JsonCustomTypes::String`,
`daw_json_schema.h` L59-60; there is no `to_json_schema` for `json_raw`.  (Simplification: types with literals as strings are
not written out; for such a literal alone see `schemaLit`.) -/
def schemaTxt : TxtKind → Option STy
  | .rawStr _ => some .string
  | .date => some .date
  | .custom .str => some .string
  | .custom _ => none
  | .raw => none
  | .real .. => some .real
  | .quoted .. => none

/-- A type written out, given its classes written out. -/
def schemaTyWith (r : Nat → Option STy) : Ty → Option STy
  | .bool => some .bool
  | .int t _ => some (if t.signed then .signed else .unsigned)
  | .str _ => some .string
  | .txt k => schemaTxt k
  | .opt ty => (schemaTyWith r ty).map .null
  | .arr ty => (schemaTyWith r ty).map .arr
  | .map ty => (schemaTyWith r ty).map .kv
  | .ref i => r i

/-- A class written out, up to a depth of `f` nested classes.  (Simplification: types with variants are not written out here, though
`STy` has them.) -/
def schemaRef (Δ : Env) : Nat → Nat → Option STy
  | 0, _ => none
  | f + 1, i =>
    match Δ i with
    | .obj ms _ => (schemaMems (schemaTyWith (schemaRef Δ f)) ms).map .obj
    | .tup ts _ => (schemaTys (schemaTyWith (schemaRef Δ f)) ts).map .tup
    | .ord ms _ => (schemaOrd (schemaTyWith (schemaRef Δ f)) ms).map .ord
    | .var _ => none
    | .ivar _ _ _ => none

/-- The static type `ty` of a program with classes `Δ`, written out, up to a depth of `f` nested classes. -/
def schemaTy (Δ : Env) (f : Nat) (ty : Ty) : Option STy := schemaTyWith (schemaRef Δ f) ty

end Verif
