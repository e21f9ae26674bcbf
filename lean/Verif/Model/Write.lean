import Verif.Model.Typed

/-!
# Writing values

Models `to_json` (`daw_to_json.h`), the writers of `to_daw_json_string.h`, `serialize_json_class` and
`serialize_ordered_json_class` (`daw_json_serialize_impl.h`) and the layout functions of
`daw_json_serialize_policy.h`, for the types of `Verif.Model.Typed`.

The C++ writes to an output iterator; here the text written is the result.  A value that does not have the type is
excluded statically in C++; here it gives `.ub`.
-/

namespace Verif

/-- `IndentationType`, `daw_json_serialize_options_impl.h`. -/
inductive Indent where
  | tab | space1 | space2 | space3 | space4 | space5 | space8 | space10
  deriving DecidableEq, Repr

/-- `generate_indent<Pretty, ...>`, `daw_json_serialize_policy_details.h` L250-291. -/
def Indent.text : Indent → Bytes
  | .tab => [0x09]
  | .space1 => List.replicate 1 0x20
  | .space2 => List.replicate 2 0x20
  | .space3 => List.replicate 3 0x20
  | .space4 => List.replicate 4 0x20
  | .space5 => List.replicate 5 0x20
  | .space8 => List.replicate 8 0x20
  | .space10 => List.replicate 10 0x20

/-- The options of `serialization_policy`, `daw_json_serialize_policy.h` L80-100: `SerializationFormat`,
`IndentationType`, `NewLineDelimiter`, `OutputTrailingComma`, `RestrictedStringOutput`. -/
structure WCfg where
  pretty : Bool := false
  indent : Indent := .space2
  crlf : Bool := false
  tc : Bool := false
  only7bit : Bool := false
  errInvalid : Bool := true
  deriving DecidableEq, Repr

/-- The loop of `output_indent`, `daw_json_serialize_policy.h` L116-128. -/
def outputIndent (i : Indent) : Nat → Bytes
  | 0 => []
  | n + 1 => i.text ++ outputIndent i n

/-- `next_member`, `daw_json_serialize_policy.h` L145-148, with `output_newline`, L130-138, at `indentation_level`
`n`.  The level is changed by `add_indent` and `del_indent`, L102-114, in pairs around the members of a container; here
it is an argument (not used when minified, where the code leaves it at 0). -/
def nextMember (w : WCfg) (n : Nat) : Bytes :=
  if w.pretty then (if w.crlf then [0x0D, 0x0A] else [0x0A]) ++ outputIndent w.indent n else []

/-- `space`, `daw_json_serialize_policy.h` L140-143. -/
def spaceText (w : WCfg) : Bytes := if w.pretty then [0x20] else []

/-- `put( ',' )` if `OutputTrailingComma` is `Yes`. -/
def trailing (w : WCfg) : Bytes := if w.tc then [chComma] else []

/-- What is written between the last element and the closing bracket: `to_daw_json_string.h` L1043-1053 (tuple),
L1106-1116 (array), L1232-1242 (map), `daw_json_serialize_impl.h` L135-141 (class), L171-178 (ordered class). -/
def closing (w : WCfg) (n : Nat) (isEmpty : Bool) : Bytes :=
  if isEmpty then [] else trailing w ++ nextMember w n

/-- `not nullable_value_has_value( v )` on a nullable. -/
def Val.isNone : Val → Bool
  | .none => true
  | _ => false

/-- The string options of a member, `to_daw_json_string.h` L834-846. -/
def WCfg.strOut (w : WCfg) (ah : Bool) : StrOut := ⟨ah, w.only7bit, w.errInvalid⟩

/-- The loop over missing indices of `to_json_ordered_str`, `to_daw_json_string.h` L1455-1461, `k` of them. -/
def writeGap (w : WCfg) (n : Nat) : Nat → Bytes
  | 0 => []
  | k + 1 => nextMember w n ++ (txtNull ++ (chComma :: (nextMember w n ++ writeGap w n k)))

/-- The alternatives of a variant, `element_map_t` of its `json_elements`, `daw_json_link_types.h` L973-976, L1677-1680. -/
def altTys (Δ : Env) : Ty → List Ty
  | .ref i =>
    match Δ i with
    | .var alts => alts
    | .ivar _ _ alts => alts
    | _ => []
  | _ => []

/-- `to_json_string_bool`, `to_daw_json_string.h` L461-480, `to_json_string_signed` and `_unsigned`, L654-786, with
`LiteralAsStringOpt::Always` (`al`) or `Maybe`, which writes no quotes. -/
def writeLit (al : Bool) (l : LitTy) (x : Lit) : Res Bytes :=
  match x with
  | .bool b =>
    match l with
    | .bool => .ok (quoteIf al (if b then txtTrue else txtFalse))
    | _ => .ub
  | .int i =>
    match l with
    | .int t _ => .ok (quoteIf al (writeInt t i))
    | _ => .ub

mutual
/-- `to_daw_json_string`, `to_daw_json_string.h` L1247-1320, and the functions it calls, at indentation level `n`:
`to_json_string_bool`, L461-480 (`LiteralAsStringOpt::Never`), `to_json_string_signed` and `_unsigned`, L654-786,
`to_json_string_string_escaped`, L834-857, raw strings, custom types and raw JSON, see `writeTxt`, `to_json_string_date`, L859-909, `to_json_string_real`, L557-615 (finite
numbers), `to_json_string_null`, L526-555, `to_json_string_array`, L1065-1120,
`to_json_string_kv`, L1205-1245 (string keys), `to_json_string_class` with `serialize_json_class`,
`daw_json_serialize_impl.h` L88-145, `to_json_string_tuple`, `to_daw_json_string.h` L1012-1058,
`serialize_ordered_json_class`, `daw_json_serialize_impl.h` L147-181, `to_json_string_variant` and
`to_json_string_variant_intrusive` with `to_variant_string`, `to_daw_json_string.h` L482-524. -/
def writeVal (w : WCfg) (Δ : Env) (n : Nat) (ty : Ty) (v : Val) : Res Bytes :=
  match v with
  | .bool b =>
    match ty with
    | .bool => .ok (if b then txtTrue else txtFalse)
    | _ => .ub
  | .int i =>
    match ty with
    | .int t _ => .ok (writeInt t i)
    | _ => .ub
  | .str s =>
    match ty with
    | .str ah => writeStr (w.strOut ah) s
    | _ => .ub
  | .txt s =>
    match ty with
    | .txt k => writeTxt w.only7bit k s
    | _ => .ub
  | .date x =>
    match ty with
    | .txt .date => writeDate x
    | _ => .ub
  | .real x =>
    match ty with
    | .txt (.real dbl fmt) => toChars dbl fmt x.neg x.sig x.exp
    | _ => .ub
  | .lit x =>
    match ty with
    | .txt (.quoted al l) => writeLit al l x
    | _ => .ub
  | .none =>
    match ty with
    | .opt _ => .ok txtNull
    | _ => .ub
  | .some v =>
    match ty with
    | .opt ty => writeVal w Δ n ty v
    | _ => .ub
  | .arr vs =>
    match ty with
    | .arr ty => do
      let b ← writeElems w Δ (n + 1) ty vs
      .ok (chLBrack :: (b ++ (closing w n vs.isEmpty ++ [chRBrack])))
    | _ => .ub
  | .map kvs =>
    match ty with
    | .map ty => do
      let b ← writePairs w Δ (n + 1) ty kvs
      .ok (chLBrace :: (b ++ (closing w n kvs.isEmpty ++ [chRBrace])))
    | _ => .ub
  | .cls vs =>
    match ty with
    | .ref i =>
      match Δ i with
      | .obj ms _ => do
        let b ← writeMembers w Δ (n + 1) [] true ms vs
        .ok (chLBrace :: (b ++ (closing w n ms.isEmpty ++ [chRBrace])))
      | .tup ts _ => do
        let b ← writeTuple w Δ (n + 1) ts vs
        .ok (chLBrack :: (nextMember w (n + 1) ++ (b ++ (closing w n ts.isEmpty ++ [chRBrack]))))
      | .ord ms _ => do
        let b ← writeOrdered w Δ (n + 1) ms.length 0 ms vs
        .ok (chLBrack :: (nextMember w (n + 1) ++ (b ++ (closing w n ms.isEmpty ++ [chRBrack]))))
      | _ => .ub
    | _ => .ub
  | .alt k v =>
    match (altTys Δ ty)[k]? with
    | some ty => writeVal w Δ n ty v
    | none => .ub
/-- The loop of `to_json_string_array`, `to_daw_json_string.h` L1095-1104. -/
def writeElems (w : WCfg) (Δ : Env) (n : Nat) (ty : Ty) (vs : List Val) : Res Bytes :=
  match vs with
  | [] => .ok []
  | v :: vs => do
    let a ← writeVal w Δ n ty v
    let r ← writeElems w Δ n ty vs
    .ok (nextMember w n ++ (a ++ ((if vs.isEmpty then [] else [chComma]) ++ r)))
/-- The loop of `to_json_string_kv`, `to_daw_json_string.h` L1218-1231. -/
def writePairs (w : WCfg) (Δ : Env) (n : Nat) (ty : Ty) (kvs : List (Bytes × Val)) : Res Bytes :=
  match kvs with
  | [] => .ok []
  | (k, v) :: kvs => do
    let kt ← writeStr (w.strOut true) k
    let a ← writeVal w Δ n ty v
    let r ← writePairs w Δ n ty kvs
    .ok (nextMember w n ++ (kt ++ (chColon :: (spaceText w ++ (a ++ ((if kvs.isEmpty then [] else [chComma]) ++ r))))))
/-- `to_json_str` for the members left, `to_daw_json_string.h` L1408-1437; `seen` is `visited_members`, `first` is
`is_first`.  Names are written as they are. -/
def writeMembers (w : WCfg) (Δ : Env) (n : Nat) (seen : List Bytes) (first : Bool) (ms : List Member) (vs : List Val) :
    Res Bytes :=
  match vs with
  | [] => if ms.isEmpty then .ok [] else .ub
  | v :: vs =>
    match ms with
    | [] => .ub
    | m :: ms =>
      if seen.contains m.name then writeMembers w Δ n seen first ms vs
      else if m.ty.isOpt && v.isNone then writeMembers w Δ n (m.name :: seen) first ms vs
      else do
        let a ← writeVal w Δ n m.ty v
        let r ← writeMembers w Δ n (m.name :: seen) false ms vs
        .ok ((if first then [] else [chComma]) ++ (nextMember w n ++ (chQuote :: (m.name ++ (chQuote :: chColon ::
          (spaceText w ++ (a ++ r)))))))
/-- `to_daw_json_string_tuple`, `to_daw_json_string.h` L982-1010. -/
def writeTuple (w : WCfg) (Δ : Env) (n : Nat) (ts : List Ty) (vs : List Val) : Res Bytes :=
  match vs with
  | [] => if ts.isEmpty then .ok [] else .ub
  | v :: vs =>
    match ts with
    | [] => .ub
    | ty :: ts => do
      let a ← writeVal w Δ n ty v
      let r ← writeTuple w Δ n ts vs
      .ok (a ++ ((if ts.isEmpty then [] else chComma :: nextMember w n) ++ r))
/-- `to_json_ordered_str` for the members left, `to_daw_json_string.h` L1439-1470; `size` is `array_size`, the number of
members, `idx` is `array_idx`. -/
def writeOrdered (w : WCfg) (Δ : Env) (n size idx : Nat) (ms : List (Option Nat × Ty)) (vs : List Val) : Res Bytes :=
  match vs with
  | [] => if ms.isEmpty then .ok [] else .ub
  | v :: vs =>
    match ms with
    | [] => .ub
    | (want, ty) :: ms => do
      let a ← writeVal w Δ n ty v
      let at_ := max idx (want.getD idx)
      let r ← writeOrdered w Δ n size (at_ + 1) ms vs
      .ok (writeGap w n (at_ - idx) ++ (a ++ ((if at_ + 1 < size then chComma :: nextMember w n else []) ++ r)))
end

/-- `to_json( value )`, `daw_to_json.h` L50-84. -/
def toJson (w : WCfg) (Δ : Env) (ty : Ty) (v : Val) : Res Bytes := writeVal w Δ 0 ty v

end Verif
