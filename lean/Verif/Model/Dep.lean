import Verif.Model.Value
import Verif.Model.Write

/-!
# Members that depend on another member of the class

Models `json_tagged_variant` (`daw_json_link_types.h` L1030-1110), `json_sized_array` (L1310-1390) and `json_key_value_array`
(L1512-1591) as members of a class: `find_index`, `parse_value_variant_tagged`, `parse_value_sz_array` and
`parse_value_keyvalue_array` of `daw_json_parse_value.h`, `json_parse_kv_array_iterator` of `daw_json_parse_kv_array_iterator.h`, and the two
passes of `serialize_json_class` over the members of a class.

Simplification: the class that has such members is the document; its other members may be of any type of `Verif.Model.Typed`.
-/

namespace Verif

/-- The type of a member.
* `tagged`: `json_tagged_variant`: the tag member, the switcher from the tag to the number of an alternative, the switcher from the class
  to the tag, and the alternatives.  (Simplification: the tag is a named member.)
* `sized`: `json_sized_array`: the size member and the type of the elements.  (Simplification: the size is an integer.)
* `pairs`: `json_key_value_array`, with the number of its `json_class_t`, a class of the key and the value. -/
inductive DTy where
  | plain (ty : Ty)
  | tagged (tag : Member) (sw : Val → Nat) (wr : List Val → Val) (alts : List Ty)
  | sized (size : Member) (elem : Ty)
  | pairs (i : Nat)

/-- A mapped member, `opt` if it is nullable, `vis` if it is so with `JsonNullable::NullVisible`, `daw_json_enums.h` L82-91. -/
structure DMember where
  name : Bytes
  opt : Bool := false
  vis : Bool := false
  ty : DTy

/-! ## Reading -/

/-- The first half of `find_index`, `daw_json_parse_value.h` L827-850: the class from `class_first` on is read as a class that has only the
tag member. -/
def readTag (t : TCfg) (Δ : Env) (f : Nat) (tag : Member) (cls : Bytes) : Res Val := do
  assertWeak t.cfg.checked (headIs (· == chLBrace) cls) .invalidClassStart
  let (x, _) ← parseObj t t.exactAll [tag] (parseU t Δ f) (parseK t Δ f) cls
  .ok x

/-- `skip_value` gave a number: `skip_number` stores the positions of the decimal point and of the exponent in `class_first` and
`class_last`, `daw_json_skip.h` L178-261. -/
def Range.isNumber (r : Range) : Bool := !r.quoted && headIs (fun c => c == chMinus || isDigit c) r.text

/-- `find_index`, `daw_json_parse_value.h` L827-850, on the range of a number: the class is taken to reach from the decimal point to the
exponent.  Without a point and with an exponent the first character of the class is read through a null pointer.  (Simplification: what
an unchecked parse does with that class is not followed further.) -/
def lostClass (cfg : Cfg) (r : Range) : Res Val :=
  if cfg.checked && (r.dec.isSome || r.exp.isNone) then .err .invalidClassStart else .ub

/-- `parse_value_sz_array`, `daw_json_parse_value.h` L698-709: the size member is looked for with a path, from `class_first` on. -/
def readSize (t : TCfg) (Δ : Env) (f : Nat) (size : Member) (cls : Bytes) : Res Int := do
  let found ← findRange t size.name cls
  match found with
  | none => .err .tagMemberNotFound
  | some b => do
    let (x, _) ← parseU t Δ f size.ty b
    match x with
    | .int n => .ok n
    | _ => .ub

/-- `static_cast<std::size_t>( sz )`. -/
def asSizeT (n : Int) : Val := .int (n % 18446744073709551616)

/-- The test of `parse_value_sz_array`, `daw_json_parse_value.h` L711-717. -/
def sizeFits (cfg : Cfg) (r : Range) (n : Int) : Res Unit :=
  if cfg.checked then .ok ()
  else ensure (decide (0 ≤ n ∧ (9223372036854775808 ≤ r.counter ∨ (r.counter : Int) = n))) .numberOutOfRange

/-- `parse_value_keyvalue_array`, `daw_json_parse_value.h` L653-670, and the constructor, `operator*` and `operator++` of the iterator,
`daw_json_parse_kv_array_iterator.h` L80-165, which are those of the array iterator.  No whitespace is skipped after the bracket. -/
def parsePairs (cfg : Cfg) (p : Bytes → Res (Val × Bytes)) (bs : Bytes) : Res (Val × Bytes) := do
  assertWeak cfg.checked (headIs (· == chLBrack) bs) .expectedKeyValueArrayToStartWithBracket
  let c ← derefEnd cfg bs.tail
  if c = chRBrack then .ok (.arr [], trimChecked bs.tail.tail)
  else do
    let (vs, r) ← arrLoop cfg p bs.tail
    .ok (.arr vs, r)

/-- `parse_value<JsonMember, false>` on a member of the class that starts at `cls`: `parse_value_variant_tagged`, `daw_json_parse_value.h`
L851-858 with `parse_visit`, L799-826; `parse_value_sz_array`, L693-727; `parse_value_keyvalue_array`.  The size is handed to the constructor of
the container after the elements. -/
def depHere (t : TCfg) (Δ : Env) (f : Nat) (cls : Bytes) (d : DTy) (bs : Bytes) : Res (Val × Bytes) :=
  match d with
  | .plain ty => parseU t Δ f ty bs
  | .tagged tag sw _ alts => do
    let x ← readTag t Δ f tag cls
    let a ← altOfTag t.cfg sw alts x
    let (v, r) ← parseU t Δ f a.2 bs
    .ok (.alt a.1 v, r)
  | .sized size elem => do
    let n ← readSize t Δ f size cls
    let (v, r) ← parseArr t.cfg (parseU t Δ f elem) bs
    .ok (.cls [asSizeT n, v], r)
  | .pairs i => parsePairs t.cfg (parseU t Δ f (.ref i)) bs

/-- `parse_value<JsonMember, true>` on a member that was passed before, same lines.  The alternative of a variant is parsed as with
unknown bounds, from the start of the range.  The size member is looked for up to the end of the range. -/
def depKnown (t : TCfg) (Δ : Env) (f : Nat) (cls : Bytes) (d : DTy) (r : Range) (after : Bytes) : Res Val :=
  match d with
  | .plain ty => parseK t Δ f ty r after
  | .tagged tag sw _ alts =>
    if r.isNumber then lostClass t.cfg r
    else do
      let x ← readTag t Δ f tag cls
      let a ← altOfTag t.cfg sw alts x
      let (v, _) ← parseU (t.inside r) Δ f a.2 (r.seen t.cfg after)
      .ok (.alt a.1 v)
  | .sized size elem => do
    let n ← readSize t Δ f size (if t.cfg.checked then cls.take (cls.length - after.length) else cls)
    sizeFits t.cfg r n
    let (v, _) ← parseArr (t.inside r).cfg (parseU (t.inside r) Δ f elem) (r.seen t.cfg after)
    .ok (.cls [asSizeT n, v])
  | .pairs i => do
    let (v, _) ← parsePairs (t.inside r).cfg (parseU (t.inside r) Δ f (.ref i)) (r.seen t.cfg after)
    .ok v

/-- The members for `parseObj`: a member's type stands for its position in the list, from `j` on. -/
def encMembers (j : Nat) : List DMember → List Member
  | [] => []
  | m :: ms => ⟨m.name, if m.opt then .opt (.ref j) else .ref j⟩ :: encMembers (j + 1) ms

/-- `parse_value<JsonMember, false>` for the member with the type `ty` in `encMembers`: `parse_value_null`, `daw_json_parse_value.h`
L321-365, if it is nullable. -/
def depU (t : TCfg) (Δ : Env) (f : Nat) (cls : Bytes) (ms : List DMember) (ty : Ty) (bs : Bytes) : Res (Val × Bytes) :=
  match ty with
  | .ref j =>
    match ms[j]? with
    | some m => depHere t Δ f cls m.ty bs
    | none => .ub
  | .opt (.ref j) =>
    match ms[j]? with
    | some m => do
      match ← eatNull t.cfg bs with
      | some r => .ok (.none, r)
      | none => do
        let (v, r) ← depHere t Δ f cls m.ty bs
        .ok (.some v, r)
    | none => .ub
  | _ => .ub

/-- The same with known bounds. -/
def depK (t : TCfg) (Δ : Env) (f : Nat) (cls : Bytes) (ms : List DMember) (ty : Ty) (r : Range) (after : Bytes) : Res Val :=
  match ty with
  | .ref j =>
    match ms[j]? with
    | some m => depKnown t Δ f cls m.ty r after
    | none => .ub
  | .opt (.ref j) =>
    match ms[j]? with
    | some m =>
      if r.null then .ok .none
      else do
        let v ← depKnown t Δ f cls m.ty r after
        .ok (.some v)
    | none => .ub
  | _ => .ub

/-- `parse_value_class`, `daw_json_parse_value.h` L583-611, for a class with members `ms`: `parse_json_class` sets `class_first` to the
opening brace, `daw_json_parse_class.h` L186-193. -/
def parseDep (t : TCfg) (Δ : Env) (f : Nat) (ms : List DMember) (exact : Bool) (bs : Bytes) : Res (Val × Bytes) := do
  assertWeak t.cfg.checked (!bs.isEmpty) .unexpectedEndOfData
  let cls ← trim t.cfg bs
  let (v, r) ← parseObj t (exact || t.exactAll) (encMembers 0 ms) (depU t Δ f cls ms) (depK t Δ f cls ms) cls
  .ok (v, trimChecked r)

/-- `from_json<T>( doc )`, `daw_from_json.h` L36-84, where `T` is a class with members `ms`. -/
def fromJsonDep (t : TCfg) (Δ : Env) (f : Nat) (ms : List DMember) (exact : Bool) (bs : Bytes) : Res Val := do
  ensure (!bs.isEmpty) .emptyJSONDocument
  let b := if bs.getLast? = some 0 then bs.dropLast else bs
  let (v, r) ← parseDep t Δ f ms exact b
  if t.verifyEnd then do
    let r ← trim t.cfg r
    ensure r.isEmpty .invalidEndOfValue
    .ok v
  else .ok v

/-! ## Writing -/

/-- What is written for one member: its name, its type and its value. -/
structure OutItem where
  name : Bytes
  ty : DTy
  val : Val

/-- The loop body of `to_json_string_kv_array`, `to_daw_json_string.h` L1160-1190, for one pair, at indentation level `n`. -/
def writePair (w : WCfg) (Δ : Env) (n : Nat) (i : Nat) (v : Val) : Res Bytes :=
  match Δ i with
  | .obj [k, x] _ =>
    match v with
    | .cls [kv, xv] => do
      let a ← writeVal w Δ (n + 1) k.ty kv
      let b ← writeVal w Δ (n + 1) x.ty xv
      .ok (chLBrace :: (nextMember w (n + 1) ++ (chQuote :: (k.name ++ (chQuote :: chColon :: (spaceText w ++ (a ++ (chComma ::
        (nextMember w (n + 1) ++ (chQuote :: (x.name ++ (chQuote :: chColon :: (spaceText w ++ (b ++ (closing w n false ++ [chRBrace])))))))))))))))
    | _ => .ub
  | _ => .ub

/-- The loop of `to_json_string_kv_array`, `to_daw_json_string.h` L1159-1191. -/
def writeKvs (w : WCfg) (Δ : Env) (n : Nat) (i : Nat) : List Val → Res Bytes
  | [] => .ok []
  | v :: vs => do
    let a ← writePair w Δ n i v
    let r ← writeKvs w Δ n i vs
    .ok (nextMember w n ++ (a ++ ((if vs.isEmpty then [] else [chComma]) ++ r)))

/-- `member_to_string`, `to_daw_json_string.h` L1322-1334: `to_json_string_variant_tagged`, L506-524, `to_json_string_sized_array`, L1122-1138,
which is the writer of arrays, and `to_json_string_kv_array`, L1140-1203.  The value of a sized array is the size it was constructed with and
its elements. -/
def writeDep (w : WCfg) (Δ : Env) (n : Nat) (d : DTy) (v : Val) : Res Bytes :=
  match d with
  | .plain ty => writeVal w Δ n ty v
  | .tagged _ _ _ alts =>
    match v with
    | .alt k v =>
      match alts[k]? with
      | some ty => writeVal w Δ n ty v
      | none => .ub
    | _ => .ub
  | .sized _ elem =>
    match v with
    | .cls [_, a] => writeVal w Δ n (.arr elem) a
    | _ => .ub
  | .pairs i =>
    match v with
    | .arr vs => do
      let b ← writeKvs w Δ (n + 1) i vs
      .ok (chLBrack :: (b ++ (closing w n vs.isEmpty ++ [chRBrack])))
    | _ => .ub

/-- The member on which a member depends, if any: `dependent_member_t`. -/
def DTy.dep : DTy → Option Member
  | .tagged tag _ _ _ => some tag
  | .sized size _ => some size
  | _ => none

/-- `find_names_in_pack_v`, `to_daw_json_string.h` L1318-1346: the value of the declared member with the name. -/
def declared (name : Bytes) : List DMember → List Val → Option Val
  | m :: ms, v :: vs => if m.name = name then some v else declared name ms vs
  | _, _ => none

/-- What is written for the member on which a member depends, `to_daw_json_string.h` L1391-1400: what the switcher makes of the class, or the
declared member. -/
def depValue (all : List DMember) (vals : List Val) : DTy → Option Val
  | .tagged _ _ wr _ => some (wr vals)
  | .sized size _ => declared size.name all vals
  | _ => none

/-- What is inside of a value that is not empty. -/
def Val.inner : Val → Val
  | .some v => v
  | v => v

/-- `dependent_member_to_json_str` for the members left, `to_daw_json_string.h` L1348-1405: the items that are written and
`visited_members`. -/
def planTags (all : List DMember) (vals : List Val) (seen : List Bytes) : List DMember → List Val → Res (List OutItem × List Bytes)
  | [], [] => .ok ([], seen)
  | m :: ms, v :: vs =>
    match m.ty.dep with
    | none => planTags all vals seen ms vs
    | some d =>
      if m.opt && !m.vis && v.isNone then planTags all vals seen ms vs
      else if seen.contains d.name then planTags all vals seen ms vs
      else
        match depValue all vals m.ty with
        | none => .ub
        | some x => do
          let (is, seen) ← planTags all vals (d.name :: seen) ms vs
          .ok (⟨d.name, .plain d.ty, x⟩ :: is, seen)
  | _, _ => .ub

/-- `to_json_str` for the members left, `to_daw_json_string.h` L1408-1437; `JsonMember::nullable` is not looked at. -/
def planMembers (seen : List Bytes) : List DMember → List Val → Res (List OutItem)
  | [], [] => .ok []
  | m :: ms, v :: vs =>
    if seen.contains m.name then planMembers seen ms vs
    else if m.opt && v.isNone then planMembers (m.name :: seen) ms vs
    else do
      let is ← planMembers (m.name :: seen) ms vs
      .ok (⟨m.name, m.ty, if m.opt then v.inner else v⟩ :: is)
  | _, _ => .ub

/-- What is written for each item, `to_daw_json_string.h` L1383-1390 and L1428-1436. -/
def writeItems (w : WCfg) (Δ : Env) (n : Nat) (first : Bool) : List OutItem → Res Bytes
  | [] => .ok []
  | i :: is => do
    let a ← writeDep w Δ n i.ty i.val
    let r ← writeItems w Δ n false is
    .ok ((if first then [] else [chComma]) ++ (nextMember w n ++ (chQuote :: (i.name ++ (chQuote :: chColon :: (spaceText w ++ (a ++ r)))))))

/-- `to_json( value )`, `daw_to_json.h` L50-84, where the value is of a class with members `ms`: `serialize_json_class`,
`daw_json_serialize_impl.h` L88-145. -/
def toJsonDep (w : WCfg) (Δ : Env) (ms : List DMember) (vs : List Val) : Res Bytes := do
  let (tags, seen) ← planTags ms vs [] ms vs
  let mems ← planMembers seen ms vs
  let b ← writeItems w Δ 1 true (tags ++ mems)
  .ok (chLBrace :: (b ++ (closing w 0 ms.isEmpty ++ [chRBrace])))

end Verif
