import Verif.Model.Write

/-!
# Containers: arrays of a fixed size and maps

What the constructors of `std::array`, `std::map` and `std::unordered_map` do with the elements that the iterators of the parser hand them,
`daw_json_default_constuctor.h` and `daw_json_default_constuctor_fwd.h`.
-/

namespace Verif

/-- `operator++` of `json_parse_array_iterator`, `daw_json_parse_array_iterator.h` L128-160: whether there is a further element, and
where the parser stands then. -/
def iterNext (cfg : Cfg) (bs : Bytes) : Res (Bool × Bytes) := do
  let b ← trim cfg bs
  assertWeak cfg.checked (headIs (fun c => c == chComma || c == chRBrack) b) .unexpectedEndOfData
  let b ← moveNext cfg b
  assertWeak cfg.checked (!b.isEmpty) .unexpectedEndOfData
  let c ← deref b
  if c = chRBrack then .ok (false, trimChecked b.tail) else .ok (true, b)

/-- `construct_array` of `default_constructor<std::array<T, Sz>>`, `daw_json_default_constuctor.h` L45-66: `n` elements are still to be made,
the flag tells whether `first != last`; `dflt` is `T{ }`.  `p` is `parse_value` of the element. -/
def fixElems (cfg : Cfg) (p : Bytes → Res (Val × Bytes)) (dflt : Val) : Nat → Bool → Bytes → Res (List Val × Bytes)
  | 0, _, bs => .ok ([], bs)
  | n + 1, false, bs => do
    let (vs, r) ← fixElems cfg p dflt n false bs
    .ok (dflt :: vs, r)
  | n + 1, true, bs => do
    assertWeak cfg.checked (!bs.isEmpty) .unexpectedEndOfData
    let (v, b) ← p bs
    let (more, b) ← iterNext cfg b
    let (vs, r) ← fixElems cfg p dflt n more b
    .ok (v :: vs, r)

/-- `parse_value_array`, `daw_json_parse_value.h` L672-689, for a `std::array` of `n` elements, with the constructor of the iterator,
`daw_json_parse_array_iterator.h` L100-112. -/
def parseFixArr (cfg : Cfg) (p : Bytes → Res (Val × Bytes)) (dflt : Val) (n : Nat) (bs : Bytes) : Res (Val × Bytes) := do
  let b ← trim cfg bs
  assertWeak cfg.checked (headIs (· == chLBrack) b) .invalidArrayStart
  let b ← trimUncheckedEnd cfg b.tail
  let c ← derefEnd cfg b
  let (vs, r) ← fixElems cfg p dflt n (c != chRBrack) (if c = chRBrack then trimChecked b.tail else b)
  .ok (.arr vs, r)

/-- The end of `from_json`, `daw_from_json.h` L71-83: with `MustVerifyEndOfDataIsValid::yes` nothing but whitespace may be left. -/
def endOfDoc (t : TCfg) (x : Val × Bytes) : Res Val :=
  if t.verifyEnd then do
    let r ← trim t.cfg x.2
    ensure r.isEmpty .invalidEndOfValue
    .ok x.1
  else .ok x.1

/-- The start of `from_json`, `daw_from_json.h` L41-69: a final NUL is no part of the document; `p` is `parse_value`. -/
def fromJsonBy (t : TCfg) (p : Bytes → Res (Val × Bytes)) (bs : Bytes) : Res Val := do
  ensure (!bs.isEmpty) .emptyJSONDocument
  let x ← p (if bs.getLast? = some 0 then bs.dropLast else bs)
  endOfDoc t x

/-- `from_json<std::array<T, n>>( doc )`, `daw_from_json.h` L36-84. -/
def fromJsonFix (t : TCfg) (Δ : Env) (f : Nat) (ty : Ty) (dflt : Val) (n : Nat) (bs : Bytes) : Res Val :=
  fromJsonBy t (parseFixArr t.cfg (parseU t Δ f ty) dflt n) bs

/-- `parse_value<JsonMember, false>` where every array member is a `std::array` of `n` elements, `daw_json_parse_value.h` L1178-1223.
(Simplification: the size is the same for all of them.) -/
def parseFixU (t : TCfg) (Δ : Env) (f : Nat) (dflt : Val) (n : Nat) (ty : Ty) (bs : Bytes) : Res (Val × Bytes) :=
  match ty with
  | .arr e => parseFixArr t.cfg (parseU t Δ f e) dflt n bs
  | ty => parseU t Δ f ty bs

/-- `parse_value<JsonMember, true>` where every array member is a `std::array` of `n` elements, `daw_json_parse_value.h` L1178-1223: what is
left of the range is not looked at, `daw_json_parse_class.h` L148-150. -/
def parseFixK (t : TCfg) (Δ : Env) (f : Nat) (dflt : Val) (n : Nat) (ty : Ty) (r : Range) (after : Bytes) : Res Val :=
  match ty with
  | .arr e => do
    let x ← parseFixArr t.cfg (parseU t Δ f e) dflt n r.text
    .ok x.1
  | ty => parseK t Δ f ty r after

/-- A class whose array members are `std::array`s of `n` elements: `parse_json_class`, `daw_json_parse_class.h` L182-277. -/
def parseFixObj (t : TCfg) (Δ : Env) (f : Nat) (dflt : Val) (n : Nat) (ms : List Member) (bs : Bytes) : Res (Val × Bytes) :=
  parseObj t t.exactAll ms (parseFixU t Δ f dflt n) (parseFixK t Δ f dflt n) bs

/-! ## Maps -/

/-- The order of `std::string`, that is of `std::char_traits<char>::compare`: the keys of the `std::map` that
`daw_json_default_constuctor_fwd.h` L45-48 constructs are ordered by it. -/
def keyLt : Bytes → Bytes → Bool
  | [], [] => false
  | [], _ :: _ => true
  | _ :: _, [] => false
  | a :: as, b :: bs => a < b || (a == b && keyLt as bs)

/-- `std::map::insert` of one pair, the map as the list of its pairs in order: no effect if the key is there. -/
def mapInsert (k : Bytes) (v : Val) : List (Bytes × Val) → List (Bytes × Val)
  | [] => [(k, v)]
  | (k', v') :: m => if keyLt k k' then (k, v) :: (k', v') :: m else if keyLt k' k then (k', v') :: mapInsert k v m else (k', v') :: m

/-- `std::map( first, last )`, which the `default_constructor` of `daw_json_default_constuctor_fwd.h` L41-49 calls: the pairs are inserted
one after the other. -/
def mapOf (kvs : List (Bytes × Val)) : List (Bytes × Val) := kvs.foldl (fun m kv => mapInsert kv.1 kv.2 m) []

/-- `from_json<std::map<std::string, T>>( doc )`, `daw_from_json.h` L36-84. -/
def fromJsonMap (t : TCfg) (Δ : Env) (f : Nat) (ty : Ty) (bs : Bytes) : Res (List (Bytes × Val)) := do
  match ← fromJson t Δ f (.map ty) bs with
  | .map kvs => .ok (mapOf kvs)
  | _ => .ub

end Verif
