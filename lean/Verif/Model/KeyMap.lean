import Verif.Model.Write

/-!
# Maps with keys that are not strings

`json_key_value` with a key type of its own, `daw_json_link_types.h` L1400-1461, e.g. for `std::map<int, T>`.  A literal key type is made
`LiteralAsStringOpt::Always`, `json_key_lit_fix_t`, L119-129.  (Simplification: the map is the document itself; the container keeps the
pairs as they come; keys that are reals are not modelled.)
-/

namespace Verif

/-- The pairs: `operator*` and `operator++` of `json_parse_kv_class_iterator`, `daw_json_parse_kv_class_iterator.h` L113-160; `pk` is
`parse_value<key_t, false>`, `p` is `parse_value<value_t, false>`.  A step that does not move forward would loop for ever. -/
def keyLoop (cfg : Cfg) (pk p : Bytes → Res (Val × Bytes)) (bs : Bytes) : Res (List (Val × Val) × Bytes) := do
  assertWeak cfg.checked (!bs.isEmpty) .unexpectedEndOfData
  let (k, b) ← pk bs
  let b ← trimEndOfName cfg b
  let (v, b) ← p b
  let b ← moveNext cfg b
  assertWeak cfg.checked (!b.isEmpty) .unexpectedEndOfData
  let c ← deref b
  if c = chRBrace then .ok ([(k, v)], trimChecked b.tail)
  else if _h : b.length < bs.length then do
    let (vs, r) ← keyLoop cfg pk p b
    .ok ((k, v) :: vs, r)
  else .ub
termination_by bs.length

/-- `parse_value_keyvalue`, `daw_json_parse_value.h` L621-641, and the constructor of the iterator,
`daw_json_parse_kv_class_iterator.h` L95-108. -/
def parseKeyMap (cfg : Cfg) (pk p : Bytes → Res (Val × Bytes)) (bs : Bytes) : Res (List (Val × Val) × Bytes) := do
  assertWeak cfg.checked (headIs (· == chLBrace) bs) .expectedKeyValueToStartWithBrace
  let b ← trim cfg bs.tail
  ensure (!b.isEmpty) .unexpectedEndOfData
  let c ← deref b
  if c = chRBrace then .ok ([], trimChecked b.tail)
  else keyLoop cfg pk p b

/-- `from_json<json_key_value<Container, V, K>>( doc )`, `daw_from_json.h` L36-84. -/
def fromJsonKeyMap (t : TCfg) (Δ : Env) (f : Nat) (kt ty : Ty) (bs : Bytes) : Res (List (Val × Val)) := do
  ensure (!bs.isEmpty) .emptyJSONDocument
  let b := if bs.getLast? = some 0 then bs.dropLast else bs
  let (v, r) ← parseKeyMap t.cfg (parseU t Δ f kt) (parseU t Δ f ty) b
  if t.verifyEnd then do
    let r ← trim t.cfg r
    ensure r.isEmpty .invalidEndOfValue
    .ok v
  else .ok v

/-- The loop of `to_json_string_kv`, `to_daw_json_string.h` L1218-1231. -/
def writeKeyed (w : WCfg) (Δ : Env) (n : Nat) (kt ty : Ty) : List (Val × Val) → Res Bytes
  | [] => .ok []
  | (k, v) :: kvs => do
    let b ← writeVal w Δ n kt k
    let a ← writeVal w Δ n ty v
    let r ← writeKeyed w Δ n kt ty kvs
    .ok (nextMember w n ++ (b ++ (chColon :: (spaceText w ++ (a ++ ((if kvs.isEmpty then [] else [chComma]) ++ r))))))

/-- `to_json` of such a map, `to_json_string_kv`, `to_daw_json_string.h` L1205-1245. -/
def toJsonKeyMap (w : WCfg) (Δ : Env) (kt ty : Ty) (kvs : List (Val × Val)) : Res Bytes := do
  let b ← writeKeyed w Δ 1 kt ty kvs
  .ok (chLBrace :: (b ++ (closing w 0 kvs.isEmpty ++ [chRBrace])))

end Verif
