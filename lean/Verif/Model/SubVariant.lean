import Verif.Model.Write

/-!
# Variants of classes told apart by one of their members

Models `json_submember_tagged_variant`, which a class names as its `json_data_contract`, and the choice among its alternatives.  The class that is
constructed is taken to be a variant of the alternatives.
-/

namespace Verif

/-- `parse_nth_class<N>`, `daw_json_parse_value.h` L1225-1551, with `n` alternatives: which of them is parsed for `idx`, as the `switch` statements
have it.  With seven to three alternatives left, L1307-1526, each but the last has a `case`; with two, L1527-1541, there is an `if`; otherwise,
L1542-1549, the next one is taken.  `none`: there is no such alternative. -/
def nthClass (n N idx : Nat) : Option Nat :=
  if N + 8 ≤ n then (if N ≤ idx ∧ idx < N + 8 then some idx else nthClass n (N + 8) idx)
  else if N + 3 ≤ n then (if N ≤ idx ∧ idx < n - 1 then some idx else some (n - 1))
  else if n = N + 2 then (if idx = N then some N else some (N + 1))
  else if N < n then some N
  else none
termination_by n - N

/-- Whether `parse_nth_class<N>` and what it instantiates can be compiled, `daw_json_parse_value.h` L1233-1306 and L1542-1549: the `default` of the
first `switch` instantiates `parse_nth_class<N + 8>` even if there are no more alternatives, and `nth_element` of a list that has no such element
is taken for an error. -/
def nthCompiles (n N : Nat) : Bool :=
  if N + 8 ≤ n then nthCompiles n (N + 8) else decide (N < n)
termination_by n - N

/-- The number of the alternative, `daw_json_link_types.h` L402-413: `DAW_ASSUME` of `parse_nth_class`, `daw_json_parse_value.h` L1230, makes any other
number undefined. -/
def subIndex (cfg : Cfg) (sw : Val → Nat) (n : Nat) (wrapper : Val) : Res Nat :=
  match wrapper with
  | .cls [x] => do
    assertWeak cfg.checked (decide (sw x < n)) .unexpectedJSONVariantType
    if sw x < n then .ok (sw x) else .ub
  | _ => .ub

/-- The alternative that `parse_nth_class` parses. -/
def subAlt (alts : List Ty) (k : Nat) : Res (Nat × Ty) :=
  match nthClass alts.length 0 k with
  | some j =>
    match alts[j]? with
    | some ty => .ok (j, ty)
    | none => .ub
  | none => .ub

/-- `parse_value_class<JsonMember, false>`, `daw_json_parse_value.h` L583-611, with `json_submember_tagged_variant::parse_to_class`,
`daw_json_link_types.h` L387-414.  The tag is read from a copy of the position as the only member of a class. -/
def parseSub (t : TCfg) (Δ : Env) (f : Nat) (tag : Member) (sw : Val → Nat) (alts : List Ty) (bs : Bytes) : Res (Val × Bytes) := do
  assertWeak t.cfg.checked (!bs.isEmpty) .unexpectedEndOfData
  let (x, _) ← parseObj t t.exactAll [tag] (parseU t Δ f) (parseK t Δ f) bs
  let k ← subIndex t.cfg sw alts.length x
  let a ← subAlt alts k
  let (v, r) ← parseU t Δ f a.2 bs
  .ok (.alt a.1 v, trimChecked r)

/-- The same with known bounds, on the range `r` that `skip_value` returned; `after` is what follows it. -/
def parseSubK (t : TCfg) (Δ : Env) (f : Nat) (tag : Member) (sw : Val → Nat) (alts : List Ty) (r : Range) (after : Bytes) : Res Val := do
  assertWeak t.cfg.checked (!r.text.isEmpty) .unexpectedEndOfData
  let (x, _) ← parseObj (t.inside r) t.exactAll [tag] (parseU (t.inside r) Δ f) (parseK (t.inside r) Δ f) (r.seen t.cfg after)
  let k ← subIndex t.cfg sw alts.length x
  let a ← subAlt alts k
  let (v, _) ← parseU (t.inside r) Δ f a.2 (r.seen t.cfg after)
  .ok (.alt a.1 v)

/-- `from_json<T>( doc )`, `daw_from_json.h` L36-84, see `fromJson`. -/
def fromJsonSub (t : TCfg) (Δ : Env) (f : Nat) (tag : Member) (sw : Val → Nat) (alts : List Ty) (bs : Bytes) : Res Val := do
  ensure (!bs.isEmpty) .emptyJSONDocument
  let b := if bs.getLast? = some 0 then bs.dropLast else bs
  let (v, r) ← parseSub t Δ f tag sw alts b
  if t.verifyEnd then do
    let r ← trim t.cfg r
    ensure r.isEmpty .invalidEndOfValue
    .ok v
  else .ok v

/-- `json_submember_tagged_variant::serialize`, `daw_json_link_types.h` L353-369: the alternative that the variant holds, as a class. -/
def toJsonSub (w : WCfg) (Δ : Env) (alts : List Ty) (v : Val) : Res Bytes :=
  match v with
  | .alt k x =>
    match alts[k]? with
    | some ty => toJson w Δ ty x
    | none => .ub
  | _ => .ub

end Verif
