import Verif.Model.Typed

/-!
# Iterators over arrays and JSON lines

Models `daw_json_iterator.h`, `daw_json_lines_iterator.h` and `skip_known_value` of `daw_json_skip.h`.  The constructors
that take a path, which start from the result of `find_range`, are in `Verif.Model.IterPath`.
-/

namespace Verif

/-- `skip_known_value<JsonMember>`, `daw_json_skip.h` L368-403: the position after the value.  The branch is chosen by
`expected_type`: `json_bool` is Bool, `json_number` Signed, Unsigned or Real, `json_string` StringEscaped, `json_string_raw` StringRaw, `json_date` Date, `json_custom`
Custom (a literal too), `json_raw` Unknown, `json_nullable` Null (`daw_json_link_types.h` L821), `json_array` Array, `json_key_value` KeyValue, a class Class whether it is stored as
an object or as an array (L882), `json_tuple` Tuple (L1635), the variants Variant (L988) and VariantIntrusive (L1716). -/
def skipKnown (cfg : Cfg) (Δ : Env) (ty : Ty) (bs : Bytes) : Res Bytes := do
  assertWeak cfg.checked (!bs.isEmpty) .unexpectedEndOfData
  match ty with
  | .str _ | .txt (.rawStr _) | .txt .date | .txt (.custom _) => do
    assertWeak cfg.checked (headIs (· == chQuote) bs) .invalidString
    let (_, r) ← skipStringNq cfg bs.tail
    .ok r
  | .bool | .int .. | .txt (.real ..) | .txt (.quoted ..) | .opt _ => do
    let (_, r) ← skipNumber cfg bs
    .ok r
  | .arr _ => do
    assertWeak cfg.checked (headIs (· == chLBrack) bs) .invalidArrayStart
    let (_, r) ← skipBracketed cfg arrBr bs
    .ok r
  | .map _ | .txt .raw => do
    let (_, r) ← skipValue cfg false bs
    .ok r
  | .ref i =>
    match Δ i with
    | .tup .. | .var _ | .ivar .. => do
      let (_, r) ← skipValue cfg false bs
      .ok r
    | _ => do
      assertWeak cfg.checked (headIs (· == chLBrace) bs) .invalidClassStart
      let (_, r) ← skipBracketed cfg objBr bs
      .ok r

/-- What an iterator does with an element: `parse_value<element_type, false>` and `skip_known_value<element_type>`. -/
structure ElemOps (α : Type) where
  parse : Bytes → Res (α × Bytes)
  skip : Bytes → Res Bytes

/-- Elements of a mapped type. -/
def typedOps (t : TCfg) (Δ : Env) (fuel : Nat) (ty : Ty) : ElemOps Val where
  parse := parseU t Δ fuel ty
  skip := skipKnown t.cfg Δ ty

/-- Elements of type `json_value`, the default: `parse_value_unknown`, `daw_json_parse_value.h` L1161-1174, keeps
pointer and size of the range that `skip_value<true>` returns; `skip_known_value` ends in its last branch. -/
def rawOps (cfg : Cfg) : ElemOps Bytes where
  parse := fun bs => do
    let (v, r) ← skipValue cfg true bs
    .ok (v.text, r)
  skip := fun bs => do
    assertWeak cfg.checked (!bs.isEmpty) .unexpectedEndOfData
    let (_, r) ← skipValue cfg false bs
    .ok r

/-- Which iterator: `json_array_iterator_t` (`daw_json_iterator.h` L60-217) or `json_lines_iterator`
(`daw_json_lines_iterator.h` L37-160). -/
inductive ItKind where
  | array
  | lines
  deriving DecidableEq, Repr

/-- An iterator: the text from `m_state.first` on, `m_can_skip` (as the text from there on), and whether `m_state` is
null, as in a default constructed iterator. -/
structure It where
  pos : Bytes
  canSkip : Option Bytes := none
  null : Bool := false
  deriving DecidableEq, Repr

/-- A default constructed iterator, the end of a range. -/
def It.default : It := { pos := [], null := true }

/-- `m_state.has_more( ) and m_state.front( ) != ']'`, respectively `m_state.has_more( )`. -/
def hasElem (k : ItKind) (bs : Bytes) : Bool :=
  match k with
  | .array => headIs (· != chRBrack) bs
  | .lines => !bs.isEmpty

/-- Construction from a document, `daw_json_iterator.h` L97-106, `daw_json_lines_iterator.h` L65-70. -/
def itMake (cfg : Cfg) (k : ItKind) (bs : Bytes) : Res It := do
  let b ← trim cfg bs
  match k with
  | .array => do
    assertWeak cfg.checked (headIs (· == chLBrack) b) .invalidArrayStart
    let r ← trim cfg b.tail
    .ok { pos := r }
  | .lines => .ok { pos := b }

/-- `good( )`, `daw_json_iterator.h` L182-185, `daw_json_lines_iterator.h` L119-121. -/
def itGood (k : ItKind) (it : It) : Bool := !it.null && hasElem k it.pos

/-- `operator*`, `daw_json_iterator.h` L133-144, `daw_json_lines_iterator.h` L75-86.  Simplification: `m_can_skip` is
also set when parsing throws; the iterator is not returned then. -/
def itDeref {α : Type} (cfg : Cfg) (k : ItKind) (ops : ElemOps α) (it : It) : Res (α × It) := do
  assertWeak cfg.checked (hasElem k it.pos) .unexpectedEndOfData
  let (a, r) ← ops.parse it.pos
  .ok (a, { it with canSkip := some r })

/-- `operator++`, `daw_json_iterator.h` L159-171, `daw_json_lines_iterator.h` L99-110. -/
def itInc {α : Type} (cfg : Cfg) (k : ItKind) (ops : ElemOps α) (it : It) : Res It := do
  assertWeak cfg.checked (hasElem k it.pos) .unexpectedEndOfData
  let r ← match it.canSkip with
    | some r => .ok r
    | none => ops.skip it.pos
  let r ← moveNext cfg r
  .ok { it with pos := r, canSkip := none }

/-- `operator==`, `daw_json_iterator.h` L196-205, `daw_json_lines_iterator.h` L132-141.  The pointers compared are
positions in one document, so they are equal when equally much text follows. -/
def itEq (k : ItKind) (a b : It) : Bool :=
  if !itGood k a then !itGood k b
  else if !itGood k b then false
  else a.pos.length == b.pos.length

/-- `operator!=`, `daw_json_iterator.h` L210-219, `daw_json_lines_iterator.h` L146-155. -/
def itNe (k : ItKind) (a b : It) : Bool :=
  if !itGood k a then itGood k b
  else if !itGood k b then true
  else a.pos.length != b.pos.length

/-- `operator*` of `json_array_iterator_once`, `daw_json_iterator.h` L283-290: parses in place. -/
def onceDeref {α : Type} (cfg : Cfg) (ops : ElemOps α) (it : It) : Res (α × It) := do
  assertWeak cfg.checked (hasElem .array it.pos) .unexpectedEndOfData
  let (a, r) ← ops.parse it.pos
  .ok (a, { it with pos := r })

/-- `operator++` of `json_array_iterator_once`, `daw_json_iterator.h` L296-301. -/
def onceInc (cfg : Cfg) (it : It) : Res It := do
  assertWeak cfg.checked (hasElem .array it.pos) .unexpectedEndOfData
  let r ← moveNext cfg it.pos
  .ok { it with pos := r }

/-- `operator==` of `json_array_iterator_once`, `daw_json_iterator.h` L329-338. -/
def onceEq (a b : It) : Bool :=
  if !itGood .array a then itGood .array b
  else if !itGood .array b then false
  else a.pos.length == b.pos.length

/-- `operator!=` of `json_array_iterator_once`, `daw_json_iterator.h` L343-352. -/
def onceNe (a b : It) : Bool :=
  if !itGood .array a then !itGood .array b
  else if !itGood .array b then true
  else a.pos.length != b.pos.length

/-- The user's code at one element: `*it`, `c` times. -/
def itDerefs {α : Type} (cfg : Cfg) (k : ItKind) (ops : ElemOps α) : Nat → It → Res (List α × It)
  | 0, it => .ok ([], it)
  | c + 1, it => do
    let (a, it₁) ← itDeref cfg k ops it
    let (as, it₂) ← itDerefs cfg k ops c it₁
    .ok (a :: as, it₂)

/-- The user's loop: at each element dereference as often as the list says, then `++it`. -/
def itWalk {α : Type} (cfg : Cfg) (k : ItKind) (ops : ElemOps α) : List Nat → It → Res (List (List α) × It)
  | [], it => .ok ([], it)
  | c :: cs, it => do
    let (as, it₁) ← itDerefs cfg k ops c it
    let it₂ ← itInc cfg k ops it₁
    let (ass, it₃) ← itWalk cfg k ops cs it₂
    .ok (as :: ass, it₃)

/-- The user's loop with a `json_array_iterator_once`: `*it`, then `++it`, `n` times. -/
def onceWalk {α : Type} (cfg : Cfg) (ops : ElemOps α) : Nat → It → Res (List α × It)
  | 0, it => .ok ([], it)
  | n + 1, it => do
    let (a, it₁) ← onceDeref cfg ops it
    let it₂ ← onceInc cfg it₁
    let (as, it₃) ← onceWalk cfg ops n it₂
    .ok (a :: as, it₃)

/-! ## Partitioning JSON lines -/

/-- `daw::string_view::trim_suffix`, not part of the library: removes the longest suffix of white space.  Which
characters count as white space is left open. -/
def trimSuffix (sp : UInt8 → Bool) (bs : Bytes) : Bytes := (bs.reverse.dropWhile sp).reverse

/-- The inner loop of `partition_jsonl_document`, `daw_json_lines_iterator.h` L233-238: how far `tmp` moves. -/
def toLineEnd : Bytes → Nat
  | [] => 0
  | c :: cs => if c = chNl then 1 else toLineEnd cs + 1

/-- The outer loop of `partition_jsonl_document`, `daw_json_lines_iterator.h` L227-245, `seg` being
`approx_segsize`.  The first argument bounds the number of rounds; every round takes at least one byte, so the length of the
document is enough. -/
def partLoop (sp : UInt8 → Bool) (seg : Nat) : Nat → Bytes → List Bytes
  | 0, _ => []
  | n + 1, doc =>
    if doc.isEmpty then []
    else if doc.length ≤ seg then [doc]
    else
      let sz := seg + toLineEnd (doc.drop seg)
      let chunk := trimSuffix sp (doc.take sz)
      if chunk.isEmpty then partLoop sp seg n (doc.drop sz)
      else chunk :: partLoop sp seg n (doc.drop sz)

/-- `partition_jsonl_document`, `daw_json_lines_iterator.h` L214-247: the text of each range. -/
def partitionLines (sp : UInt8 → Bool) (n : Nat) (doc : Bytes) : List Bytes :=
  if n ≤ 1 then [doc] else partLoop sp (doc.length / n) doc.length doc

end Verif
