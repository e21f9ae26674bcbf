import Verif.Model.Typed

/-!
# Untyped values: iteration, lookup, paths, cached positions

Models `basic_json_value`, `basic_json_value_iterator` and `basic_json_pair` of `daw_json_value.h`,
`basic_stateful_json_value` of `daw_json_value_state.h` and the path functions of `daw_json_parse_name.h`.

Functions of `daw::string_view` that are used there are not part of the repository.  Assumed of them:
`pop_front_until( pred )` returns the text in front of the first character for which `pred` holds and removes it and
that character from the view (everything if there is no such character); with `nodiscard` the character stays; the
predicate `escaped_any_of<'.', '['>` holds for these two characters unless a backslash stands in front (and is not
itself escaped).
-/

namespace Verif

/-- `basic_json_value`: the text from the start of the value to the end of the document, `m_parse_state`.  A default
constructed one has no text. -/
abbrev JV := Bytes

/-- `JsonBaseParseTypes`, `daw_json_enums.h` L52-60. -/
inductive Kind where
  | number | bool | string | null | cls | array | none
  deriving DecidableEq, Repr

/-- Constructor of `basic_json_value`, `daw_json_value.h` L363-386. -/
def jvMake (cfg : Cfg) (bs : Bytes) : Res JV := trim cfg bs

/-- `basic_json_value::type`, `daw_json_value.h` L561-608. -/
def jvType (cfg : Cfg) (jv : JV) : Res Kind :=
  match jv with
  | [] => .ok .none
  | c :: _ =>
    if c = chQuote then .ok .string
    else if c = chLBrace then .ok .cls
    else if c = chLBrack then .ok .array
    else if c = chMinus ∨ isDigit c = true then .ok .number
    else if c = chT then
      .ok (if cfg.checked = false ∨ (chT :: txtRue).isPrefixOf jv = true then .bool else .none)
    else if c = chF then
      .ok (if cfg.checked = false ∨ (chF :: txtAlse).isPrefixOf jv = true then .bool else .none)
    else if c = chN then do
      assertWeak cfg.checked ((chN :: txtUll).isPrefixOf jv) .invalidNull
      .ok .null
    else .ok .none

/-- `get_string_view`, `daw_json_value.h` L625-629. -/
def jvStringView (cfg : Cfg) (jv : JV) : Res Bytes := do
  let (r, _) ← skipValue cfg false jv
  .ok r.text

/-- `get_state`, `daw_json_value.h` L612-622: for a string the range is widened by one byte at both ends. -/
def jvState (cfg : Cfg) (jv : JV) : Res Bytes := do
  let (r, _) ← skipValue cfg false jv
  let k ← jvType cfg jv
  .ok (if k = .string then jv.take (r.text.length + 2) else r.text)

/-! ## Iteration -/

/-- `basic_json_value_iterator`, `daw_json_value.h` L110-300: `*m_state.class_first` and the rest of the text. -/
structure JIter where
  opener : UInt8
  pos : Bytes
  deriving DecidableEq, Repr

/-- `basic_json_value::begin`, `daw_json_value.h` L402-409.  Not defined on an empty value, where the code moves past
the end. -/
def jvBegin (cfg : Cfg) (jv : JV) : Res JIter :=
  match jv with
  | [] => .ub
  | c :: cs => do
    let b ← trim cfg cs
    .ok ⟨c, b⟩

/-- `good`, `daw_json_value.h` L233-262, which is also `it != end( )`, L280-301: the end iterator is default
constructed and never good. -/
def JIter.good (it : JIter) : Res Bool :=
  match it.pos with
  | [] => .ok false
  | c :: _ =>
    if c = chLBrack ∨ c = chLBrace ∨ c = chQuote ∨ c = chMinus ∨ isDigit c = true ∨ c = chT ∨ c = chF ∨ c = chN then .ok true
    else if c = chRBrace ∨ c = chRBrack then .ok false
    else .err .expectedTokenNotFound

/-- `name`, `daw_json_value.h` L150-157. -/
def JIter.name (t : TCfg) (it : JIter) : Res (Option Bytes) :=
  if it.opener = chLBrack then .ok none
  else do
    let (n, _) ← parseName t it.pos
    .ok (some n)

/-- `operator*`, `daw_json_value.h` L175-189. -/
def JIter.get (t : TCfg) (it : JIter) : Res (Option Bytes × JV) :=
  if it.opener = chLBrack then do
    let v ← jvMake t.cfg it.pos
    .ok (none, v)
  else do
    let (n, b) ← parseName t it.pos
    let v ← jvMake t.cfg b
    .ok (some n, v)

/-- `operator++`, `daw_json_value.h` L201-210. -/
def JIter.next (t : TCfg) (it : JIter) : Res JIter := do
  let g ← it.good
  if g = true then do
    let b ← (if it.opener = chLBrace then do
        let (_, b) ← parseName t it.pos
        .ok b
      else .ok it.pos : Res Bytes)
    let (_, b) ← skipValue t.cfg false b
    let b ← moveNext t.cfg b
    .ok { it with pos := b }
  else .ok it

/-- `for( auto jp : jv )`: the name/value pairs, in the order they are visited.  A step that does not move forward would
loop for ever; it cannot happen in checked mode. -/
def iterAll (t : TCfg) (it : JIter) : Res (List (Option Bytes × JV)) := do
  let g ← it.good
  if g = false then .ok []
  else do
    let p ← it.get t
    let it' ← it.next t
    if _h : it'.pos.length < it.pos.length then do
      let ps ← iterAll t it'
      .ok (p :: ps)
    else .ub
termination_by it.pos.length

/-! ## Lookup -/

/-- `daw::algorithm::find_if( begin( ), end( ), p )` with a test of the name: the iterator found, if any. -/
def findIf (t : TCfg) (p : Bytes → Bool) (it : JIter) : Res (Option JIter) := do
  let g ← it.good
  if g = false then .ok none
  else do
    let (n, _) ← it.get t
    if p (n.getD []) = true then .ok (some it)
    else do
      let it' ← it.next t
      if _h : it'.pos.length < it.pos.length then findIf t p it' else .ub
termination_by it.pos.length

/-- The comparison loop of `find_class_member` for a name with backslashes, `daw_json_value.h` L432-446. -/
def escMatch : Bytes → Bytes → Bool
  | c :: cs, d :: ds => if c = chBslash then escMatch cs (d :: ds) else if c ≠ d then false else escMatch cs ds
  | [], [] => true
  | _, _ => false

/-- `find_class_member`, `daw_json_value.h` L420-463. -/
def findClassMember (t : TCfg) (jv : JV) (name : Bytes) : Res JV := do
  let k ← jvType t.cfg jv
  if k ≠ .cls then .ok []
  else do
    let it ← jvBegin t.cfg jv
    let pos ← findIf t (if name.contains chBslash then escMatch name else fun n => n == name) it
    match pos with
    | none => .ok []
    | some it => do
      let (_, v) ← it.get t
      .ok v

/-- The loop of `find_element`, `daw_json_value.h` L532-535.  `nsc_and` evaluates both of its arguments. -/
def advance (t : TCfg) : Nat → JIter → Res (Nat × JIter)
  | 0, it => do
    let _ ← it.good
    .ok (0, it)
  | n + 1, it => do
    let g ← it.good
    if g = true then do
      let it' ← it.next t
      advance t n it'
    else .ok (n + 1, it)

/-- `find_element`, `daw_json_value.h` L528-541. -/
def findElement (t : TCfg) (jv : JV) (index : Nat) : Res JV := do
  let it ← jvBegin t.cfg jv
  let (left, it) ← advance t index it
  if left = 0 then do
    let (_, v) ← it.get t
    .ok v
  else .ok []

/-! ## Paths from a value -/

/-- `pop_front_until( ']' )`: the text in front of the first `]`, and the text after it. -/
def popBracket : Bytes → Bytes × Bytes
  | [] => ([], [])
  | c :: cs => if c = chRBrack then ([], cs) else (c :: (popBracket cs).1, (popBracket cs).2)

/-- `pop_front_until( escaped_any_of<'.', '['>{ }, nodiscard )`: the text in front of the first `.` or `[` that is not
escaped, and the text from there. -/
def popMember : Bytes → Bytes × Bytes
  | [] => ([], [])
  | c :: cs =>
    if c = chBslash then
      match cs with
      | [] => ([c], [])
      | d :: ds => (c :: d :: (popMember ds).1, (popMember ds).2)
    else if c = chDot ∨ c = chLBrack then ([], c :: cs)
    else (c :: (popMember cs).1, (popMember cs).2)

/-- `if( not path.empty( ) and path.front( ) == '.' ) path.remove_prefix( )`. -/
def dropDot (path : Bytes) : Bytes := if headIs (· == chDot) path then path.tail else path

theorem popBracket_length (b : Bytes) : (popBracket b).2.length ≤ b.length := by
  induction b with
  | nil => simp [popBracket]
  | cons c cs ih => unfold popBracket; split <;> simp <;> omega

theorem popMember_length (b : Bytes) : (popMember b).2.length ≤ b.length := by
  fun_induction popMember b <;> simp <;> omega

theorem dropDot_length (b : Bytes) : (dropDot b).length ≤ b.length := by
  unfold dropDot; split <;> simp

/-- `find_member`, `daw_json_value.h` L467-501.  `member.front( )` is undefined if there is nothing in front of the
delimiter. -/
def jvFind (t : TCfg) (jv : JV) (path : Bytes) : Res JV :=
  match path with
  | [] => .ok jv
  | c :: cs => do
    let k ← jvType t.cfg jv
    if k = .none then .ok jv
    else if c = chLBrack then do
      let idx ← unsignedKnown 64 false (popBracket cs).1
      let jv' ← findElement t jv idx
      jvFind t jv' (dropDot (dropDot (popBracket cs).2))
    else if c = chDot then .ub
    else do
      let jv' ← findClassMember t jv (popMember (c :: cs)).1
      if _h : (dropDot (popMember (c :: cs)).2).length < (c :: cs).length then
        jvFind t jv' (dropDot (popMember (c :: cs)).2)
      else .ub
termination_by path.length
decreasing_by
  · have h1 := dropDot_length (dropDot (popBracket cs).2)
    have h2 := dropDot_length (popBracket cs).2
    have h3 := popBracket_length cs
    simp only [List.length_cons]
    omega
  · assumption

/-! ## Paths from the start of the document -/

/-- The text in front of the first `.`, `[` or `]` that is not escaped, and the text from there: the predicate in
`pop_json_path`, `daw_json_parse_name.h` L84-102. -/
def popPathItem : Bytes → Bytes × Bytes
  | [] => ([], [])
  | c :: cs =>
    if c = chBslash then
      match cs with
      | [] => ([c], [])
      | d :: ds => (c :: d :: (popPathItem ds).1, (popPathItem ds).2)
    else if c = chDot ∨ c = chLBrack ∨ c = chRBrack then ([], c :: cs)
    else (c :: (popPathItem cs).1, (popPathItem cs).2)

/-- `pop_json_path`, `daw_json_parse_name.h` L74-104: the item, the delimiter found, the rest of the path. -/
def popJsonPath (path : Bytes) : Bytes × Option UInt8 × Bytes :=
  let (item, rest) := popPathItem (dropDot path)
  (item, rest.head?, rest.tail)

/-- The loop of `json_path_compare`, `daw_json_parse_name.h` L112-123. -/
def pathCompareLoop : Bytes → Bytes → Bool
  | c :: cs, d :: ds =>
    if c ≠ d then false else pathCompareLoop (if headIs (· == chBslash) cs then cs.tail else cs) ds
  | a, b => a.length == b.length
termination_by _ b => b.length

/-- `json_path_compare`, `daw_json_parse_name.h` L106-124. -/
def pathCompare (item name : Bytes) : Bool :=
  pathCompareLoop (if headIs (· == chBslash) item then item.tail else item) name

/-- The loop of `parse_unsigned_int<std::size_t>`, `daw_json_parse_name.h` L133-139; `count` is `digits`, 64.
Simplified: the sign extension of bytes of 0x80 and above (where `char` is signed) is not modelled. -/
def pathIndexLoop (r : Nat) : Nat → Bytes → Nat × Bytes
  | 0, bs => (r, bs)
  | _ + 1, [] => (r, [])
  | count + 1, c :: cs =>
    pathIndexLoop ((18446744073709551568 + (r * 10 % 18446744073709551616) + c.toNat) % 18446744073709551616) count cs

/-- `parse_unsigned_int<std::size_t>`, `daw_json_parse_name.h` L126-145. -/
def pathIndex (bs : Bytes) : Res Nat := do
  let c ← deref bs
  ensure (c != chMinus) .invalidNumber
  ensure (pathIndexLoop 0 64 bs).2.isEmpty .invalidNumber
  .ok (pathIndexLoop 0 64 bs).1

/-- The loop over array elements of `find_range2`, `daw_json_parse_name.h` L174-183: `none` means "return false". -/
def pathElems (t : TCfg) : Nat → Bytes → Res (Option Bytes)
  | 0, bs => .ok (some bs)
  | n + 1, bs => do
    let (_, b) ← skipValue t.cfg false bs
    let b := trimChecked b
    if 0 < n ∧ headIs (· != chComma) b = true then .ok none
    else do
      let b ← moveNext t.cfg b
      pathElems t n b

/-- The loop over members of `find_range2`, `daw_json_parse_name.h` L189-197; `bs` is at a name. -/
def pathMembers (t : TCfg) (item : Bytes) (bs : Bytes) : Res (Option Bytes) := do
  let (name, b) ← parseName t bs
  if pathCompare item name = true then .ok (some b)
  else do
    let (_, b) ← skipValue t.cfg false b
    let b ← moveNext t.cfg b
    if headIs (· == chQuote) b = false then .ok none
    else if _h : b.length < bs.length then pathMembers t item b
    else .ub
termination_by bs.length

/-- One step of the loop of `find_range2`, `daw_json_parse_name.h` L163-198. -/
def pathStep (t : TCfg) (item : Bytes) (found : Option UInt8) (bs : Bytes) : Res (Option Bytes) :=
  if found = some chRBrack then do
    whenChecked t.cfg (ensure (headIs (· == chLBrack) bs) .invalidJSONPath)
    let b ← trimUnchecked bs.tail
    let idx ← pathIndex item
    pathElems t idx b
  else do
    whenChecked t.cfg (ensure (headIs (· == chLBrace) bs) .invalidJSONPath)
    let b ← trimUnchecked bs.tail
    pathMembers t item b

theorem popPathItem_length (b : Bytes) : (popPathItem b).1.length + (popPathItem b).2.length = b.length := by
  fun_induction popPathItem b <;> simp <;> omega

theorem popJsonPath_length (b : Bytes) (h : (popJsonPath b).1 ≠ []) : (popJsonPath b).2.2.length < b.length := by
  have h1 := popPathItem_length (dropDot b)
  have h2 := dropDot_length b
  have h3 : 0 < (popPathItem (dropDot b)).1.length := by
    cases hh : (popPathItem (dropDot b)).1 with
    | nil => simp [popJsonPath, hh] at h
    | cons => simp
  simp only [popJsonPath, List.length_tail]
  omega

/-- `find_range2`, `daw_json_parse_name.h` L157-200: the position reached, or not found. -/
def findRange2 (t : TCfg) (path : Bytes) (bs : Bytes) : Res (Option Bytes) :=
  if _h : (popJsonPath path).1 = [] then .ok (some bs)
  else do
    let r ← pathStep t (popJsonPath path).1 (popJsonPath path).2.1 bs
    match r with
    | none => .ok none
    | some b => findRange2 t (popJsonPath path).2.2 b
termination_by path.length
decreasing_by exact popJsonPath_length path _h

/-- `find_range`, `daw_json_parse_name.h` L202-213. -/
def findRange (t : TCfg) (path : Bytes) (bs : Bytes) : Res (Option Bytes) :=
  if trimChecked bs = [] ∨ path = [] then .ok (some (trimChecked bs)) else findRange2 t path (trimChecked bs)

/-! ## Cached positions -/

/-- `basic_stateful_json_value_state`, `daw_json_value_state.h` L31-60. -/
structure JLoc where
  name : Bytes
  hash : UInt32
  iter : JIter
  deriving DecidableEq, Repr

/-- `basic_stateful_json_value`, `daw_json_value_state.h` L79-87: `m_value` and `m_locs`. -/
structure JState where
  value : JV
  locs : List JLoc
  deriving DecidableEq, Repr

/-- Constructor of `basic_stateful_json_value`, `daw_json_value_state.h` L161-173. -/
def jsMake (cfg : Cfg) (jv : JV) : Res JState := do
  whenChecked cfg do
    let k ← jvType cfg jv
    ensure (k == .cls || k == .array) .expectedArrayOrClassStart
  .ok ⟨jv, []⟩

/-- Where the search goes on: `daw_json_value_state.h` L103-110, L134-141. -/
def jsResume (t : TCfg) (s : JState) : Res JIter :=
  match s.locs.getLast? with
  | none => jvBegin t.cfg s.value
  | some l => l.iter.next t

/-- The second loop of `move_to( json_member_name )`, `daw_json_value_state.h` L112-123. -/
def scanName (t : TCfg) (key : Bytes) (locs : List JLoc) (it : JIter) : Res (Nat × List JLoc) := do
  let g ← it.good
  if g = false then .ok (locs.length, locs)
  else do
    let n ← it.name t
    match n with
    | none => if t.cfg.checked then .err .missingMemberName else .ub
    | some n =>
      if n = key then .ok (locs.length, locs ++ [⟨n, nameHash t.longNames n, it⟩])
      else do
        let it' ← it.next t
        if _h : it'.pos.length < it.pos.length then scanName t key (locs ++ [⟨n, nameHash t.longNames n, it⟩]) it'
        else .ub
termination_by it.pos.length

/-- `move_to( json_member_name )`, `daw_json_value_state.h` L94-125: the position and the new state.  An exception leaves
the positions found so far in the cache; that state is not tracked. -/
def moveToName (t : TCfg) (s : JState) (key : Bytes) : Res (Nat × JState) :=
  match s.locs.findIdx? (fun l => nameHash false key == l.hash && l.name == key) with
  | some pos => .ok (pos, s)
  | none => do
    let it ← jsResume t s
    let (pos, locs) ← scanName t key s.locs it
    .ok (pos, { s with locs := locs })

/-- The loop of `move_to( std::size_t )`, `daw_json_value_state.h` L144-158. -/
def scanIndex (t : TCfg) (index : Nat) (locs : List JLoc) (it : JIter) : Res (Nat × List JLoc) := do
  let g ← it.good
  if g = false then .ok (locs.length, locs)
  else do
    let n ← it.name t
    if locs.length = index then .ok (locs.length, locs ++ [⟨n.getD [], nameHash t.longNames (n.getD []), it⟩])
    else do
      let it' ← it.next t
      if _h : it'.pos.length < it.pos.length then
        scanIndex t index (locs ++ [⟨n.getD [], nameHash t.longNames (n.getD []), it⟩]) it'
      else .ub
termination_by it.pos.length

/-- `move_to( std::size_t )`, `daw_json_value_state.h` L130-160. -/
def moveToIndex (t : TCfg) (s : JState) (index : Nat) : Res (Nat × JState) :=
  if index < s.locs.length then .ok (index, s)
  else do
    let it ← jsResume t s
    let (pos, locs) ← scanIndex t index s.locs it
    .ok (pos, { s with locs := locs })

/-- `m_locs[pos].location->value`; `std::vector::operator[]` outside the vector is undefined. -/
def jsValueAt (t : TCfg) (s : JState) (pos : Nat) : Res JV :=
  match s.locs[pos]? with
  | none => .ub
  | some l => do
    let (_, v) ← l.iter.get t
    .ok v

/-- The queries that can be made: `operator[]( key )`, `at( key )`, `index_of( key )`, `contains( key )`, `size( )` and
`operator[]( index )` for a 64 bit signed index other than the smallest one.  (`at( index )`, `name_of` and
`contains( std::size_t )` do not compile when used: they call a data member, or `size` with an argument.) -/
inductive Lookup where
  | byName (key : Bytes)
  | atName (key : Bytes)
  | indexOf (key : Bytes)
  | contains (key : Bytes)
  | size
  | byIndex (index : Int)

/-- What a query returns. -/
inductive Answer where
  | value (v : JV)
  | num (n : Nat)
  | bool (b : Bool)
  deriving DecidableEq, Repr

/-- Continue with the position and the state that `move_to` leaves behind.  (Positions found before `move_to` itself
throws stay in the cache; that is not tracked.) -/
def jsThen (m : Res (Nat × JState)) (s : JState) (f : Nat → JState → Res Answer) : Res Answer × JState :=
  match m with
  | .ok (pos, s') => (f pos s', s')
  | .err e => (.err e, s)
  | .ub => (.ub, s)

/-- `size( )`, `daw_json_value_state.h` L239-254. -/
def jsSize (t : TCfg) (s : JState) : Res (Nat × JState) := do
  let k ← jvType t.cfg s.value
  if k = .array ∨ k = .cls then moveToIndex t s 18446744073709551615 else .ok (0, s)

/-- `daw_json_assert_weak( pos < std::size( m_locs ) ); return m_locs[pos].location->value`. -/
def jsChecked (t : TCfg) (pos : Nat) (s : JState) : Res Answer := do
  assertWeak t.cfg.checked (decide (pos < s.locs.length)) .unknownMember
  let v ← jsValueAt t s pos
  .ok (.value v)

/-- The queries of `basic_stateful_json_value`: the answer, and the state afterwards.  `operator[]( key )` L197-203,
`at( key )` L224-232, `index_of` L264-267, `contains` L274-277, `size` L239-254, `operator[]( index )` L328-347 of
`daw_json_value_state.h`. -/
def jsLookup (t : TCfg) (s : JState) : Lookup → Res Answer × JState
  | .byName key => jsThen (moveToName t s key) s fun pos s => jsChecked t pos s
  | .atName key => jsThen (moveToName t s key) s fun pos s =>
      if pos < s.locs.length then do
        let v ← jsValueAt t s pos
        .ok (.value v)
      else .ok (.value [])
  | .indexOf key => jsThen (moveToName t s key) s fun pos _ => .ok (.num pos)
  | .contains key => jsThen (moveToName t s key) s fun pos s => .ok (.bool (decide (pos < s.locs.length)))
  | .size => jsThen (jsSize t s) s fun pos _ => .ok (.num pos)
  | .byIndex index =>
    if index < 0 then jsThen (jsSize t s) s fun sz s => do
      assertWeak t.cfg.checked (decide (index.natAbs < sz)) .unknownMember
      if sz < index.natAbs then .ub
      else do
        let v ← jsValueAt t s (sz - index.natAbs)
        .ok (.value v)
    else jsThen (moveToIndex t s index.natAbs) s fun pos s => jsChecked t pos s

/-- The state after a sequence of queries, whatever they returned or threw. -/
def jsAfter (t : TCfg) (s : JState) : List Lookup → JState
  | [] => s
  | q :: qs => jsAfter t (jsLookup t s q).2 qs

/-! ## Reading the value at a path -/

/-- `from_json<T>( doc, path )` on non-null pointers, `daw_from_json.h` L188-251. -/
def fromJsonPath (t : TCfg) (Δ : Env) (fuel : Nat) (ty : Ty) (path : Bytes) (bs : Bytes) : Res Val := do
  ensure (!bs.isEmpty) .emptyJSONDocument
  let jv ← jvMake t.cfg (if bs.getLast? = some 0 then bs.dropLast else bs)
  let jv ← jvFind t jv path
  let k ← jvType t.cfg jv
  if k = .none ∧ ty.isOpt = true then .ok .none
  else do
    ensure (k != .none) .jsonPathNotFound
    let (v, r) ← parseU t Δ fuel ty jv
    if t.verifyEnd then do
      let r ← trim t.cfg r
      ensure r.isEmpty .invalidEndOfValue
      .ok v
    else .ok v

end Verif
