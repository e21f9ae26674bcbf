import Verif.Model.Write

/-!
# Outputs

Models the calls that `to_json` and `to_json_array` make on an output (`put` and `write` of `serialization_policy`,
`daw_json_serialize_policy.h` L150-167) and what the outputs of `concepts/daw_writable_output_basics.h`,
`concepts/daw_writable_output_cstdio.h` and `concepts/daw_writable_output_ostream.h` do with them.

`Verif.Model.Write` gives only the text; here a writer gives the calls it makes, in order, up to the point where it
returns or throws, so that what an output holds after an error is described too.
-/

namespace Verif

/-! ## Calls -/

/-- A call on the output, `daw_json_serialize_policy.h` L150-167: `write( sv... )` with its pieces, or `put( c )`. -/
inductive OutOp where
  | write (pieces : List Bytes)
  | put (c : UInt8)
  deriving DecidableEq, Repr

/-- The calls made by a writer, and how it ended. -/
abbrev Calls := List OutOp × Res Unit

/-- A writer that returns after these calls. -/
def Calls.of (ops : List OutOp) : Calls := (ops, .ok ())

/-- `a; b`. -/
def Calls.seq (a b : Calls) : Calls :=
  match a.2 with
  | .ok _ => (a.1 ++ b.1, b.2)
  | .err e => (a.1, .err e)
  | .ub => (a.1, .ub)

/-- `it.output_newline( )`, `daw_json_serialize_policy.h` L130-138. -/
def newlineOps (w : WCfg) : List OutOp :=
  if w.pretty then [.write [if w.crlf then [0x0D, 0x0A] else [0x0A]]] else []

/-- `it.output_indent( )`, `daw_json_serialize_policy.h` L116-128, at level `n`. -/
def indentOps (w : WCfg) : Nat → List OutOp
  | 0 => []
  | n + 1 => if w.pretty then .write [w.indent.text] :: indentOps w n else []

/-- `it.next_member( )`, `daw_json_serialize_policy.h` L145-148. -/
def nextMemberOps (w : WCfg) (n : Nat) : List OutOp := newlineOps w ++ indentOps w n

/-- The calls between the last element and the closing bracket; see `closing`. -/
def closingOps (w : WCfg) (n : Nat) (isEmpty : Bool) : List OutOp :=
  if isEmpty then [] else (if w.tc then [.put chComma] else []) ++ nextMemberOps w n

/-- `utf32_to_utf8`, `to_daw_json_string.h` L233-265: one byte is `put`, more are written as one piece. -/
def utf8Ops (cp : Nat) : Calls :=
  if cp ≤ 0x7F then .of [.put (toChar cp)]
  else
    match utf32ToUtf8 cp with
    | .ok bs => .of [.write [bs]]
    | .err e => ([], .err e)
    | .ub => ([], .ub)

/-- The `switch` of `copy_to_iterator`, `to_daw_json_string.h` L301-350; see `escapeCp`. -/
def escapeOps (restrictHigh : Bool) (cp : Nat) : Calls :=
  if cp = 0x22 then .of [.write [[chBslash, chQuote]]]
  else if cp = 0x5C then .of [.write [[chBslash, chBslash]]]
  else if cp = 0x08 then .of [.write [[chBslash, 0x62]]]
  else if cp = 0x0C then .of [.write [[chBslash, chF]]]
  else if cp = 0x0A then .of [.write [[chBslash, chN]]]
  else if cp = 0x0D then .of [.write [[chBslash, 0x72]]]
  else if cp = 0x09 then .of [.write [[chBslash, chT]]]
  else if cp < 0x20 then .of [.write [outputHex cp]]
  else if restrictHigh = true ∧ 0x7F ≤ cp ∧ cp ≤ 0xFFFF then .of [.write [outputHex cp]]
  else if restrictHigh = true ∧ 0xFFFF < cp then
    .of [.write [outputHex (0xD7C0 + cp >>> 10)], .write [outputHex (0xDC00 + (cp &&& 0x3FF))]]
  else utf8Ops cp

/-- `copy_to_iterator<true, EightBitMode>`, `to_daw_json_string.h` L268-358; see `writeStrBody`. -/
def strBodyOps (restrictHigh errInvalid : Bool) (bs : Bytes) : Calls :=
  match bs with
  | [] => .of []
  | c :: cs =>
    match _hn : utf8Next (c :: cs) with
    | .ub => ([], .ub)
    | .err e => ([], .err e)
    | .ok (cp, some rest) => (escapeOps restrictHigh cp).seq (strBodyOps restrictHigh errInvalid rest)
    | .ok (cp, none) =>
      if errInvalid then ([], .err .invalidStringHighASCII)
      else (escapeOps restrictHigh cp).seq (strBodyOps restrictHigh errInvalid cs)
termination_by bs.length
decreasing_by
  · exact utf8Next_lt (by assumption)
  · simp

/-- `to_json_string_string_escaped`, `to_daw_json_string.h` L834-846. -/
def strOps (o : StrOut) (bs : Bytes) : Calls :=
  Calls.seq (.of [.put chQuote]) (Calls.seq (strBodyOps (!o.allowHigh || o.only7bit) o.errInvalid bs) (.of [.put chQuote]))

/-- The loop of `copy_to_iterator<false, EightBitMode>`, `to_daw_json_string.h` L349-358. -/
def rawBodyOps (restrictHigh : Bool) : Bytes → Calls
  | [] => .of []
  | c :: cs =>
    if restrictHigh = true ∧ ¬ (0x20 ≤ c.toNat ∧ c.toNat ≤ 0x7F) then ([], .err .invalidStringHighASCII)
    else Calls.seq (.of [.put c]) (rawBodyOps restrictHigh cs)

/-- `to_json_string_signed` and `to_json_string_unsigned`, `to_daw_json_string.h` L654-786: an unsigned zero is `put`,
other numbers are copied from a buffer. -/
def intOps (t : IntTy) (i : Int) : List OutOp :=
  if t.signed = false ∧ i = 0 then [.put ch0] else [.write [writeInt t i]]

/-- `utils::integer_to_string` of an unsigned number, `to_daw_json_string.h` L799-812, see `intOps`. -/
def unsignedOps (n : Nat) : List OutOp := if n = 0 then [.put ch0] else [.write [writeUnsigned n]]

/-- A number with a zero in front if it has one digit, see `twoDigits`. -/
def twoDigitsOps (n : Nat) : List OutOp := (if n < 10 then [.put ch0] else []) ++ unsignedOps n

/-- `to_json_string_date` from the year on, `to_daw_json_string.h` L875-908; see `civilText`. -/
def civilOps (c : Civil) : List OutOp :=
  .write [writeSigned c.year] :: .put chMinus :: (twoDigitsOps c.month ++ .put chMinus :: (twoDigitsOps c.day ++ .put chUT ::
    (twoDigitsOps c.hour ++ .put chColon :: (twoDigitsOps c.minute ++ .put chColon :: (twoDigitsOps c.second ++
      ((if 0 < c.nano then .put chDot :: unsignedOps (stripZeros c.nano) else []) ++ [.write [[chUZ, chQuote]]]))))))

/-- `to_json_string_date`, `to_daw_json_string.h` L859-910. -/
def dateOps (t : Int) : Calls :=
  Calls.seq (.of [.put chQuote])
    (match timePointToCivil t with
      | .ok c => .of (civilOps c)
      | .err e => ([], .err e)
      | .ub => ([], .ub))

/-- The decimal rendering of a real, `to_daw_json_string.h` L1516-1557; see `decChars`. -/
def decOps (sig : Nat) (exp whole : Int) : List OutOp :=
  if exp < 0 then
    if whole < 0 then .write [[ch0, chDot]] :: ((doZeros (-whole).toNat).map OutOp.put ++ unsignedOps sig)
    else
      let p1pow := 10 ^ (-exp).toNat
      let p1val := sig / p1pow
      if p1pow = 1 then unsignedOps p1val
      else
        let p2val := sig - p1val * p1pow
        let extra : Int := (cxDigits sig : Int) - ((cxDigits p2val : Int) + (cxDigits p1val : Int))
        unsignedOps p1val ++ (.put chDot :: (List.replicate extra.toNat (.put ch0) ++ unsignedOps p2val))
  else unsignedOps sig ++ List.replicate exp.toNat (.put ch0)

/-- The scientific rendering, `to_daw_json_string.h` L1500-1505, L1508-1514: copied from a buffer. -/
def sciOps (dbl : Bool) (sig : Nat) (exp : Int) (olen : Nat) : Calls :=
  match sciChars dbl sig exp olen with
  | .ok t => .of [.write [t]]
  | .err e => ([], .err e)
  | .ub => ([], .ub)

/-- `json_details::to_chars`, `to_daw_json_string.h` L1472-1559; see `toChars`. -/
def realOps (dbl : Bool) (fmt : FPFmt) (neg : Bool) (sig : Nat) (exp : Int) : Calls :=
  if sig = 0 then .of [.put ch0]
  else
    Calls.seq (.of (if neg then [.put chMinus] else []))
      (if fmt = .scientific ∨ (fmt = .auto ∧ ((decimalLength dbl sig : Int) + exp < -4 ∨ 6 < (decimalLength dbl sig : Int) + exp)) then
        sciOps dbl sig exp (decimalLength dbl sig)
      else .of (decOps sig exp (decimalLength dbl sig + exp)))

/-- `to_json_string_string_raw`, `to_json_string_custom` and `to_json_string_unknown`, see `writeTxt`. -/
def txtOps (seven : Bool) (k : TxtKind) (s : Bytes) : Calls :=
  match k with
  | .rawStr ah => Calls.seq (.of [.put chQuote]) (Calls.seq (rawBodyOps (!ah || seven) s) (.of [.put chQuote]))
  | .date | .real .. | .quoted .. => ([], .ub)
  | .custom .lit => rawBodyOps seven s
  | .custom _ => Calls.seq (.of [.put chQuote]) (Calls.seq (rawBodyOps seven s) (.of [.put chQuote]))
  | .raw => rawBodyOps seven s

/-- `to_json_string_bool`, `to_daw_json_string.h` L461-480, `to_json_string_signed`, L654-717, which puts the quotes into its buffer, and
`to_json_string_unsigned`, L735-786, which does not; see `writeLit`. -/
def litOps (al : Bool) (l : LitTy) (x : Lit) : Calls :=
  match x with
  | .bool b =>
    match l with
    | .bool => .of [.write [quoteIf al (if b then txtTrue else txtFalse)]]
    | _ => ([], .ub)
  | .int i =>
    match l with
    | .int t _ =>
      if t.signed then .of [.write [quoteIf al (writeInt t i)]]
      else .of ((if al then [.put chQuote] else []) ++ (intOps t i ++ if al then [.put chQuote] else []))
    | _ => ([], .ub)

/-- The loop over missing indices of `to_json_ordered_str`, `to_daw_json_string.h` L1455-1461, `k` of them. -/
def gapOps (w : WCfg) (n : Nat) : Nat → List OutOp
  | 0 => []
  | k + 1 => nextMemberOps w n ++ (.write [txtNull ++ [chComma]] :: (nextMemberOps w n ++ gapOps w n k))

mutual
/-- `to_daw_json_string`, `to_daw_json_string.h` L1247-1320, and the functions it calls, at indentation level `n`; see
`writeVal` for the functions. -/
def opsVal (w : WCfg) (Δ : Env) (n : Nat) (ty : Ty) (v : Val) : Calls :=
  match v with
  | .bool b =>
    match ty with
    | .bool => .of [.write [if b then txtTrue else txtFalse]]
    | _ => ([], .ub)
  | .int i =>
    match ty with
    | .int t _ => .of (intOps t i)
    | _ => ([], .ub)
  | .str s =>
    match ty with
    | .str ah => strOps (w.strOut ah) s
    | _ => ([], .ub)
  | .txt s =>
    match ty with
    | .txt k => txtOps w.only7bit k s
    | _ => ([], .ub)
  | .date x =>
    match ty with
    | .txt .date => dateOps x
    | _ => ([], .ub)
  | .real x =>
    match ty with
    | .txt (.real dbl fmt) => realOps dbl fmt x.neg x.sig x.exp
    | _ => ([], .ub)
  | .lit x =>
    match ty with
    | .txt (.quoted al l) => litOps al l x
    | _ => ([], .ub)
  | .none =>
    match ty with
    | .opt _ => .of [.write [txtNull]]
    | _ => ([], .ub)
  | .some v =>
    match ty with
    | .opt ty => opsVal w Δ n ty v
    | _ => ([], .ub)
  | .arr vs =>
    match ty with
    | .arr ty =>
      Calls.seq (.of [.put chLBrack]) (Calls.seq (opsElems w Δ (n + 1) ty vs)
        (.of (closingOps w n vs.isEmpty ++ [.put chRBrack])))
    | _ => ([], .ub)
  | .map kvs =>
    match ty with
    | .map ty =>
      Calls.seq (.of [.put chLBrace]) (Calls.seq (opsPairs w Δ (n + 1) ty kvs)
        (.of (closingOps w n kvs.isEmpty ++ [.put chRBrace])))
    | _ => ([], .ub)
  | .cls vs =>
    match ty with
    | .ref i =>
      match Δ i with
      | .obj ms _ =>
        Calls.seq (.of [.put chLBrace]) (Calls.seq (opsMembers w Δ (n + 1) [] true ms vs)
          (.of (closingOps w n ms.isEmpty ++ [.put chRBrace])))
      | .tup ts _ =>
        Calls.seq (.of (.put chLBrack :: nextMemberOps w (n + 1))) (Calls.seq (opsTuple w Δ (n + 1) ts vs)
          (.of (closingOps w n ts.isEmpty ++ [.put chRBrack])))
      | .ord ms _ =>
        Calls.seq (.of (.put chLBrack :: nextMemberOps w (n + 1)))
          (Calls.seq (opsOrdered w Δ (n + 1) ms.length 0 ms vs)
            (.of (closingOps w n ms.isEmpty ++ [.put chRBrack])))
      | _ => ([], .ub)
    | _ => ([], .ub)
  | .alt k v =>
    match (altTys Δ ty)[k]? with
    | some ty => opsVal w Δ n ty v
    | none => ([], .ub)
/-- The loop of `to_json_string_array`, `to_daw_json_string.h` L1095-1104. -/
def opsElems (w : WCfg) (Δ : Env) (n : Nat) (ty : Ty) (vs : List Val) : Calls :=
  match vs with
  | [] => .of []
  | v :: vs =>
    Calls.seq (.of (nextMemberOps w n)) (Calls.seq (opsVal w Δ n ty v)
      (Calls.seq (.of (if vs.isEmpty then [] else [.put chComma])) (opsElems w Δ n ty vs)))
/-- The loop of `to_json_string_kv`, `to_daw_json_string.h` L1218-1231. -/
def opsPairs (w : WCfg) (Δ : Env) (n : Nat) (ty : Ty) (kvs : List (Bytes × Val)) : Calls :=
  match kvs with
  | [] => .of []
  | (k, v) :: kvs =>
    Calls.seq (.of (nextMemberOps w n)) (Calls.seq (strOps (w.strOut true) k)
      (Calls.seq (.of [.write [[chColon], spaceText w]]) (Calls.seq (opsVal w Δ n ty v)
        (Calls.seq (.of (if kvs.isEmpty then [] else [.put chComma])) (opsPairs w Δ n ty kvs)))))
/-- `to_json_str` for the members left, `to_daw_json_string.h` L1408-1437. -/
def opsMembers (w : WCfg) (Δ : Env) (n : Nat) (seen : List Bytes) (first : Bool) (ms : List Member) (vs : List Val) :
    Calls :=
  match vs with
  | [] => if ms.isEmpty then .of [] else ([], .ub)
  | v :: vs =>
    match ms with
    | [] => ([], .ub)
    | m :: ms =>
      if seen.contains m.name then opsMembers w Δ n seen first ms vs
      else if m.ty.isOpt && v.isNone then opsMembers w Δ n (m.name :: seen) first ms vs
      else
        Calls.seq (.of ((if first then [] else [.put chComma]) ++ (nextMemberOps w n ++
            [.write [[chQuote], m.name, [chQuote, chColon], spaceText w]])))
          (Calls.seq (opsVal w Δ n m.ty v) (opsMembers w Δ n (m.name :: seen) false ms vs))
/-- `to_daw_json_string_tuple`, `to_daw_json_string.h` L982-1010. -/
def opsTuple (w : WCfg) (Δ : Env) (n : Nat) (ts : List Ty) (vs : List Val) : Calls :=
  match vs with
  | [] => if ts.isEmpty then .of [] else ([], .ub)
  | v :: vs =>
    match ts with
    | [] => ([], .ub)
    | ty :: ts =>
      Calls.seq (opsVal w Δ n ty v)
        (Calls.seq (.of (if ts.isEmpty then [] else .put chComma :: nextMemberOps w n)) (opsTuple w Δ n ts vs))
/-- `to_json_ordered_str` for the members left, `to_daw_json_string.h` L1439-1470. -/
def opsOrdered (w : WCfg) (Δ : Env) (n size idx : Nat) (ms : List (Option Nat × Ty)) (vs : List Val) : Calls :=
  match vs with
  | [] => if ms.isEmpty then .of [] else ([], .ub)
  | v :: vs =>
    match ms with
    | [] => ([], .ub)
    | (want, ty) :: ms =>
      Calls.seq (.of (gapOps w n (max idx (want.getD idx) - idx))) (Calls.seq (opsVal w Δ n ty v)
        (Calls.seq
          (.of (if max idx (want.getD idx) + 1 < size then .put chComma :: nextMemberOps w n else []))
          (opsOrdered w Δ n size (max idx (want.getD idx) + 1) ms vs)))
end

/-! ## Outputs -/

/-- An output: what `write` and `put` of its `writable_output_trait` do. -/
structure Sink (σ : Type) where
  write : σ → List Bytes → σ × Res Unit
  put : σ → UInt8 → σ × Res Unit

/-- One call on an output. -/
def Sink.call {σ : Type} (S : Sink σ) (s : σ) : OutOp → σ × Res Unit
  | .write ps => S.write s ps
  | .put c => S.put s c

/-- The calls, one after the other, until one throws. -/
def Sink.run {σ : Type} (S : Sink σ) (s : σ) : List OutOp → σ × Res Unit
  | [] => (s, .ok ())
  | op :: ops =>
    match S.call s op with
    | (s', .ok _) => S.run s' ops
    | (s', .err e) => (s', .err e)
    | (s', .ub) => (s', .ub)

/-- A writer on an output: an exception of the output ends it, otherwise it ends as it does. -/
def Sink.runCalls {σ : Type} (S : Sink σ) (s : σ) (c : Calls) : σ × Res Unit :=
  match S.run s c.1 with
  | (s', .ok _) => (s', c.2)
  | (s', .err e) => (s', .err e)
  | (s', .ub) => (s', .ub)

/-- `to_json( value, it )`, `daw_to_json.h` L48-74, for outputs that are not pointers. -/
def toJsonTo {σ : Type} (S : Sink σ) (w : WCfg) (Δ : Env) (ty : Ty) (v : Val) (s : σ) : σ × Res Unit :=
  S.runCalls s (opsVal w Δ 0 ty v)

/-- The calls of `to_json_array( c, it )`, `daw_to_json.h` L86-159, after the conversion of the output: a newline without
indentation before the bracket, no trailing comma. -/
def arrayCalls (w : WCfg) (Δ : Env) (ty : Ty) (vs : List Val) : Calls :=
  Calls.seq (.of [.put chLBrack]) (Calls.seq (opsElems w Δ 1 ty vs)
    (.of ((if vs.isEmpty then [] else newlineOps w) ++ [.put chRBrack])))

/-- `to_json_array( c, it )`, `daw_to_json.h` L86-159, for outputs that are not pointers. -/
def toJsonArrayTo {σ : Type} (S : Sink σ) (w : WCfg) (Δ : Env) (ty : Ty) (vs : List Val) (s : σ) : σ × Res Unit :=
  S.runCalls s (arrayCalls w Δ ty vs)

/-! ### Memory -/

/-- `memcpy( mem + i, bs )`; `none` if it does not stay inside of the memory.  `copy_to_buffer`,
`impl/daw_writable_output_details.h` L24-42. -/
def copyToBuffer (mem : Bytes) (i : Nat) (bs : Bytes) : Option Bytes :=
  if i + bs.length ≤ mem.length then some (mem.take i ++ (bs ++ mem.drop (i + bs.length))) else none

/-! ### Character pointers -/

/-- A character pointer: the memory it points into and its position. -/
structure Ptr where
  mem : Bytes
  pos : Nat
  deriving DecidableEq, Repr

/-- The fold over the pieces of `write` for pointers, `concepts/daw_writable_output_basics.h` L41-49. -/
def ptrPieces (p : Ptr) : List Bytes → Ptr × Res Unit
  | [] => (p, .ok ())
  | b :: bs =>
    if b.isEmpty then ptrPieces p bs
    else
      match copyToBuffer p.mem p.pos b with
      | some m => ptrPieces ⟨m, p.pos + b.length⟩ bs
      | none => (p, .ub)

/-- `put` for pointers, `concepts/daw_writable_output_basics.h` L52-56. -/
def ptrPut (p : Ptr) (c : UInt8) : Ptr × Res Unit :=
  match copyToBuffer p.mem p.pos [c] with
  | some m => (⟨m, p.pos + 1⟩, .ok ())
  | none => (p, .ub)

/-- `writable_output_trait<T *>`, `concepts/daw_writable_output_basics.h` L26-57.  A null pointer is rejected before the
first call, see `toJsonPtr`. -/
def ptrSink : Sink Ptr := ⟨ptrPieces, ptrPut⟩

/-- `to_json( value, ptr )`: `daw_to_json.h` L66-68 rejects a null pointer (`none`). -/
def toJsonPtr (w : WCfg) (Δ : Env) (ty : Ty) (v : Val) : Option Ptr → Option Ptr × Res Unit
  | none => (none, .err .nullOutputIterator)
  | some p => (some (toJsonTo ptrSink w Δ ty v p).1, (toJsonTo ptrSink w Δ ty v p).2)

/-! ### Spans -/

/-- A span: the memory it is part of, where it begins and its size. -/
structure Span where
  mem : Bytes
  off : Nat
  size : Nat
  deriving DecidableEq, Repr

/-- The fold over the pieces of `write` for spans, `concepts/daw_writable_output_basics.h` L73-82.  `subspan( n )` is
undefined if `n` is larger than the size. -/
def spanPieces (s : Span) : List Bytes → Span × Res Unit
  | [] => (s, .ok ())
  | b :: bs =>
    if b.isEmpty then spanPieces s bs
    else
      match copyToBuffer s.mem s.off b with
      | some m => if b.length ≤ s.size then spanPieces ⟨m, s.off + b.length, s.size - b.length⟩ bs else (s, .ub)
      | none => (s, .ub)

/-- The sum of the sizes of the pieces.  Simplification: the C++ adds `std::size_t`s; here there is no wrap around. -/
def sumSizes : List Bytes → Nat
  | [] => 0
  | b :: bs => b.length + sumSizes bs

/-- `write` for spans, `concepts/daw_writable_output_basics.h` L68-83. -/
def spanWrite (s : Span) (ps : List Bytes) : Span × Res Unit :=
  if sumSizes ps ≤ s.size then spanPieces s ps else (s, .err .outputError)

/-- `put` for spans, `concepts/daw_writable_output_basics.h` L85-90. -/
def spanPut (s : Span) (c : UInt8) : Span × Res Unit :=
  if s.size = 0 then (s, .err .outputError)
  else
    match copyToBuffer s.mem s.off [c] with
    | some m => (⟨m, s.off + 1, s.size - 1⟩, .ok ())
    | none => (s, .ub)

/-- `writable_output_trait` for span-like ranges, `concepts/daw_writable_output_basics.h` L59-91. -/
def spanSink : Sink Span := ⟨spanWrite, spanPut⟩

/-! ### Containers -/

/-- The fold over the pieces of `write` for containers, `concepts/daw_writable_output_basics.h` L110-119. -/
def contPieces (mem : Bytes) (i : Nat) : List Bytes → Bytes × Res Unit
  | [] => (mem, .ok ())
  | b :: bs =>
    if b.isEmpty then contPieces mem i bs
    else
      match copyToBuffer mem i b with
      | some m => contPieces m (i + b.length) bs
      | none => (mem, .ub)

/-- `write` for resizable containers, `concepts/daw_writable_output_basics.h` L103-120: `resize` adds zeros, then the
pieces are copied.  Simplification: memory is never exhausted. -/
def contWrite (out : Bytes) (ps : List Bytes) : Bytes × Res Unit :=
  contPieces (out ++ List.replicate (sumSizes ps) 0) out.length ps

/-- `writable_output_trait` for resizable containers, `concepts/daw_writable_output_basics.h` L93-125. -/
def contSink : Sink Bytes := ⟨contWrite, fun out c => (out ++ [c], .ok ())⟩

/-! ### Output iterators -/

/-- `writable_output_trait` for output iterators, `concepts/daw_writable_output_basics.h` L127-154: every character is
assigned and the iterator incremented.  The state is the sequence of characters assigned. -/
def iterSink : Sink Bytes := ⟨fun out ps => (ps.foldl (fun o b => b.foldl (fun o c => o ++ [c]) o) out, .ok ()),
  fun out c => (out ++ [c], .ok ())⟩

/-! ### `FILE *` and `std::ostream` -/

/-- A stream: what it was given so far, how much more it accepts, and if its state is good (`std::ostream` only). -/
structure Stream where
  content : Bytes
  room : Nat
  good : Bool := true
  deriving DecidableEq, Repr

/-- The device takes what it has room for. -/
def Stream.take (f : Stream) (bs : Bytes) : Stream :=
  { f with content := f.content ++ bs.take f.room, room := f.room - bs.length }

/-- The fold over the pieces of `write` for `FILE *`, `concepts/daw_writable_output_cstdio.h` L29-43.  `fwrite` returns the
number of characters written. -/
def filePieces (f : Stream) : List Bytes → Stream × Res Unit
  | [] => (f, .ok ())
  | b :: bs =>
    if b.isEmpty then filePieces f bs
    else if min b.length f.room = b.length then filePieces (f.take b) bs
    else (f.take b, .err .outputError)

/-- The value of a `char` as an `int`. -/
def charToInt (signedChar : Bool) (c : UInt8) : Int :=
  if signedChar = true ∧ 0x80 ≤ c.toNat then (c.toNat : Int) - 256 else c.toNat

/-- The result of `fputc`: the character as `unsigned char`, or `EOF`. -/
def fputcResult (f : Stream) (c : UInt8) : Int := if f.room = 0 then -1 else c.toNat

/-- `put` for `FILE *`, `concepts/daw_writable_output_cstdio.h` L45-48. -/
def filePut (signedChar : Bool) (f : Stream) (c : UInt8) : Stream × Res Unit :=
  if fputcResult f c = charToInt signedChar c then (f.take [c], .ok ()) else (f.take [c], .err .outputError)

/-- `writable_output_trait<std::FILE *>`, `concepts/daw_writable_output_cstdio.h` L25-49.  `signedChar`: is `char` a
signed type. -/
def fileSink (signedChar : Bool) : Sink Stream := ⟨filePieces, filePut signedChar⟩

/-- `o.write( bs )` and `o.put( c )` of `std::ostream`: nothing if the state is not good; the state is bad afterwards if not
everything could be written. -/
def ostreamTake (o : Stream) (bs : Bytes) : Stream :=
  if o.good then { o.take bs with good := decide (bs.length ≤ o.room) } else o

/-- The fold over the pieces of `write` for `std::ostream`, `concepts/daw_writable_output_ostream.h` L30-45. -/
def ostreamPieces (o : Stream) : List Bytes → Stream × Res Unit
  | [] => (o, .ok ())
  | b :: bs =>
    if b.isEmpty then ostreamPieces o bs
    else if (ostreamTake o b).good then ostreamPieces (ostreamTake o b) bs
    else (ostreamTake o b, .err .outputError)

/-- `put` for `std::ostream`, `concepts/daw_writable_output_ostream.h` L47-51. -/
def ostreamPut (o : Stream) (c : UInt8) : Stream × Res Unit :=
  if (ostreamTake o [c]).good then (ostreamTake o [c], .ok ()) else (ostreamTake o [c], .err .outputError)

/-- `writable_output_trait` for classes derived from `std::ostream`, `concepts/daw_writable_output_ostream.h` L24-52. -/
def ostreamSink : Sink Stream := ⟨ostreamPieces, ostreamPut⟩

/-! ### The overloads that return a `std::string` -/

/-- `to_json<JsonClass>( value, flags )`, `daw_to_json.h` L76-84: calls `to_json( value, result, flgs )`, without
`JsonClass`.  `cls` is the mapping given by `JsonClass` (`none`: `use_default`), `deduced` the one deduced from the type of
`value`. -/
def toJsonString (w : WCfg) (Δ : Env) (_cls : Option Ty) (deduced : Ty) (v : Val) : Bytes × Res Unit :=
  toJsonTo contSink w Δ deduced v []

/-- `to_json_array<JsonElement>( c, flags )`, `daw_to_json.h` L161-171: calls `to_json_array( c, result, flgs )`, without
`JsonElement`. -/
def toJsonArrayString (w : WCfg) (Δ : Env) (_elem : Option Ty) (deduced : Ty) (vs : List Val) : Bytes × Res Unit :=
  toJsonArrayTo contSink w Δ deduced vs []

/-- `to_json<JsonClass>( value, result )` with a `std::string`, `daw_to_json.h` L48-74. -/
def toJsonInto (w : WCfg) (Δ : Env) (cls : Option Ty) (deduced : Ty) (v : Val) (s : Bytes) : Bytes × Res Unit :=
  toJsonTo contSink w Δ (cls.getD deduced) v s

/-- `to_json_array<JsonElement>( c, result )` with a `std::string`, `daw_to_json.h` L86-159. -/
def toJsonArrayInto (w : WCfg) (Δ : Env) (elem : Option Ty) (deduced : Ty) (vs : List Val) (s : Bytes) :
    Bytes × Res Unit :=
  toJsonArrayTo contSink w Δ (elem.getD deduced) vs s

end Verif
