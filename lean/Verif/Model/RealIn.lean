import Verif.Model.Int

/-!
# Reading reals

`daw_json_parse_real.h`.  The code turns the text of a number into a sign, an unsigned 64 bit significand and a 64 bit
power of ten; the floating point result is `sign * power10( significand, exponent )`, or whatever `strtod` /
`from_chars` makes of the text.  The floating point operations are not modelled: the result here is which of the two
computations runs, and on what.

The zero terminated policy (`options::ZeroTerminatedString::yes`, set by `from_json` when it is given a
`std::string`, `daw_from_json.h` L57-59) is covered: reading at the end of the range gives a NUL.
-/

namespace Verif

/-- Policy and type of a real parse: `ParseState::is_unchecked_input`, `is_zero_terminated_string`,
`precise_ieee754`, whether the execution tag is not `constexpr_exec_tag`, and `numeric_limits<Result>::max_digits10 + 1`
(18 for `double`, 10 for `float`; `daw_json_parse_real.h` L160, L302).  `Result` is `double` or `float`, so that
`unsigned_t` is `std::uint64_t` (L162, L304). -/
structure RCfg where
  checked : Bool
  zt : Bool
  precise : Bool
  runtime : Bool
  maxDig : Nat
  deriving DecidableEq, Repr

/-- `ParseState::is_zero_terminated_string or ParseState::is_unchecked_input`, the template argument
`skip_end_check`. -/
def RCfg.skipEnd (c : RCfg) : Bool := c.zt || !c.checked

/-- The policy of the other parsers. -/
def RCfg.base (c : RCfg) : Cfg := { checked := c.checked }

/-- How the result is computed.
* `calc sign sig exp`: `sign * power10<Result>( static_cast<Result>( sig ), exp )`,
* `strtod txt`: `parse_with_strtod<Result>` on the range `txt`. -/
inductive RealOut where
  | calc (sign : Int) (sig : Nat) (exp : Int)
  | strtod (txt : Bytes)
  deriving DecidableEq, Repr

/-- `*first` where the byte at the end of the range is a NUL if the input is zero terminated. -/
def derefZ (zt : Bool) : Bytes → Res UInt8
  | [] => if zt then .ok 0 else .ub
  | c :: _ => .ok c

/-- `parse_digits_until_last<false>`, `daw_json_parse_real.h` L48-53, on the range given; also the loop over the
exponent of a known range, L233-249, which in addition stops at a non-digit (there is none in a number). -/
def untilLast (v : Nat) : Bytes → Nat
  | [] => v
  | c :: cs => untilLast (mulAdd64 v 10 (parseDigit c)) cs

/-- `parse_digits_until_last<true>`, L40-47, and `parse_digits_while_number<true>`, L71-76: digits up to the first byte
that is not one, wherever the range ends. -/
def untilNonDigit (zt : Bool) (v : Nat) : Bytes → Res (Nat × Bytes)
  | [] => if zt then .ok (v, []) else .ub
  | c :: cs => if isDigit c then untilNonDigit zt (mulAdd64 v 10 (parseDigit c)) cs else .ok (v, c :: cs)

/-- `parse_digits_while_number<false>`, L77-90, with `last - first = n`. -/
def whileNumber (n v : Nat) : Bytes → Nat × Bytes
  | [] => (v, [])
  | c :: cs =>
    match n with
    | 0 => (v, c :: cs)
    | n + 1 => if isDigit c then whileNumber n (mulAdd64 v 10 (parseDigit c)) cs else (v, c :: cs)

/-- `parse_digits_while_number<skip_end_check>( first, first + n, v )`, L58-94. -/
def digitsWhile (cfg : RCfg) (n v : Nat) (bs : Bytes) : Res (Nat × Bytes) :=
  if cfg.skipEnd then untilNonDigit cfg.zt v bs else .ok (whileNumber n v bs)

/-- `skip_digits<skip_end_check>`, `daw_json_skip.h` L143-158.  The first byte is read without looking at `last`, so
that without a terminator an empty range is read past its end. -/
def skipDigitsR (cfg : RCfg) : Bytes → Res Bytes
  | [] => if cfg.zt then .ok [] else .ub
  | c :: cs =>
    if cfg.skipEnd then do
      let r ← untilNonDigit cfg.zt 0 (c :: cs)
      .ok r.2
    else .ok (skipDigits (c :: cs))

/-- `is_number_start`, `daw_json_parse_policy_policy_details.h` L109-128. -/
def isNumberStart (c : UInt8) : Bool := isDigit c || c == chMinus

/-- `std::int64_t` bounds. -/
def inInt64 (v : Int) : Prop := -9223372036854775808 ≤ v ∧ v ≤ 9223372036854775807

instance (v : Int) : Decidable (inInt64 v) := by unfold inInt64; infer_instance

/-- The sum of the two exponents, `daw_json_parse_real.h` L428-457: saturating in checked mode, plain (overflow is
undefined) otherwise. -/
def addExp (cfg : RCfg) (p1 p2 : Int) : Res Int :=
  if !cfg.checked then
    if inInt64 (p1 + p2) then .ok (p1 + p2) else .ub
  else if decide (p1 < 0) ≠ decide (p2 < 0) then .ok (p1 + p2)
  else if p1 < 0 then
    if -9223372036854775808 - p1 > p2 then .ok (-9223372036854775808) else .ok (p1 + p2)
  else if p1 + p2 > 9223372036854775807 then .ok 9223372036854775807
  else .ok (p1 + p2)

/-- The last step, `daw_json_parse_real.h` L252-275 and L460-478: with `precise_ieee754` the conditions for falling
back to `strtod`, then `power10`.  Outside `constexpr` evaluation `power10` first casts the exponent to
`std::int32_t`, `daw_json_parse_real_power10.h` L131-137. -/
def finish (cfg : RCfg) (useStrtod : Bool) (txt : Bytes) (sign : Int) (sig : Nat) (exp : Int) : RealOut :=
  if cfg.precise && (useStrtod || decide (22 < exp) || decide (exp < -22) || decide (9007199254740992 < sig)) then
    .strtod txt
  else .calc sign sig (if cfg.runtime then wrapSigned 32 exp else exp)

/-- The digits before the point in `parse_real_unknown`, `daw_json_parse_real.h` L309-343: significand, exponent so
far, whether to use `strtod`, rest. -/
def unkWhole (cfg : RCfg) (b : Bytes) : Res (Nat × Int × Bool × Bytes) := do
  let n := min b.length cfg.maxDig
  let (sig, b₁) ← digitsWhile cfg n 0 b
  let count := b.length - b₁.length
  let s := decide (19 < count)
  if n ≤ count then do
    let b₂ ← skipDigitsR cfg b₁
    let diff := b₁.length - b₂.length
    .ok (sig, (if sig = 0 then 0 else diff), true, b₂)
  else .ok (sig, 0, s, b₁)

/-- The digits after the point, `daw_json_parse_real.h` L356-384; `b` is the range after the sign, `cs` the range after
the point. -/
def unkFracDigits (cfg : RCfg) (b : Bytes) (sig : Nat) (p1 : Int) (s : Bool) (cs : Bytes) :
    Res (Nat × Int × Bool × Bytes) :=
  if p1 ≠ 0 then do
    let r ← if cs.isEmpty then .ok cs else skipDigitsR cfg cs
    .ok (sig, p1, s, r)
  else do
    let n : Int := min (cs.length : Int) ((cfg.maxDig : Int) - ((b.length : Int) - (cs.length : Int)))
    let (sig, c₁) ← digitsWhile cfg n.toNat sig cs
    let count := cs.length - c₁.length
    if n ≤ (count : Int) ∧ c₁ ≠ [] then do
      let c₂ ← skipDigitsR cfg c₁
      .ok (sig, p1 - count, s || decide (c₂.length < c₁.length), c₂)
    else .ok (sig, p1 - count, s, c₁)

/-- The optional fraction in `parse_real_unknown`, `daw_json_parse_real.h` L345-385. -/
def unkFrac (cfg : RCfg) (b : Bytes) (sig : Nat) (p1 : Int) (s : Bool) (b₂ : Bytes) :
    Res (Nat × Int × Bool × Bytes) :=
  if !cfg.skipEnd && b₂.isEmpty then .ok (sig, p1, s, b₂)
  else do
    let c ← derefZ cfg.zt b₂
    if c = chDot then unkFracDigits cfg b sig p1 s b₂.tail else .ok (sig, p1, s, b₂)

/-- The sign of the exponent in `parse_real_unknown`, `daw_json_parse_real.h` L391-415. -/
def unkExpSign (cfg : RCfg) (cs : Bytes) : Res (Int × Bytes) := do
  assertWeak cfg.checked (cfg.zt || !cs.isEmpty) .unexpectedEndOfData
  let c ← derefZ cfg.zt cs
  let digitNext := match cs.tail with | [] => false | d :: _ => isDigit d
  if c = chPlus then do
    assertWeak cfg.checked digitNext .invalidNumber
    .ok (1, cs.tail)
  else if c = chMinus then do
    assertWeak cfg.checked digitNext .invalidNumber
    .ok (-1, cs.tail)
  else do
    assertWeak cfg.checked (isDigit c) .invalidNumber
    .ok (1, cs)

/-- The optional exponent in `parse_real_unknown`, `daw_json_parse_real.h` L387-426. -/
def unkExp (cfg : RCfg) (b₃ : Bytes) : Res (Int × Bytes) :=
  if cfg.checked && b₃.isEmpty then .ok (0, b₃)
  else do
    let c ← derefZ cfg.zt b₃
    if c ||| 0x20 = chLe then do
      let (sgn, d) ← unkExpSign cfg b₃.tail
      assertWeak cfg.checked (!d.isEmpty) .unexpectedEndOfData
      let (x, r) ← digitsWhile cfg d.length 0 d
      .ok (toSigned 64 x sgn, r)
    else .ok (0, b₃)

/-- `parse_real_unknown`, `daw_json_parse_real.h` L277-478.  The final position is clipped to the range: the code may
leave `first` one past the end of a zero terminated range only after the terminator was not read as a digit, so it
never does. -/
def realUnknown (cfg : RCfg) (bs : Bytes) : Res (RealOut × Bytes) := do
  assertWeak cfg.checked (match bs with | [] => false | c :: _ => isNumberStart c) .invalidNumberStart
  let (sign, b) ← validateSignedFirst cfg.base bs
  let (sig, p1, s, b₂) ← unkWhole cfg b
  let (sig, p1, s, b₃) ← unkFrac cfg b sig p1 s b₂
  let (p2, b₄) ← unkExp cfg b₃
  let exp ← addExp cfg p1 p2
  .ok (finish cfg s bs sign sig exp, b₄)

/-- The three pieces of a located number, `daw_json_parse_real.h` L125-146: digits before the point (with the sign),
digits after it if there is a point, what follows the `e` if there is one; `skip_number` left the positions of the
point and of the `e` in `class_first` and `class_last`.  Each piece comes with the whole buffer from its start on (the
digits may be read beyond its end); `rest` is what follows the number. -/
structure RPieces where
  whole : Bytes
  wholeBuf : Bytes
  fract : Option (Bytes × Bytes)
  exp : Option (Bytes × Bytes)

/-- `daw_json_parse_real.h` L125-146. -/
def splitKnown (r : Range) (rest : Bytes) : RPieces :=
  let t := r.text
  let wl := match r.dec with
    | some d => d
    | none => match r.exp with
      | some e => e
      | none => t.length
  let fl := match r.exp with
    | some e => e
    | none => t.length
  { whole := t.take wl
    wholeBuf := t ++ rest
    fract := r.dec.map fun d => ((t.take fl).drop (d + 1), t.drop (d + 1) ++ rest)
    exp := r.exp.map fun e => (t.drop (e + 1), t.drop (e + 1) ++ rest) }

/-- Digits of a piece, `parse_digits_until_last<skip_end_check>`, `daw_json_parse_real.h` L35-55. -/
def digitsKnown (cfg : RCfg) (v : Nat) (piece buf : Bytes) : Res Nat :=
  if cfg.skipEnd then do
    let r ← untilNonDigit cfg.zt v buf
    .ok r.1
  else .ok (untilLast v piece)

/-- The exponent of a located number, `daw_json_parse_real.h` L206-251. -/
def knownExp (cfg : RCfg) (x : Option (Bytes × Bytes)) : Res Int :=
  match x with
  | none => .ok 0
  | some ([], _) => .ok 0
  | some (c :: cs, buf) => do
    let (sgn, p, b) ← (if c = chMinus then do
        assertWeak cfg.checked (!cs.isEmpty) .invalidNumber
        .ok (-1, cs, buf.tail)
      else if c = chPlus then .ok (1, cs, buf.tail)
      else .ok (1, c :: cs, buf) : Res (Int × Bytes × Bytes))
    let u ← (if cfg.zt then do
        let r ← untilNonDigit true 0 b
        .ok r.1
      else .ok (whileNumber p.length 0 p).1 : Res Nat)
    .ok (toSigned 64 u sgn)

/-- `fract_first ? fract_last - fract_first : 0`, `daw_json_parse_real.h` L172-173. -/
def pieceLen : Option (Bytes × Bytes) → Nat
  | none => 0
  | some f => f.1.length

/-- The digits after the point, `daw_json_parse_real.h` L200-204. -/
def knownFrac (cfg : RCfg) (sig used : Nat) : Option (Bytes × Bytes) → Res Nat
  | none => .ok sig
  | some (p, buf) => digitsKnown cfg sig (p.take used) buf

/-- `parse_real_known` after the sign, `daw_json_parse_real.h` L158-275: `useStrtod` is the decision of L151-153,
`whole` the digits before the point, `wholeBuf` the buffer from there on. -/
def knownDigits (cfg : RCfg) (useStrtod : Bool) (text : Bytes) (sign : Int) (whole wholeBuf : Bytes)
    (fract exp : Option (Bytes × Bytes)) : Res RealOut := do
  let fl := pieceLen fract
  if cfg.maxDig < whole.length then do
    let e : Int := (whole.length : Int) - (cfg.maxDig : Int)
    let sig ← digitsKnown cfg 0 (whole.take cfg.maxDig) wholeBuf
    let x ← knownExp cfg exp
    if inInt64 (e + x) then .ok (finish cfg useStrtod text sign sig (e + x)) else .ub
  else do
    let avail := cfg.maxDig - whole.length
    let used := min fl avail
    let sig ← digitsKnown cfg 0 whole wholeBuf
    let sig ← knownFrac cfg sig used fract
    let x ← knownExp cfg exp
    if inInt64 (-(used : Int) + x) then
      .ok (finish cfg (useStrtod || decide (avail < fl)) text sign sig (-(used : Int) + x))
    else .ub

/-- `parse_real_known`, `daw_json_parse_real.h` L116-275, on a range located by `skip_number`. -/
def realKnown (cfg : RCfg) (r : Range) (rest : Bytes) : Res RealOut := do
  let k := splitKnown r rest
  assertWeak cfg.checked (match r.text with | [] => false | c :: _ => isNumberStart c) .invalidNumberStart
  let fl := pieceLen k.fract
  let s₀ := decide (19 < k.whole.length + fl)
  let c ← deref r.text
  if c = chMinus then knownDigits cfg s₀ r.text (-1) k.whole.tail k.wholeBuf.tail k.fract k.exp
  else knownDigits cfg s₀ r.text 1 k.whole k.wholeBuf k.fract k.exp

/-- A real read where the parser stands (`located = false`), or first skipped with `skip_number` and parsed later from
the range left by it, as members found before their turn are (`daw_json_parse_class.h`); the choice is made in
`parse_real`, `daw_json_parse_real.h` L480-490.  Returns what follows the number too. -/
def readReal (located : Bool) (cfg : RCfg) (bs : Bytes) : Res (RealOut × Bytes) :=
  if located then do
    let (r, rest) ← skipNumber cfg.base bs
    let o ← realKnown cfg r rest
    .ok (o, rest)
  else realUnknown cfg bs

end Verif
