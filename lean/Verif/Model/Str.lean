import Verif.Model.Skip

/-!
# Strings: output with escapes, and decoding

Models `copy_to_iterator` (`to_daw_json_string.h`) and `parse_string_known_stdstring` / `decode_utf16`
(`daw_json_parse_std_string.h`), `parse_value_string_escaped` (`daw_json_parse_value.h`), for
`ExecModeTypes::compile_time`.
-/

namespace Verif

/-! ## Output -/

/-- `to_nibble_char`, `to_daw_json_string.h` L207-217, for `u < 16` (the callers mask with 0xF). -/
def toNibbleChar (u : Nat) : UInt8 := if u < 10 then UInt8.ofNat (0x30 + u) else UInt8.ofNat (0x41 + (u - 10))

/-- `output_hex( c, it )`, `to_daw_json_string.h` L219-231.  The parameter is a `std::uint16_t`: the callers'
`static_cast` reduces modulo 2^16. -/
def outputHex (cp : Nat) : Bytes :=
  let c := cp % 2 ^ 16
  [chBslash, chU, toNibbleChar (c / 4096 % 16), toNibbleChar (c / 256 % 16), toNibbleChar (c / 16 % 16),
    toNibbleChar (c % 16)]

/-- `static_cast<char>( n )`. -/
def toChar (n : Nat) : UInt8 := UInt8.ofNat n

/-- `utf32_to_utf8`, `to_daw_json_string.h` L233-265. -/
def utf32ToUtf8 (cp : Nat) : Res Bytes :=
  if cp ≤ 0x7F then .ok [toChar cp]
  else if cp ≤ 0x7FF then .ok [toChar ((cp >>> 6) ||| 0xC0), toChar ((cp &&& 0x3F) ||| 0x80)]
  else if cp ≤ 0xFFFF then
    .ok [toChar ((cp >>> 12) ||| 0xE0), toChar (((cp >>> 6) &&& 0x3F) ||| 0x80), toChar ((cp &&& 0x3F) ||| 0x80)]
  else if cp ≤ 0x10FFFF then
    .ok [toChar ((cp >>> 18) ||| 0xF0), toChar (((cp >>> 12) &&& 0x3F) ||| 0x80),
      toChar (((cp >>> 6) &&& 0x3F) ||| 0x80), toChar ((cp &&& 0x3F) ||| 0x80)]
  else .err .invalidUTFCodepoint

/-- `*first++` of `utf8::unchecked::iterator`.  The library (`daw/utf8/unchecked.h`) is not part of the
repository; this is its contract as documented upstream (the length of a sequence is given by its lead byte, the
continuation bytes are not checked).  `none`: the iterator did not move because the lead byte is invalid, the
case `copy_to_iterator` tests for at L291.  `ub`: the sequence is cut off by the end of the string. -/
def utf8Next : Bytes → Res (Nat × Option Bytes)
  | [] => .ub
  | a :: t =>
    let x := a.toNat
    if x < 0x80 then .ok (x, some t)
    else if x / 32 = 6 then
      match t with
      | b :: t => .ok ((x * 64) % 0x800 + b.toNat % 64, some t)
      | _ => .ub
    else if x / 16 = 14 then
      match t with
      | b :: c :: t => .ok ((x * 4096) % 0x10000 + (b.toNat * 64) % 0x1000 + c.toNat % 64, some t)
      | _ => .ub
    else if x / 8 = 30 then
      match t with
      | b :: c :: d :: t =>
        .ok ((x * 262144) % 0x200000 + (b.toNat * 4096) % 0x40000 + (c.toNat * 64) % 0x1000 + d.toNat % 64, some t)
      | _ => .ub
    else .ok (x, none)

/-- The `switch` of `copy_to_iterator`, `to_daw_json_string.h` L301-344: what is written for one code point.
`restrictHigh` is `restrict_high` (L279-282). -/
def escapeCp (restrictHigh : Bool) (cp : Nat) : Res Bytes :=
  if cp = 0x22 then .ok [chBslash, chQuote]
  else if cp = 0x5C then .ok [chBslash, chBslash]
  else if cp = 0x08 then .ok [chBslash, 0x62]
  else if cp = 0x0C then .ok [chBslash, chF]
  else if cp = 0x0A then .ok [chBslash, chN]
  else if cp = 0x0D then .ok [chBslash, 0x72]
  else if cp = 0x09 then .ok [chBslash, chT]
  else if cp < 0x20 then .ok (outputHex cp)
  else if restrictHigh = true ∧ 0x7F ≤ cp ∧ cp ≤ 0xFFFF then .ok (outputHex cp)
  else if restrictHigh = true ∧ 0xFFFF < cp then
    .ok (outputHex (0xD7C0 + cp >>> 10) ++ outputHex (0xDC00 + (cp &&& 0x3FF)))
  else utf32ToUtf8 cp

theorem utf8Next_lt {bs rest : Bytes} {cp : Nat} (h : utf8Next bs = .ok (cp, some rest)) :
    rest.length < bs.length := by
  unfold utf8Next at h
  split at h
  · simp at h
  · dsimp only at h
    repeat' split at h
    all_goals simp at h
    all_goals obtain ⟨-, rfl⟩ := h
    all_goals simp
    all_goals omega

/-- What `copy_to_iterator<true, EightBitMode>` does, `to_daw_json_string.h` L268-358.
`errInvalid`: `RestrictedStringOutput::ErrorInvalidUTF8` (the default), under which a byte that cannot start a
UTF-8 sequence is an error; otherwise it is skipped after being written as the code point of that value. -/
def writeStrBody (restrictHigh errInvalid : Bool) (bs : Bytes) : Res Bytes :=
  match bs with
  | [] => .ok []
  | c :: cs =>
    match _hn : utf8Next (c :: cs) with
    | .ub => .ub
    | .err e => .err e
    | .ok (cp, some rest) => do
      let e ← escapeCp restrictHigh cp
      let tl ← writeStrBody restrictHigh errInvalid rest
      .ok (e ++ tl)
    | .ok (cp, none) =>
      if errInvalid then .err .invalidStringHighASCII
      else do
        let e ← escapeCp restrictHigh cp
        let tl ← writeStrBody restrictHigh errInvalid cs
        .ok (e ++ tl)
termination_by bs.length
decreasing_by
  · exact utf8Next_lt (by assumption)
  · simp

/-- The output options that matter for strings. -/
structure StrOut where
  /-- the member's `EightBitModes` is `AllowFull` (the default) -/
  allowHigh : Bool := true
  /-- `RestrictedStringOutput::OnlyAllow7bitsStrings` -/
  only7bit : Bool := false
  /-- `RestrictedStringOutput::ErrorInvalidUTF8` -/
  errInvalid : Bool := true
  deriving DecidableEq, Repr

/-- `to_json_string_string_escaped`, `to_daw_json_string.h` L834-846. -/
def writeStr (o : StrOut) (bs : Bytes) : Res Bytes := do
  let b ← writeStrBody (!o.allowHigh || o.only7bit) o.errInvalid bs
  .ok (chQuote :: (b ++ [chQuote]))

/-! ## Decoding -/

/-- `to_nibble`, `daw_json_parse_std_string.h` L31-40.  `( '9' - b ) >> 31` is -1 for `b > '9'` and 0 otherwise;
the result is reduced to 8 bits. -/
def toNibble (chr : UInt8) : Nat :=
  let b := chr.toNat
  let off := 0x30 + (if 0x39 < b then 7 else 0) + (if 0x5A < b then 0x20 else 0)
  (256 + b - off) % 256

/-- `byte_from_nibbles`, `daw_json_parse_std_string.h` L42-51: the digits are validated only for *unchecked*
input.  `( n0 << 4U ) | n1` is computed without truncation to 8 bits (the operator of `daw::UInt8` is external;
this only matters for characters that are not hexadecimal digits). -/
def byteFromNibbles (cfg : Cfg) (bs : Bytes) : Res (Nat × Bytes) :=
  match bs with
  | a :: b :: t => do
    let n0 := toNibble a
    let n1 := toNibble b
    if cfg.checked then .ok ((n0 <<< 4) ||| n1, t)
    else do
      ensure (decide (n0 < 16) && decide (n1 < 16)) .invalidUTFEscape
      .ok ((n0 <<< 4) ||| n1, t)
  | _ => .ub

/-- Two bytes: `cp = byte << 8; cp |= byte`, `daw_json_parse_std_string.h` L65-67, L83-85. -/
def fourNibbles (cfg : Cfg) (bs : Bytes) : Res (Nat × Bytes) := do
  let (h, t) ← byteFromNibbles cfg bs
  let (l, t) ← byteFromNibbles cfg t
  .ok ((h <<< 8) ||| l, t)

/-- `u32toC`, `daw_json_parse_std_string.h` L53-55: truncation to 8 bits. -/
def u32toC (n : Nat) : UInt8 := UInt8.ofNat n

/-- The encoding part of `decode_utf16`, `daw_json_parse_std_string.h` L91-127: four, three or two bytes. -/
def encodeWide (cp : Nat) : Bytes :=
  if 0x10000 ≤ cp then
    [u32toC ((cp >>> 18) ||| 0xF0), u32toC (((cp >>> 12) &&& 0x3F) ||| 0x80),
      u32toC (((cp >>> 6) &&& 0x3F) ||| 0x80), u32toC ((cp &&& 0x3F) ||| 0x80)]
  else if 0x800 ≤ cp then
    [u32toC ((cp >>> 12) ||| 0xE0), u32toC (((cp >>> 6) &&& 0x3F) ||| 0x80), u32toC ((cp &&& 0x3F) ||| 0x80)]
  else [u32toC ((cp >>> 6) ||| 0xC0), u32toC ((cp &&& 0x3F) ||| 0x80)]

/-- A subtraction of `UInt32`, with wrap. -/
def sub32 (a b : Nat) : Nat := (4294967296 + a - b) % 4294967296

/-- `decode_utf16`, `daw_json_parse_std_string.h` L57-128.  `buf` starts at the `u`; `tl` is the number of bytes
of the buffer at and after `last`.  Returns the bytes written and the remaining buffer.  The character that
should be the backslash of the second escape is skipped without being looked at (L77). -/
def decodeUtf16 (cfg : Cfg) (tl : Nat) (buf : Bytes) : Res (Bytes × Bytes) := do
  assertWeak cfg.checked (decide (tl + 5 ≤ buf.length)) .unexpectedEndOfData
  let (cp, b) ← fourNibbles cfg (buf.drop 1)
  if cp ≤ 0x7F then .ok ([u32toC cp], b)
  else if 0xD800 ≤ cp ∧ cp ≤ 0xDBFF then do
    let b := b.drop 1
    assertWeak cfg.checked (decide (tl + 5 ≤ b.length) && b.head? == some chU) .invalidUTFEscape
    let (tr, b) ← fourNibbles cfg (b.drop 1)
    .ok (encodeWide (((cp - 0xD800) * 0x400 + sub32 tr 0xDC00 + 0x10000) % 4294967296), b)
  else .ok (encodeWide cp, b)

/-- Store `bs` at the write position of the pre-sized result: undefined when it does not fit. -/
def put (cap : Nat) (out bs : Bytes) : Res Bytes :=
  if out.length + bs.length ≤ cap then .ok (out ++ bs) else .ub

/-- The longest prefix without quote and backslash, `daw_json_parse_std_string.h` L242-247. -/
def plainRun : Bytes → Bytes × Bytes
  | [] => ([], [])
  | c :: cs => if c = chQuote ∨ c = chBslash then ([], c :: cs) else ((c :: (plainRun cs).1), (plainRun cs).2)

/-- The escape switch, `daw_json_parse_std_string.h` L264-308.  `buf` starts after the backslash.  Returns the
written bytes and the remaining buffer. -/
def decodeEscape (cfg : Cfg) (allowHigh : Bool) (tl : Nat) (buf : Bytes) : Res (Bytes × Bytes) :=
  match buf with
  | [] => .ub
  | c :: cs => do
    assertWeak cfg.checked (!isSpace c) .invalidUTFCodepoint
    if c = 0x62 then .ok ([0x08], cs)
    else if c = chF then .ok ([0x0C], cs)
    else if c = chN then .ok ([0x0A], cs)
    else if c = 0x72 then .ok ([0x0D], cs)
    else if c = chT then .ok ([0x09], cs)
    else if c = chU then decodeUtf16 cfg tl (c :: cs)
    else if c = chSlash ∨ c = chBslash ∨ c = chQuote then .ok ([c], cs)
    else do
      assertWeak cfg.checked (allowHigh || (!isSpace c && decide (c.toNat ≤ 0x7F))) .invalidStringHighASCII
      .ok ([c], cs)

/-- One iteration of the main loop, `daw_json_parse_std_string.h` L233-315. -/
def strStep (cfg : Cfg) (allowHigh hasQuote : Bool) (cap tl : Nat) (buf out : Bytes) : Res (Bytes × Bytes) := do
  let (run, b) := plainRun buf
  let c ← deref b
  assertWeak cfg.checked (decide (run.length ≤ cap - out.length)) .unexpectedEndOfData
  let out ← put cap out run
  let (b, out) ←
    (if c = chBslash then do
      let (w, b) ← decodeEscape cfg allowHigh tl b.tail
      let out ← put cap out w
      .ok (b, out)
    else do
      assertWeak cfg.checked (!hasQuote || decide (tl < b.length)) .invalidString
      .ok (b, out))
  assertWeak cfg.checked (!hasQuote || decide (tl < b.length)) .unexpectedEndOfData
  .ok (b, out)

/-- The loop condition `pred`, `daw_json_parse_std_string.h` L223-230. -/
def strMore (cfg : Cfg) (tl : Nat) (buf : Bytes) : Res Bool :=
  if cfg.checked then
    if tl < buf.length then .ok (buf.head? != some chQuote) else .ok false
  else do
    let c ← deref buf
    .ok (c != chQuote)

theorem plainRun_append (bs : Bytes) : (plainRun bs).1 ++ (plainRun bs).2 = bs := by
  induction bs with
  | nil => rfl
  | cons c cs ih =>
    unfold plainRun
    split
    · rfl
    · simp [ih]

theorem fourNibbles_lt {cfg : Cfg} {bs b : Bytes} {n : Nat} (h : fourNibbles cfg bs = .ok (n, b)) :
    b.length < bs.length := by
  have key : ∀ {bs b : Bytes} {n : Nat}, byteFromNibbles cfg bs = .ok (n, b) → b.length < bs.length := by
    intro bs b n h
    unfold byteFromNibbles at h
    split at h
    · dsimp only at h
      split at h
      · simp at h; obtain ⟨-, rfl⟩ := h; simp; omega
      · simp only [Res.bind_eq_ok] at h
        obtain ⟨_, -, h⟩ := h
        simp at h; obtain ⟨-, rfl⟩ := h; simp; omega
    · simp at h
  unfold fourNibbles at h
  simp only [Res.bind_eq_ok] at h
  obtain ⟨⟨x, t⟩, h1, ⟨y, t'⟩, h2, h3⟩ := h
  have := key h1
  have := key h2
  simp at h3
  obtain ⟨-, rfl⟩ := h3
  dsimp only at *
  omega

theorem decodeUtf16_lt {cfg : Cfg} {tl : Nat} {buf w b : Bytes} (h : decodeUtf16 cfg tl buf = .ok (w, b)) :
    b.length < buf.length := by
  unfold decodeUtf16 at h
  simp only [Res.bind_eq_ok] at h
  obtain ⟨_, -, ⟨cp, t⟩, h1, h2⟩ := h
  have h3 := fourNibbles_lt h1
  simp only [List.length_drop] at h3
  dsimp only at h2
  split at h2
  · simp at h2; obtain ⟨-, rfl⟩ := h2; omega
  · split at h2
    · simp only [Res.bind_eq_ok] at h2
      obtain ⟨_, -, ⟨tr, t'⟩, h4, h5⟩ := h2
      have := fourNibbles_lt h4
      simp only [List.length_drop] at this
      simp at h5; obtain ⟨-, rfl⟩ := h5; omega
    · simp at h2; obtain ⟨-, rfl⟩ := h2; omega

theorem decodeEscape_lt {cfg : Cfg} {ah : Bool} {tl : Nat} {buf w b : Bytes}
    (h : decodeEscape cfg ah tl buf = .ok (w, b)) : b.length < buf.length := by
  unfold decodeEscape at h
  split at h
  · simp at h
  · simp only [Res.bind_eq_ok] at h
    obtain ⟨_, -, h⟩ := h
    repeat' split at h
    all_goals first
      | exact decodeUtf16_lt h
      | (simp only [Res.bind_eq_ok] at h
         obtain ⟨_, -, h⟩ := h
         simp at h; obtain ⟨-, rfl⟩ := h; simp)
      | (simp at h; obtain ⟨-, rfl⟩ := h; simp)

/-- Every iteration consumes something. -/
theorem strStep_lt {cfg : Cfg} {ah hq : Bool} {cap tl : Nat} {buf out b o : Bytes}
    (h : strStep cfg ah hq cap tl buf out = .ok (b, o)) (hm : strMore cfg tl buf = .ok true) :
    b.length < buf.length := by
  have hp := plainRun_append buf
  have hhead : buf.head? ≠ some chQuote := by
    unfold strMore at hm
    split at hm
    · split at hm
      · simpa using hm
      · simp at hm
    · cases buf with
      | nil => simp at hm
      | cons c cs => simpa using hm
  unfold strStep at h
  cases hr : plainRun buf with
  | mk run r =>
    rw [hr] at h hp
    dsimp only at h hp
    simp only [Res.bind_eq_ok] at h
    obtain ⟨c, hc, _, -, o1, -, ⟨b1, o2⟩, h1, _, -, h2⟩ := h
    simp at h2
    obtain ⟨rfl, rfl⟩ := h2
    cases r with
    | nil => simp at hc
    | cons x r =>
      simp at hc
      subst hc
      have hl : buf.length = run.length + (r.length + 1) := by rw [← hp]; simp
      split at h1
      · simp only [Res.bind_eq_ok] at h1
        obtain ⟨⟨w, b2⟩, h3, o3, -, h4⟩ := h1
        have := decodeEscape_lt h3
        simp at h4
        obtain ⟨rfl, rfl⟩ := h4
        simp at this
        omega
      · rename_i hx
        simp only [Res.bind_eq_ok] at h1
        obtain ⟨_, -, h4⟩ := h1
        simp at h4
        obtain ⟨rfl, rfl⟩ := h4
        cases run with
        | nil =>
          exfalso
          have hd : buf = x :: r := by simpa using hp.symm
          subst hd
          unfold plainRun at hr
          split at hr
          · rename_i hq
            rcases hq with rfl | rfl
            · exact hhead rfl
            · exact hx rfl
          · simp at hr
        | cons y run =>
          simp only [List.length_cons] at hl ⊢
          omega

/-- The main loop of `parse_string_known_stdstring`, `daw_json_parse_std_string.h` L232-316. -/
def strLoop (cfg : Cfg) (allowHigh hasQuote : Bool) (cap tl : Nat) (buf out : Bytes) : Res Bytes :=
  match _hm : strMore cfg tl buf with
  | .ub => .ub
  | .err e => .err e
  | .ok false => .ok out
  | .ok true =>
    match _hs : strStep cfg allowHigh hasQuote cap tl buf out with
    | .ub => .ub
    | .err e => .err e
    | .ok (b, o) => strLoop cfg allowHigh hasQuote cap tl b o
termination_by buf.length
decreasing_by exact strStep_lt (by assumption) (by assumption)

/-- `parse_string_known_stdstring<AllowHighEight, JsonMember, true>`, `daw_json_parse_std_string.h` L200-330.
`text` is `[first,last)`, `after` what follows `last` in the buffer, `counter` the position of the first escape
recorded by `skip_string`, read as a `ptrdiff_t` (2^63 and up are negative).  The pre-copy of `counter - 1`
characters (L215-222) is undefined when it leaves the buffers. -/
def parseStdString (cfg : Cfg) (allowHigh : Bool) (text : Bytes) (counter : Nat) (after : Bytes) : Res Bytes := do
  let cap := text.length + 1
  let buf := text ++ after
  let c ← deref buf
  let hasQuote := c == chQuote
  let buf := if hasQuote then buf.tail else buf
  let fs := counter - 1
  if 1 < fs ∧ counter < 2 ^ 63 then
    if fs ≤ cap ∧ fs ≤ buf.length then
      strLoop cfg allowHigh hasQuote cap after.length (buf.drop fs) (buf.take fs)
    else .ub
  else strLoop cfg allowHigh hasQuote cap after.length buf []

/-- `needs_slow_path`, `daw_json_parse_string_need_slow.h` L22-25: `static_cast<std::ptrdiff_t>( counter ) >= 0`. -/
def needsSlowPath (counter : Nat) : Bool := decide (counter < 2 ^ 63)

/-- The second half of `parse_value_string_escaped`, `daw_json_parse_value.h` L491-506, on the range found by
`skip_string` (or by the member lookup). -/
def parseStrRange (cfg : Cfg) (allowHigh : Bool) (r : Range) (after : Bytes) : Res Bytes :=
  if !allowHigh || needsSlowPath r.counter then parseStdString cfg allowHigh r.text r.counter after
  else .ok r.text

/-- `parse_value_string_escaped<JsonMember, false>`, `daw_json_parse_value.h` L474-506.  The buffer after the
range starts with the closing quote, which `skip_string` has stepped over. -/
def parseStr (cfg : Cfg) (allowHigh : Bool) (bs : Bytes) : Res (Bytes × Bytes) := do
  ensure (!bs.isEmpty) .unexpectedNull
  let (r, rest) ← skipString cfg false bs
  let s ← parseStrRange cfg allowHigh r (bs.drop (r.text.length + 1))
  .ok (s, rest)

end Verif
