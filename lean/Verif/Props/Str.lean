import Verif.Proof.StrSafe

/-!
# Properties C08-C12, C48, C49: strings
-/

namespace Verif

open Spec

/-- A body is at most six times as long as what it stands for. -/
theorem unesc_body_length {b s : Bytes} (h : Unesc b s) : b.length ≤ 6 * s.length := by
  have hp : ∀ n : Nat, 1 ≤ (utf8Enc n).length := fun n => by
    have := utf8Enc_ne_nil n
    cases hu : utf8Enc n with
    | nil => exact absurd hu this
    | cons _ _ => simp
  have hp4 : ∀ n : Nat, 0x10000 ≤ n → (utf8Enc n).length = 4 := fun n hn => by
    unfold utf8Enc
    rw [if_neg (by omega), if_neg (by omega), if_neg (by omega)]
    rfl
  induction h with
  | nil => simp
  | plain _ _ _ _ ih => simp; omega
  | esc _ _ ih => simp; omega
  | @uni x y z w _ _ _ _ _ _ _ _ ih =>
    have := hp (hex4 x y z w)
    simp; omega
  | @pair x y z w x' y' z' w' _ _ _ _ _ _ _ _ _ _ _ _ _ ih =>
    have := hp4 (0x10000 + (hex4 x y z w - 0xD800) * 0x400 + (hex4 x' y' z' w' - 0xDC00)) (by omega)
    simp; omega

/-- A sample: `aé"\n€😀`. -/
def sampleText : List Nat := [0x61, 0xE9, 0x22, 0x0A, 0x20AC, 0x1F600]

theorem sampleText_scalar : ∀ n ∈ sampleText, IsScalar n := by decide

/-! ## C08 -/

/-- **C08** Every valid UTF-8 string is written without error, and what is written, followed by anything, is read
back as the same bytes, by a parser of either checking mode and with or without `ExcludeSpecialEscapes`.  The
length bound is the address space: the text must be indexable by `ptrdiff_t`. -/
theorem C08_round_trip (cfg : Cfg) (o : StrOut) (ah : Bool) (s : Bytes) (hs : ValidUtf8 s)
    (hl : 6 * s.length < 2 ^ 63) (hne : ah = true ∨ cfg.checked = true ∨ s ≠ []) :
    ∃ txt, writeStr o s = .ok txt ∧ ∀ c, parseStr cfg ah (txt ++ c) = .ok (s, c) := by
  obtain ⟨l, h1, rfl⟩ := hs
  obtain ⟨b, h2, h3⟩ := writeStrBody_utf8 (!o.allowHigh || o.only7bit) o.errInvalid l h1
  refine ⟨chQuote :: (b ++ [chQuote]), ?_, fun c => ?_⟩
  · unfold writeStr
    rw [h2]
    rfl
  · have := unesc_body_length h3
    have hb : b ≠ [] ∨ utf8 l = [] := by
      cases b with
      | nil => right; generalize utf8 l = u at h3; cases h3; rfl
      | cons _ _ => left; simp
    have := parseStr_body cfg ah h3 (by omega) c (by
      rcases hne with h | h | h
      · exact Or.inl h
      · exact Or.inr (Or.inl h)
      · exact Or.inr (Or.inr (hb.resolve_right h)))
    simpa using this

example : ValidUtf8 (utf8 sampleText) ∧ 6 * (utf8 sampleText).length < 2 ^ 63 :=
  ⟨⟨_, sampleText_scalar, rfl⟩, by decide⟩

/-- **C08** The same when the value is first skipped (as a class member is) and its range decoded later. -/
theorem C08_round_trip_skipped (cfg : Cfg) (o : StrOut) (ah : Bool) (s : Bytes) (hs : ValidUtf8 s)
    (hl : 6 * s.length < 2 ^ 63) (hne : ah = true ∨ cfg.checked = true ∨ s ≠ []) :
    ∃ txt, writeStr o s = .ok txt ∧ ∀ c, ∃ r, skipValue cfg false (txt ++ c) = .ok (r, c) ∧
      parseStrRange cfg ah r (chQuote :: c) = .ok s := by
  obtain ⟨l, h1, rfl⟩ := hs
  obtain ⟨b, h2, h3⟩ := writeStrBody_utf8 (!o.allowHigh || o.only7bit) o.errInvalid l h1
  have hb6 := unesc_body_length h3
  have hnp : (2 : Nat) ^ 63 < npos := by decide
  refine ⟨chQuote :: (b ++ [chQuote]), ?_, fun c => ⟨{ text := b, counter := firstEsc b }, ?_, ?_⟩⟩
  · unfold writeStr
    rw [h2]
    rfl
  · have := skipString_body cfg (unesc_isStrBody h3) (by omega) c
    unfold skipValue
    have hx : chQuote :: (b ++ [chQuote]) ++ c = chQuote :: (b ++ chQuote :: c) := by simp
    rw [hx]
    simp only [List.isEmpty_cons, Bool.not_false, assertWeak_ok, Res.ok_bind, deref_cons, if_true]
    exact this
  · have hb : b ≠ [] ∨ utf8 l = [] := by
      cases b with
      | nil => right; generalize utf8 l = u at h3; cases h3; rfl
      | cons _ _ => left; simp
    exact parseStrRange_body cfg ah h3 (by omega) c (by
      rcases hne with h | h | h
      · exact Or.inl h
      · exact Or.inr (Or.inl h)
      · exact Or.inr (Or.inr (hb.resolve_right h)))

/-! ## C09 -/

/-- **C09** With `OnlyAllow7bitsStrings` (or a member that disallows the high bit) every byte written is printable
ASCII, and the string is still read back identically. -/
theorem C09_seven_bit (cfg : Cfg) (o : StrOut) (ho : o.only7bit = true ∨ o.allowHigh = false) (ah : Bool) (s : Bytes)
    (hs : ValidUtf8 s) (hl : 6 * s.length < 2 ^ 63) (hne : ah = true ∨ cfg.checked = true ∨ s ≠ []) :
    ∃ txt, writeStr o s = .ok txt ∧ (∀ c ∈ txt, 0x20 ≤ c.toNat ∧ c.toNat ≤ 0x7E) ∧
      ∀ c, parseStr cfg ah (txt ++ c) = .ok (s, c) := by
  obtain ⟨txt, h1, h2⟩ := C08_round_trip cfg o ah s hs hl hne
  refine ⟨txt, h1, ?_, h2⟩
  unfold writeStr at h1
  rw [Res.bind_eq_ok] at h1
  obtain ⟨b, h3, h4⟩ := h1
  cases h4
  have hr : (!o.allowHigh || o.only7bit) = true := by rcases ho with h | h <;> simp [h]
  have := (writeStrBody_body _ _ _ _ h3).2 hr
  intro c hc
  simp only [List.mem_cons, List.mem_append, List.not_mem_nil, or_false] at hc
  rcases hc with rfl | hc | rfl
  · decide
  · exact this c hc
  · decide

example : ({ only7bit := true } : StrOut).only7bit = true ∧ ValidUtf8 (utf8 sampleText) :=
  ⟨rfl, _, sampleText_scalar, rfl⟩

/-! ## C10 -/

/-- **C10** Whatever the bytes of the string (valid UTF-8 or not): if anything is written it is a quote, a JSON
string body (`Spec.IsStrBody`: no control characters, quotes and backslashes only in escapes) and a quote. -/
theorem C10_written_strings_are_json (o : StrOut) (s txt : Bytes) (h : writeStr o s = .ok txt) :
    ∃ b, txt = 0x22 :: (b ++ [0x22]) ∧ IsStrBody b := by
  unfold writeStr at h
  rw [Res.bind_eq_ok] at h
  obtain ⟨b, h3, h4⟩ := h
  cases h4
  exact ⟨b, rfl, (writeStrBody_body _ _ _ _ h3).1⟩

example : ∃ txt, writeStr {} (utf8 sampleText) = .ok txt :=
  ⟨[0x22, 0x61, 0xC3, 0xA9, 0x5C, 0x22, 0x5C, 0x6E, 0xE2, 0x82, 0xAC, 0xF0, 0x9F, 0x98, 0x80, 0x22], by decide +kernel⟩

/-- **C10** The reader's closing quote is the writer's: the token is skipped exactly, whatever follows. -/
theorem C10_closing_quote (cfg : Cfg) (o : StrOut) (s txt : Bytes) (h : writeStr o s = .ok txt)
    (hl : txt.length < 2 ^ 63) (c : Bytes) : ∃ r, skipValue cfg true (txt ++ c) = .ok (r, c) ∧ r.text = txt := by
  obtain ⟨b, rfl, hb⟩ := C10_written_strings_are_json o s txt h
  have hnp : (2 : Nat) ^ 63 < npos := by decide
  have := parseNq_firstEsc cfg hb (by simp at hl; omega) c
  refine ⟨{ text := 0x22 :: (b ++ [0x22]), counter := firstEsc b }, ?_, rfl⟩
  have hx : 0x22 :: (b ++ [0x22]) ++ c = chQuote :: (b ++ chQuote :: c) := by simp
  rw [hx]
  unfold skipValue skipString skipStringNq
  have h1 : (b ++ chQuote :: c).isEmpty = false := by simp
  simp only [List.isEmpty_cons, Bool.not_false, assertWeak_ok, Res.ok_bind, deref_cons, if_true, beq_self_eq_true,
    ensure_true, h1, this]
  simp

/-- With the default options valid UTF-8 is always written; bytes that are not are an error or are written as some
valid string. -/
theorem C10_valid_is_written (o : StrOut) (s : Bytes) (hs : ValidUtf8 s) : ∃ txt, writeStr o s = .ok txt := by
  obtain ⟨l, h1, rfl⟩ := hs
  obtain ⟨b, h2, -⟩ := writeStrBody_utf8 (!o.allowHigh || o.only7bit) o.errInvalid l h1
  exact ⟨_, by unfold writeStr; rw [h2]; rfl⟩

/-! ## C11 -/

/-- **C11** A string whose body stands for `s` (`Spec.Unesc`: the escapes of RFC 8259, `\uXXXX` in either letter
case naming a scalar value, surrogate pairs naming one scalar value) is parsed as exactly `s`. -/
theorem C11_escapes_decode (cfg : Cfg) (ah : Bool) (b s : Bytes) (h : Unesc b s) (hl : b.length < 2 ^ 63)
    (hne : ah = true ∨ cfg.checked = true ∨ b ≠ []) (c : Bytes) :
    parseStr cfg ah (0x22 :: (b ++ 0x22 :: c)) = .ok (s, c) :=
  parseStr_body cfg ah h hl c hne

/-- `é😀` -/
example : Unesc [0x5C, 0x75, 0x30, 0x30, 0x65, 0x39, 0x5C, 0x75, 0x44, 0x38, 0x33, 0x64, 0x5C, 0x75, 0x64, 0x65, 0x30, 0x30]
    (utf8Enc 0xE9 ++ (utf8Enc 0x1F600 ++ [])) := by
  have h1 : hex4 0x30 0x30 0x65 0x39 = 0xE9 := by decide
  have h2 : hex4 0x44 0x38 0x33 0x64 = 0xD83D := by decide
  have h3 : hex4 0x64 0x65 0x30 0x30 = 0xDE00 := by decide
  rw [← h1, show (0x1F600 : Nat) = 0x10000 + (hex4 0x44 0x38 0x33 0x64 - 0xD800) * 0x400 + (hex4 0x64 0x65 0x30 0x30 - 0xDC00) by
    rw [h2, h3]]
  refine .uni ?_ ?_ ?_ ?_ ?_ (.pair ?_ ?_ ?_ ?_ ?_ ?_ ?_ ?_ ?_ ?_ .nil)
  all_goals first
    | (rw [h1]; decide)
    | (rw [h2]; decide)
    | (rw [h3]; decide)
    | (unfold IsHex IsDig; decide)

/-- The single escape, spelled out: for every scalar value below 0x10000 and any spelling of it by four hexadecimal
digits. -/
theorem C11_single (cfg : Cfg) (ah : Bool) (x y z w : UInt8) (hx : IsHex x) (hy : IsHex y) (hz : IsHex z)
    (hw : IsHex w) (hn : IsScalar (hex4 x y z w)) (c : Bytes) :
    parseStr cfg ah (0x22 :: ([0x5C, 0x75, x, y, z, w] ++ 0x22 :: c)) = .ok (utf8Enc (hex4 x y z w), c) := by
  have := C11_escapes_decode cfg ah _ _ (.uni hx hy hz hw hn .nil) (by decide : (6 : Nat) < 2 ^ 63) (by simp) c
  rw [List.append_nil] at this
  exact this

/-! ## C12 -/

def ckd : Cfg := { checked := true, exclSpecial := false }

/-- **C12 is false of the code.**  In checked mode `"\u00zz"` is accepted, so are a high surrogate followed by
an escape that is not a low surrogate (`"\ud800A"`) and a high surrogate followed by something that is not an
escape at all (`"\ud800xuDC00"`): `byte_from_nibbles` validates the digits only for unchecked input, and
`decode_utf16` neither looks at the character in front of the second `u` nor at the range of the second value. -/
theorem C12_false :
    (∃ s, parseStr ckd true [0x22, 0x5C, 0x75, 0x30, 0x30, 0x7A, 0x7A, 0x22] = .ok (s, [])) ∧
    (∃ s, parseStr ckd true [0x22, 0x5C, 0x75, 0x64, 0x38, 0x30, 0x30, 0x5C, 0x75, 0x30, 0x30, 0x34, 0x31, 0x22] = .ok (s, [])) ∧
    (∃ s, parseStr ckd true [0x22, 0x5C, 0x75, 0x64, 0x38, 0x30, 0x30, 0x78, 0x75, 0x44, 0x43, 0x30, 0x30, 0x22] = .ok (s, [])) :=
  ⟨⟨[0xC8, 0xB3], by decide +kernel⟩, ⟨[0xE2, 0x91, 0x81], by decide +kernel⟩, ⟨[0xF0, 0x90, 0x80, 0x80], by decide +kernel⟩⟩

/-- **C12, the part that holds.**  In checked mode, after any well formed beginning `p` of the body: an escape `\u` with
fewer than four characters left, or an escape naming a high surrogate with fewer than six characters left or whose
next character but one is not `u`, is an error.  Missing from C12: rejecting non-hexadecimal digits, rejecting a
second escape that is not a low surrogate (see `C12_false`). -/
theorem C12_partial (cfg : Cfg) (hc : cfg.checked = true) (ah : Bool) (p s t c : Bytes) (hp : Unesc p s) (ht : IsRaw t)
    (hl : (p ++ 0x5C :: 0x75 :: t).length < 2 ^ 63)
    (hbad : t.length < 4 ∨ ∃ x y z w r, t = x :: y :: z :: w :: r ∧ IsHex x ∧ IsHex y ∧ IsHex z ∧ IsHex w ∧
      (0xD800 ≤ hex4 x y z w ∧ hex4 x y z w ≤ 0xDBFF) ∧ (r.length < 6 ∨ r[1]? ≠ some 0x75)) :
    ∃ e, parseStr cfg ah (0x22 :: ((p ++ 0x5C :: 0x75 :: t) ++ 0x22 :: c)) = .err e := by
  refine parseStr_broken hc ah hp ht hl ?_
  rcases hbad with h | ⟨x, y, z, w, r, rfl, h1, h2, h3, h4, h5, h6⟩
  · exact decodeEscape_short hc ah h
  · exact decodeEscape_lone hc ah h1 h2 h3 h4 h5 h6

/-- `a\ud800b` -/
example : Unesc [0x61] [0x61] ∧ IsRaw [0x64, 0x38, 0x30, 0x30, 0x62] ∧ ∃ x y z w r,
    [0x64, 0x38, 0x30, 0x30, 0x62] = x :: y :: z :: w :: r ∧ IsHex x ∧ IsHex y ∧ IsHex z ∧ IsHex w ∧
      (0xD800 ≤ hex4 x y z w ∧ hex4 x y z w ≤ 0xDBFF) ∧ (r.length < 6 ∨ r[1]? ≠ some (0x75 : UInt8)) := by
  refine ⟨.plain (by decide) (by decide) (by decide) .nil, ?_, ?_⟩
  · repeat (first | exact .nil | refine .plain (by decide) (by decide) ?_)
  · exact ⟨_, _, _, _, _, rfl, by unfold IsHex IsDig; decide⟩

/-! ## C48 -/

/-- **C48 is false of the code.**  A member with `EightBitModes::DisallowHigh` accepts raw bytes above 0x7F, in checked
mode too: only the character after a backslash is looked at. -/
theorem C48_false : parseStr ckd false [0x22, 0xC3, 0xA9, 0x22] = .ok ([0xC3, 0xA9], []) := by decide +kernel

/-- **C48, the part that holds.**  With `DisallowHigh` in checked mode, a byte above 0x7F directly after an
(unpaired) backslash is an error.  Missing: raw high bytes, see `C48_false`. -/
theorem C48_partial (cfg : Cfg) (hc : cfg.checked = true) (p s t c : Bytes) (d : UInt8) (hp : Unesc p s)
    (ht : IsRaw t) (hd : 0x7F < d.toNat) (hl : (p ++ 0x5C :: d :: t).length < 2 ^ 63) :
    ∃ e, parseStr cfg false (0x22 :: ((p ++ 0x5C :: d :: t) ++ 0x22 :: c)) = .err e := by
  refine parseStr_broken hc false hp ht hl ?_
  unfold decodeEscape
  rw [List.cons_append]
  have hne : ∀ e : UInt8, e.toNat ≤ 0x7F → d ≠ e := by rintro e he rfl; omega
  simp only [hc]
  cases !isSpace d with
  | false => exact ⟨_, rfl⟩
  | true =>
    simp only [assertWeak_ok, Res.ok_bind]
    rw [if_neg (hne _ (by decide)), if_neg (hne _ (by decide)), if_neg (hne _ (by decide)), if_neg (hne _ (by decide)),
      if_neg (hne _ (by decide)), if_neg (hne _ (by decide)),
      if_neg (by rintro (h | h | h) <;> exact hne _ (by decide) h), decide_eq_false (by omega)]
    exact ⟨_, rfl⟩

example : Unesc [0x61] [0x61] ∧ IsRaw [] ∧ 0x7F < (0xE9 : UInt8).toNat :=
  ⟨.plain (by decide) (by decide) (by decide) .nil, .nil, by decide⟩

/-! ## C49 -/

/-- **C49** In checked mode, parsing a string value from any bytes whatsoever neither reads outside the input nor
writes outside the pre-sized result buffer (both are `ub` in the model). -/
theorem C49_string_decoding_in_bounds (cfg : Cfg) (hc : cfg.checked = true) (ah : Bool) (bs : Bytes) :
    parseStr cfg ah bs ≠ .ub :=
  parseStr_checked hc ah bs

example : ckd.checked = true := rfl

/-- **C49** In unchecked mode the same holds on well formed strings, except the empty string of a `DisallowHigh`
member. -/
theorem C49_unchecked_well_formed (cfg : Cfg) (ah : Bool) (b s c : Bytes) (h : Unesc b s) (hl : b.length < 2 ^ 63)
    (hne : ah = true ∨ b ≠ []) : parseStr cfg ah (0x22 :: (b ++ 0x22 :: c)) ≠ .ub := by
  rw [C11_escapes_decode cfg ah b s h hl (hne.elim Or.inl (fun h => Or.inr (Or.inr h))) c]
  simp

/-- **C49/C11: the exception is real.**  Unchecked, an empty string of a `DisallowHigh` member is misread: its closing
quote is taken for the opening one.  In `"","a"]` the value comes out as a comma; in `"",1]` the read leaves
the document. -/
theorem C49_unchecked_empty_misread :
    parseStr { checked := false, exclSpecial := false } false [0x22, 0x22, 0x2C, 0x22, 0x61, 0x22, 0x5D]
      = .ok ([0x2C], [0x2C, 0x22, 0x61, 0x22, 0x5D]) ∧
    parseStr { checked := false, exclSpecial := false } false [0x22, 0x22, 0x2C, 0x31, 0x5D] = .ub :=
  ⟨by decide +kernel, by decide +kernel⟩

end Verif
