import Verif.Model.CStr
import Verif.Props.Str

/-!
# C116: C strings are written as the strings they are
-/

namespace Verif

open Spec

/-- The memory holds the C string `s`: the bytes of `s`, of which none is zero, a zero byte, and anything behind. -/
def Spec.HoldsC (mem s : Bytes) : Prop := (0 : UInt8) ∉ s ∧ ∃ after, mem = s ++ 0 :: after

theorem writeCBody_cons {r : Bool} {c : UInt8} {cs rest : Bytes} {cp : Nat} (h0 : c ≠ 0)
    (h : utf8Next (c :: cs) = .ok (cp, some rest)) :
    writeCBody r (c :: cs) = (do
      let x ← escapeCp r cp
      let tl ← writeCBody r rest
      .ok (tl.before x)) := by
  rw [writeCBody, if_neg h0]
  split <;> simp_all

theorem writeCBody_utf8 (r e : Bool) (l : List Nat) (hl : ∀ n ∈ l, IsScalar n) (h0 : (0 : UInt8) ∉ utf8 l) (after : Bytes) :
    ∃ b, writeStrBody r e (utf8 l) = .ok b ∧ writeCBody r (utf8 l ++ 0 :: after) = .ok (.returns b) := by
  induction l with
  | nil =>
    refine ⟨[], by rw [utf8, List.flatMap_nil, writeStrBody], ?_⟩
    change writeCBody r (0 :: after) = _
    rw [writeCBody, if_pos rfl]
  | cons n ns ih =>
    have hu : utf8 (n :: ns) = utf8Enc n ++ utf8 ns := by simp [utf8]
    rw [hu] at h0
    obtain ⟨b, h1, h2⟩ := ih (fun m hm => hl m (by simp [hm])) (fun h => h0 (by simp [h]))
    obtain ⟨x, h3, -⟩ := escapeCp_unesc r (hl n (by simp))
    refine ⟨x ++ b, ?_, ?_⟩
    · have hn := utf8Next_enc (hl n (by simp)).1 (utf8 ns)
      rw [hu]
      cases hq : utf8Enc n ++ utf8 ns with
      | nil => simp [utf8Enc_ne_nil] at hq
      | cons c cs =>
        rw [hq] at hn
        rw [writeStrBody_cons hn, h3, Res.ok_bind, h1, Res.ok_bind]
    · have hn := utf8Next_enc (hl n (by simp)).1 (utf8 ns ++ 0 :: after)
      rw [hu, List.append_assoc]
      cases hq : utf8Enc n with
      | nil => exact absurd hq (utf8Enc_ne_nil n)
      | cons c cs =>
        have hc : c ≠ 0 := fun h => h0 (by rw [hq, h]; simp)
        rw [hq, List.cons_append] at hn
        rw [List.cons_append, writeCBody_cons hc hn, h3, Res.ok_bind, h2, Res.ok_bind]
        rfl

/-- **C116.**  A C string of valid UTF-8 is written as a `std::string` with the same characters is, whatever is in memory behind its zero byte, with all output
options; the call returns. -/
theorem C116_c_string_partial (o : StrOut) {mem s : Bytes} (hm : HoldsC mem s) (hs : ValidUtf8 s) :
    ∃ txt, writeStr o s = .ok txt ∧ writeC o (some mem) = .ok (.returns txt) := by
  obtain ⟨h0, after, rfl⟩ := hm
  obtain ⟨l, hl, rfl⟩ := hs
  obtain ⟨b, h1, h2⟩ := writeCBody_utf8 (!o.allowHigh || o.only7bit) o.errInvalid l hl h0 after
  refine ⟨chQuote :: (b ++ [chQuote]), ?_, ?_⟩
  · unfold writeStr
    rw [h1]
    rfl
  · unfold writeC
    dsimp only
    rw [h2]
    rfl

theorem exCStr_holds : HoldsC (utf8 sampleText ++ [0, 0x7A]) (utf8 sampleText) := ⟨by decide, [0x7A], rfl⟩

/-- Non-vacuity: `aé"\n€😀`, a zero byte, and a `z` behind it. -/
example : ∃ txt, writeStr {} (utf8 sampleText) = .ok txt ∧ writeC {} (some (utf8 sampleText ++ [0, 0x7A])) = .ok (.returns txt) :=
  C116_c_string_partial {} exCStr_holds ⟨_, sampleText_scalar, rfl⟩

/-- **C116.**  What is written for it is read back as its characters, by `C08`. -/
theorem C116_round_trip_partial (cfg : Cfg) (o : StrOut) (ah : Bool) {mem s : Bytes} (hm : HoldsC mem s) (hs : ValidUtf8 s)
    (hl : 6 * s.length < 2 ^ 63) (hne : ah = true ∨ cfg.checked = true ∨ s ≠ []) :
    ∃ txt, writeC o (some mem) = .ok (.returns txt) ∧ ∀ c, parseStr cfg ah (txt ++ c) = .ok (s, c) := by
  obtain ⟨txt, h1, h2⟩ := C116_c_string_partial o hm hs
  obtain ⟨txt', h3, h4⟩ := C08_round_trip cfg o ah s hs hl hne
  rw [h1] at h3
  cases h3
  exact ⟨txt, h2, h4⟩

/-- Non-vacuity: the same string, 7 bit. -/
example : ∃ txt, writeC { only7bit := true } (some (utf8 sampleText ++ [0, 0x7A])) = .ok (.returns txt) ∧
    ∀ c, parseStr ckd true (txt ++ c) = .ok (utf8 sampleText, c) :=
  C116_round_trip_partial ckd _ true exCStr_holds ⟨_, sampleText_scalar, rfl⟩ (by decide) (Or.inl rfl)

/-- **C116, without escapes.**  A C string of a custom type or a raw value is written, or not, as the `std::string` is, valid UTF-8 or not. -/
theorem C116_unescaped (r : Bool) {mem s : Bytes} (hm : HoldsC mem s) : writeCPlain r mem = writeUnescaped r s := by
  obtain ⟨h0, after, rfl⟩ := hm
  induction s with
  | nil =>
    rw [List.nil_append, writeCPlain, if_pos rfl]
    simp [writeUnescaped, ensure]
  | cons c cs ih =>
    have hc : c ≠ 0 := fun h => h0 (by simp [h])
    rw [List.cons_append, writeCPlain, if_neg hc, ih (fun h => h0 (by simp [h]))]
    unfold writeUnescaped
    cases r with
    | false => simp [ensure]
    | true =>
      simp only [Bool.not_true, Bool.false_or, List.all_cons]
      cases (decide (0x20 ≤ c.toNat) && decide (c.toNat ≤ 0x7F)) <;>
        cases (cs.all fun c => decide (0x20 ≤ c.toNat) && decide (c.toNat ≤ 0x7F)) <;> simp [ensure]

/-- Non-vacuity: `1.5`, and an `é` that may not be written. -/
example : writeCPlain true [0x31, 0x2E, 0x35, 0, 0x39] = .ok [0x31, 0x2E, 0x35] ∧
    writeCPlain true [0x31, 0xC3, 0xA9, 0] = .err .invalidStringHighASCII :=
  ⟨C116_unescaped true (s := [0x31, 0x2E, 0x35]) ⟨by decide, _, rfl⟩,
    C116_unescaped true (s := [0x31, 0xC3, 0xA9]) ⟨by decide, _, rfl⟩⟩

/-- The null pointer is written as the empty string. -/
theorem C116_null_pointer (o : StrOut) : writeC o none = .ok (.returns [chQuote, chQuote]) ∧ writeStr o [] = .ok [chQuote, chQuote] := by
  refine ⟨rfl, ?_⟩
  unfold writeStr
  rw [writeStrBody]
  rfl

/-- A lead byte that starts no sequence, or a continuation byte out of place, makes the call write without end; a `std::string` with it is an error. -/
theorem C116_endless (o : StrOut) (ho : o.errInvalid = true) (c : UInt8) (hc : 0x80 ≤ c.toNat) (h : c.toNat < 0xC0 ∨ 0xF8 ≤ c.toNat) (s after : Bytes) :
    writeC o (some (c :: s ++ 0 :: after)) = .ok .endless ∧ writeStr o (c :: s) = .err .invalidStringHighASCII := by
  have hn : ∀ t, utf8Next (c :: t) = .ok (c.toNat, none) := by
    intro t
    have := c.toNat_lt
    unfold utf8Next
    dsimp only
    rw [if_neg (by omega), if_neg (by omega), if_neg (by omega), if_neg (by omega)]
  have h0 : c ≠ 0 := by
    rintro rfl
    simp at hc
  constructor
  · unfold writeC
    dsimp only
    rw [List.cons_append, writeCBody, if_neg h0]
    split <;> simp_all
  · unfold writeStr
    rw [writeStrBody]
    split <;> simp_all

/-- Non-vacuity: `é` in Latin-1, 0xE9 is a lead byte; a lone continuation byte 0xA9 is not. -/
example : writeC {} (some ([0xA9, 0x61] ++ 0 :: [])) = .ok .endless ∧ writeStr {} [0xA9, 0x61] = .err .invalidStringHighASCII :=
  C116_endless {} rfl 0xA9 (by decide) (by decide) [0x61] []

/-- C116 is false of the code for text that is not valid UTF-8: a sequence cut off by the end of the string takes the zero byte for a part of it, and what
is behind the string is written (here `secret`), or memory behind the object is read. -/
theorem C116_false_for_invalid :
    writeC {} (some ([0x61, 0xC3] ++ 0 :: [0x73, 0x65, 0x63, 0x72, 0x65, 0x74, 0])) =
      .ok (.returns [0x22, 0x61, 0xC3, 0x80, 0x73, 0x65, 0x63, 0x72, 0x65, 0x74, 0x22]) ∧
    writeC {} (some ([0x61, 0xC3] ++ 0 :: [])) = .ub ∧
    writeC {} (some ([0x61, 0xA9] ++ 0 :: [])) = .ok .endless := by decide +kernel

end Verif
