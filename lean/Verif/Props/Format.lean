import Verif.Model.Format
import Verif.Proof.IntWrite

/-!
# Property C95: `to_formatted_string`
-/

namespace Verif

open Spec

/-- The line and the column, both counted from one, of what follows `before`: `b` is the part of the line that is in front of it. -/
def Spec.Position (before : Bytes) (line col : Nat) : Prop :=
  ∃ a b, before = a ++ b ∧ chNl ∉ b ∧ (a = [] ∨ ∃ a', a = a' ++ [chNl]) ∧ line = a.count chNl + 1 ∧ col = b.length + 1

/-- The message for the reason, a line and a column, and characters of the document: line ends are left out; without colours quotes are escaped. -/
def Spec.Message (colour : Bool) (reason : Bytes) (line col : Nat) (shown : Bytes) (out : Bytes) : Prop :=
  ∃ L C, IsNumeral L line ∧ IsNumeral C col ∧
    out = asc! "reason: " ++ reason ++ asc! " \nlocation: near line: " ++ L ++ asc! " col: " ++ C ++ asc! "\n\"" ++
      (if colour then asc! "\x1b[1m" ++ shown.filter (fun c => c ≠ 0x0A ∧ c ≠ 0x0D) ++ asc! "\x1b[0m"
       else (shown.filter (fun c => c ≠ 0x0A ∧ c ≠ 0x0D)).flatMap (fun c => if c = 0x22 then asc! "\\\"" else [c])) ++ asc! "\"\n"

theorem scanLines_eq : ∀ (s : Bytes) (i count : Nat) (nl : Option Nat),
    (scanLines s i count nl).1 = count + s.count chNl ∧
    (chNl ∉ s → (scanLines s i count nl).2 = nl) ∧
    ∀ a b, s = a ++ [chNl] ++ b → chNl ∉ b → (scanLines s i count nl).2 = some (i + a.length)
  | [], i, count, nl => by simp [scanLines]
  | c :: s, i, count, nl => by
    by_cases hc : c = chNl
    · subst hc
      obtain ⟨h1, h2, h3⟩ := scanLines_eq s (i + 1) (count + 1) (some i)
      refine ⟨by simp [scanLines, h1]; omega, by simp, fun a b he hb => ?_⟩
      simp only [scanLines, if_true]
      cases a with
      | nil =>
        simp only [List.nil_append, List.singleton_append, List.cons.injEq, true_and] at he
        subst he
        rw [h2 hb]
        simp
      | cons x a =>
        simp only [List.cons_append, List.cons.injEq] at he
        rw [h3 a b (by simpa using he.2) hb]
        simp; omega
    · obtain ⟨h1, h2, h3⟩ := scanLines_eq s (i + 1) count nl
      refine ⟨by simp [scanLines, hc, h1], fun h => ?_, fun a b he hb => ?_⟩
      · simp only [scanLines, hc, if_false]
        exact h2 (by simp only [List.mem_cons, not_or] at h; exact h.2)
      · simp only [scanLines, hc, if_false]
        cases a with
        | nil => simp at he; exact absurd he.1 hc
        | cons x a =>
          simp only [List.cons_append, List.cons.injEq] at he
          rw [h3 a b (by simpa using he.2) hb]
          simp; omega

theorem shown_text (colour : Bool) (x : Bytes) : (if colour then [0x1B, 0x5B, 0x31, 0x6D] else []) ++ (x.flatMap (shownChar colour) ++
      (if colour then [0x1B, 0x5B, 0x30, 0x6D] else [])) =
    if colour then asc! "\x1b[1m" ++ x.filter (fun c => c ≠ 0x0A ∧ c ≠ 0x0D) ++ asc! "\x1b[0m"
       else (x.filter (fun c => c ≠ 0x0A ∧ c ≠ 0x0D)).flatMap (fun c => if c = 0x22 then asc! "\\\"" else [c]) := by
  cases colour with
  | true =>
    have : x.flatMap (shownChar true) = x.filter (fun c => c ≠ 0x0A ∧ c ≠ 0x0D) := by
      induction x with
      | nil => rfl
      | cons c x ih =>
        by_cases h1 : c = 0x0A <;> by_cases h2 : c = 0x0D <;> simp [shownChar, h1, h2, ih]
    simp only [if_true, this, List.append_assoc]
  | false =>
    simp only [Bool.false_eq_true, if_false, List.nil_append, List.append_nil]
    induction x with
    | nil => rfl
    | cons c x ih =>
      by_cases h1 : c = 0x0A <;> by_cases h2 : c = 0x0D <;> by_cases h3 : c = 0x22 <;> simp [shownChar, h1, h2, h3, ih]

theorem toFormatted_ok (colour : Bool) (reason : Bytes) {a l b x c : Bytes} (hb : chNl ∉ b) (hx : a ++ [chNl] ++ b = l ++ x) (hxl : x.length = 50)
    (z : UInt8) : toFormatted colour reason (some (a ++ [chNl] ++ b ++ z :: c)) (some (a ++ [chNl] ++ b).length)
      = .ok (locationText colour reason (a.count chNl + 2) (b.length + 2) (x ++ [z])) := by
  obtain ⟨h1, -, h3⟩ := scanLines_eq (a ++ [chNl] ++ b) 0 1 none
  have h3 := h3 a b rfl hb
  have hb0 : b.count chNl = 0 := List.count_eq_zero.2 hb
  have htk : (a ++ [chNl] ++ b ++ z :: c).take (a ++ [chNl] ++ b).length = a ++ [chNl] ++ b := List.take_left
  have hlen : (a ++ [chNl] ++ b).length = l.length + 50 := by rw [hx]; simp [hxl]
  have hdata : locationData (a ++ [chNl] ++ b ++ z :: c) (a ++ [chNl] ++ b).length = .ok (x ++ [z]) := by
    unfold locationData
    rw [hlen]
    have hm : min 50 (l.length + 50 + 1) = 50 := by omega
    simp only [hm]
    rw [if_neg (by
      rw [List.length_append, hlen]
      simp), hx]
    simp only [Nat.add_sub_cancel, List.append_assoc, List.drop_left]
    rw [show x ++ z :: c = (x ++ [z]) ++ c by simp, List.take_left' (by simp [hxl])]
  unfold toFormatted
  dsimp only
  rw [if_neg (by simp), htk]
  generalize hs : scanLines (a ++ [chNl] ++ b) 0 1 none = r at h1 h3
  obtain ⟨line, nl⟩ := r
  simp only at h1 h3
  subst h3 h1
  simp only [hdata, Res.ok_bind]
  have e1 : 1 + List.count chNl (a ++ [chNl] ++ b) = a.count chNl + 2 := by simp [List.count_append, hb0]; omega
  have e2 : (a ++ [chNl] ++ b).length - (0 + a.length) + 1 = b.length + 2 := by simp only [List.length_append, List.length_cons, List.length_nil]; omega
  rw [e1, e2]

theorem locationText_message (colour : Bool) (reason : Bytes) (line col : Nat) (x : Bytes) :
    Message colour reason line col x (locationText colour reason line col x) := by
  refine ⟨writeUnsigned line, writeUnsigned col, writeUnsigned_numeral _, writeUnsigned_numeral _, ?_⟩
  rw [← shown_text]
  simp only [locationText, List.append_assoc]

/-- **C95, partial.**  Without a document or a location the message is the reason.  Otherwise it is the reason, the line, a column, and the 50
characters in front of the location with the one at the location.
Missing: the column is one too large, see `C95_false_column`; the location must be behind the first line and behind the first 50 characters, and
not at the end, see `C95_false_reads_outside`. -/
theorem C95_message_partial (colour : Bool) (reason : Bytes) :
    (∀ doc loc, doc = none ∨ loc = none → toFormatted colour reason doc loc = .ok (asc! "reason: " ++ reason)) ∧
    ∀ (doc : Bytes) (pos line col : Nat), 50 ≤ pos → pos < doc.length → chNl ∈ doc.take pos → Position (doc.take pos) line col →
      ∃ out, toFormatted colour reason (some doc) (some pos) = .ok out ∧ Message colour reason line (col + 1) ((doc.drop (pos - 50)).take 51) out := by
  refine ⟨fun doc loc h => ?_, fun doc pos line col h50 hlt hnl hp => ?_⟩
  · rcases h with rfl | rfl
    · rfl
    · cases doc <;> rfl
  · obtain ⟨a, b, he, hb, ha, rfl, rfl⟩ := hp
    rcases ha with rfl | ⟨a, rfl⟩
    · rw [he] at hnl
      exact absurd hnl hb
    have hlen : (a ++ [chNl] ++ b).length = pos := by rw [← he]; simp; omega
    obtain ⟨z, c, hzc⟩ : ∃ z c, doc.drop pos = z :: c := by
      cases h : doc.drop pos with
      | nil =>
        have := List.drop_eq_nil_iff.1 h
        omega
      | cons z c => exact ⟨z, c, rfl⟩
    have hdoc : doc = a ++ [chNl] ++ b ++ z :: c := by rw [← he, ← hzc, List.take_append_drop]
    have hx : a ++ [chNl] ++ b = (a ++ [chNl] ++ b).take (pos - 50) ++ (a ++ [chNl] ++ b).drop (pos - 50) := (List.take_append_drop _ _).symm
    have hxl : ((a ++ [chNl] ++ b).drop (pos - 50)).length = 50 := by rw [List.length_drop, hlen]; omega
    have hsh : (doc.drop (pos - 50)).take 51 = (a ++ [chNl] ++ b).drop (pos - 50) ++ [z] := by
      rw [hdoc, List.drop_append_of_le_length (by omega), show ∀ x : Bytes, x ++ z :: c = (x ++ [z]) ++ c by simp,
        List.take_left' (by rw [List.length_append, hxl]; rfl)]
    refine ⟨_, ?_, locationText_message _ _ _ _ _⟩
    rw [hsh]
    have := toFormatted_ok colour reason hb hx hxl z (c := c)
    rw [← hdoc, hlen] at this
    rw [this]
    simp

/-- What a digit string in front of a character that is not a digit is, is determined. -/
theorem digits_unique {z : UInt8} (hz : ¬ IsDig z) : ∀ {l l' r r' : Bytes}, (∀ c ∈ l, IsDig c) → (∀ c ∈ l', IsDig c) → l ++ z :: r = l' ++ z :: r' →
    l = l' ∧ r = r'
  | [], [], _, _, _, _, h => by simpa using h
  | [], c :: l', _, _, _, h2, h => by
    simp only [List.nil_append, List.cons_append, List.cons.injEq] at h
    exact absurd (h2 z (by simp [h.1])) hz
  | c :: l, [], _, _, h1, _, h => by
    simp only [List.nil_append, List.cons_append, List.cons.injEq] at h
    exact absurd (h1 z (by simp [h.1])) hz
  | c :: l, c' :: l', _, _, h1, h2, h => by
    simp only [List.cons_append, List.cons.injEq] at h
    obtain ⟨rfl, h3⟩ := digits_unique hz (fun c hc => h1 c (by simp [hc])) (fun c hc => h2 c (by simp [hc])) h.2
    exact ⟨by rw [h.1], h3⟩

theorem numeral_digits {L : Bytes} {n : Nat} (h : IsNumeral L n) : (∀ c ∈ L, IsDig c) ∧ decVal L = n := by
  unfold IsNumeral at h
  rw [if_neg (by omega)] at h
  obtain ⟨h1, h2⟩ := h
  refine ⟨?_, by omega⟩
  rcases h1 with rfl | ⟨⟨-, h1⟩, -⟩
  · simp [IsDig]
  · exact h1

/-- C95 is false of the code for every location for which there is a message: the column is not the one of the location. -/
theorem C95_false_column (colour : Bool) (reason : Bytes) (doc : Bytes) (pos line col : Nat) (h50 : 50 ≤ pos) (hlt : pos < doc.length)
    (hnl : chNl ∈ doc.take pos) (hp : Position (doc.take pos) line col) :
    ∃ out, toFormatted colour reason (some doc) (some pos) = .ok out ∧ ∀ shown, ¬ Message colour reason line col shown out := by
  obtain ⟨out, h1, L, C, hL, hC, he⟩ := (C95_message_partial colour reason).2 doc pos line col h50 hlt hnl hp
  refine ⟨out, h1, fun shown ⟨L', C', hL', hC', he'⟩ => ?_⟩
  rw [he] at he'
  simp only [List.append_assoc, List.append_cancel_left_eq] at he'
  have d1 := numeral_digits hL
  have d2 := numeral_digits hC
  have d3 := numeral_digits hL'
  have d4 := numeral_digits hC'
  obtain ⟨-, he2⟩ := digits_unique (z := 0x20) (by unfold IsDig; decide) d1.1 d3.1 he'
  have he2 := List.append_cancel_left he2
  obtain ⟨rfl, -⟩ := digits_unique (z := 0x0A) (by unfold IsDig; decide) d2.1 d4.1 he2
  omega

/-- C95 is false of the code for locations in the first line, among the first 50 characters, or at the end: there is undefined behaviour exactly
then (a difference with a null pointer; reading the byte in front of the document; reading the byte behind it). -/
theorem C95_false_reads_outside (colour : Bool) (reason : Bytes) (doc : Bytes) (pos : Nat) (hle : pos ≤ doc.length) :
    toFormatted colour reason (some doc) (some pos) = .ub ↔ chNl ∉ doc.take pos ∨ pos < 50 ∨ pos = doc.length := by
  obtain ⟨-, h2, -⟩ := scanLines_eq (doc.take pos) 0 1 none
  unfold toFormatted
  dsimp only
  rw [if_neg (by omega)]
  by_cases hnl : chNl ∈ doc.take pos
  · have hd : locationData doc pos = .ub ↔ pos < 50 ∨ pos = doc.length := by
      unfold locationData
      dsimp only
      split
      · rename_i h
        simp only [true_iff]
        omega
      · rename_i h
        simp only [reduceCtorEq, false_iff]
        omega
    obtain ⟨a, b, he, hb⟩ : ∃ a b, doc.take pos = a ++ [chNl] ++ b ∧ chNl ∉ b := by
      generalize doc.take pos = s at hnl
      induction s with
      | nil => cases hnl
      | cons c s ih =>
        by_cases hs : chNl ∈ s
        · obtain ⟨a, b, rfl, hb⟩ := ih hs
          exact ⟨c :: a, b, by simp, hb⟩
        · refine ⟨[], s, ?_, hs⟩
          rcases List.mem_cons.1 hnl with h | h
          · rw [h]; rfl
          · exact absurd h hs
    have h3 := (scanLines_eq (doc.take pos) 0 1 none).2.2 a b he hb
    generalize scanLines (doc.take pos) 0 1 none = r at h3
    obtain ⟨line, nl⟩ := r
    simp only at h3
    subst h3
    simp only [hnl, not_true, false_or, ← hd]
    cases locationData doc pos <;> simp
  · have := h2 hnl
    generalize scanLines (doc.take pos) 0 1 none = r at this
    obtain ⟨line, nl⟩ := r
    simp only at this
    subst this
    simp [hnl]

/-! ### Concrete documents -/

/-- Two lines: `[`, newline, 60 letters, a quote. -/
def exFormatDoc : Bytes := chLBrack :: chNl :: (List.replicate 60 0x61 ++ [chQuote])

theorem exFormat_position : Position (exFormatDoc.take 62) 2 61 :=
  ⟨[chLBrack, chNl], List.replicate 60 0x61, by decide, by decide, Or.inr ⟨[chLBrack], rfl⟩, by decide, by decide⟩

/-- Non-vacuity: the quote is the 61st character of the second line, the message says column 62. -/
example : ∃ out, toFormatted false asc! "Trailing comma" (some exFormatDoc) (some 62) = .ok out ∧
    Message false asc! "Trailing comma" 2 62 ((exFormatDoc.drop 12).take 51) out :=
  (C95_message_partial false _).2 exFormatDoc 62 2 61 (by decide) (by decide) (by decide) exFormat_position

example : ∃ out, toFormatted false asc! "Trailing comma" (some exFormatDoc) (some 62) = .ok out ∧
    ∀ shown, ¬ Message false asc! "Trailing comma" 2 61 shown out :=
  C95_false_column false _ exFormatDoc 62 2 61 (by decide) (by decide) (by decide) exFormat_position

example : toFormatted false asc! "Trailing comma" (some exFormatDoc) (some 62) = .ok (asc! "reason: Trailing comma \nlocation: near line: 2 col: 62\n\"" ++
    (List.replicate 50 0x61 ++ asc! "\\\"\"\n")) := by decide +kernel

/-- The exception of `from_json<int>( "x" )`: the location is in the first line. -/
example : toFormatted true asc! "Invalid Number" (some asc! "x") (some 0) = .ub :=
  (C95_false_reads_outside true _ asc! "x" 0 (by decide)).2 (Or.inl (by decide))

end Verif
