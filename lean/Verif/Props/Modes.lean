import Verif.Proof.Modes
import Verif.Proof.ModesZero
import Verif.Proof.Comments
import Verif.Spec.Comments
import Verif.Props.Typed

/-!
# C123, C124: options that are meant to change the speed only

C123: `ExpectLongNames` and `ExecModeTypes` do not change what the parse of a class gives.
C124: `ExpectLongNames` does not change which text is a comment.
-/

namespace Verif

open Spec

/-! ## C123 -/

/-- What a parse in any mode gives is what the parse with the default options gives: a mode never makes a different value, and the only
exception of its own is the end of data.  Every type, every text, checked and unchecked. -/
theorem C123_never_another_value (x : Mode) (t : TCfg) (Δ : Env) (fuel : Nat) (ty : Ty) (bs : Bytes) :
    (∀ v, fromJsonX x t Δ fuel ty bs = .ok v → fromJson { t with longNames := false } Δ fuel ty bs = .ok v) ∧
    (∀ e, fromJsonX x t Δ fuel ty bs = .err e →
      e = .unexpectedEndOfData ∨ fromJson { t with longNames := false } Δ fuel ty bs = .err e) := by
  have h := fromJson_sim (S := Sim.weak .unexpectedEndOfData) (x := x) (long := t.longNames) Δ (fun t' ht' => ⟨fun bs => ?_, fun bs => ?_⟩)
    fuel t rfl ty bs
  · show (∀ v, _ → fromJson t.short Δ fuel ty bs = .ok v) ∧ ∀ e, _ → _ ∨ fromJson t.short Δ fuel ty bs = .err e
    rcases h with h | h | h
    · rw [h]; exact ⟨fun _ h => h, fun _ h => Or.inr h⟩
    · rw [h]; exact ⟨fun _ h => by simp at h, fun _ h => by simp at h⟩
    · rw [h]; exact ⟨fun _ h => by simp at h, fun _ h => Or.inl (by simp at h; exact h.symm)⟩
  · rcases parseNameX_long (t := t') bs with h | h
    · exact Or.inl h
    · exact Or.inr (Or.inl h.1)
  · unfold moveToMemberX
    split
    · exact Or.inl rfl
    · exact mempbrk_any t'.cfg _ _ bs

/-- Where only one of the two options is not the default, every text that the default accepts is accepted, with the same value, and the
exceptions are the same but for one: `InvalidString` with `ExpectLongNames`, `UnexpectedEndOfData` in the modes `runtime` and `simd`, in
place of which there may be undefined behaviour.  Both options together: `C123_both_options_partial` and `C123_zero_false`. -/
theorem C123_one_option_partial (x : Mode) (t : TCfg) (Δ : Env) (fuel : Nat) (ty : Ty) (bs : Bytes) (h : x.exec = .constexpr ∨ t.longNames = false) :
    fromJsonX x t Δ fuel ty bs = fromJson { t with longNames := false } Δ fuel ty bs ∨
    (fromJsonX x t Δ fuel ty bs = .ub ∧
      fromJson { t with longNames := false } Δ fuel ty bs = .err (if t.longNames then .invalidString else .unexpectedEndOfData)) := by
  show fromJsonX x t Δ fuel ty bs = fromJson t.short Δ fuel ty bs ∨ (_ ∧ fromJson t.short Δ fuel ty bs = _)
  have hg : ∀ t' : TCfg, t'.longNames = t.longNames →
      (Sim.strong (· = if t.longNames then .invalidString else .unexpectedEndOfData)).Good x t' := by
    refine fun t' ht' => ⟨fun bs => ?_, fun bs => ?_⟩
    · cases hl : t.longNames with
      | false => exact Or.inl (parseNameX_short (Or.inl (ht'.trans hl)) bs)
      | true =>
        rcases parseNameX_long (t := t') bs with h | h
        · exact Or.inl h
        · exact Or.inr ⟨h.1, _, rfl, h.2⟩
    · unfold moveToMemberX
      by_cases hx : x.exec = .constexpr
      · rw [if_pos hx]; exact Or.inl rfl
      · have hl := h.resolve_left hx
        rw [if_neg hx, ht', hl]
        rcases mempbrk_short t'.cfg x.debug bs with h | h
        · exact Or.inl h
        · exact Or.inr ⟨h.1, _, rfl, h.2⟩
  rcases fromJson_sim Δ hg fuel t rfl ty bs with hh | ⟨h1, e, rfl, h2⟩
  · exact Or.inl hh
  · exact Or.inr ⟨h1, h2⟩

/-- With both options, for a checked parse and a text without a zero (but perhaps at its end): every text that the default accepts is accepted, with the
same value, and the exceptions are the same but for `InvalidString` and `UnexpectedEndOfData`.  Missing: unchecked parses with both options, and
texts with zeros, for which it is false (`C123_zero_false`). -/
theorem C123_both_options_partial (x : Mode) (t : TCfg) (hck : t.cfg.checked = true) (Δ : Env) (fuel : Nat) (ty : Ty) (bs : Bytes)
    (h : 0 ∉ (if bs.getLast? = some 0 then bs.dropLast else bs)) :
    fromJsonX x t Δ fuel ty bs = fromJson { t with longNames := false } Δ fuel ty bs ∨
    (fromJsonX x t Δ fuel ty bs = .ub ∧
      (fromJson { t with longNames := false } Δ fuel ty bs = .err .invalidString ∨
       fromJson { t with longNames := false } Δ fuel ty bs = .err .unexpectedEndOfData)) := by
  rcases fromJson_nz x hck Δ fuel ty (bs := bs) h with ⟨h, -⟩ | h
  · exact Or.inl h
  · exact Or.inr h

/-- Non-vacuity: a document with a zero at its end. -/
example : fromJsonX ⟨.simd, false⟩ { longNames := true } exEnv 9 (.ref 0) (exDoc.text ++ [0]) = fromJson {} exEnv 9 (.ref 0) (exDoc.text ++ [0]) := by
  rcases C123_both_options_partial ⟨.simd, false⟩ { longNames := true } rfl exEnv 9 (.ref 0) (exDoc.text ++ [0]) (by decide) with h | ⟨-, h | h⟩
  · exact h
  · exact absurd h (by decide +kernel)
  · exact absurd h (by decide +kernel)

/-- With neither option the parse is the one of the other properties. -/
theorem C123_default (debug : Bool) (t : TCfg) (ht : t.longNames = false) (Δ : Env) (fuel : Nat) (ty : Ty) (bs : Bytes) :
    fromJsonX ⟨.constexpr, debug⟩ t Δ fuel ty bs = fromJson t Δ fuel ty bs := by
  have e : t.short = t := by cases t; cases ht; rfl
  rw [← e]
  rcases fromJson_sim (S := Sim.strong fun _ => False) (x := ⟨.constexpr, debug⟩) (long := false) Δ
    (fun t' ht' => ⟨fun bs => Or.inl (parseNameX_short (Or.inl ht') bs), fun bs => Or.inl (if_pos rfl)⟩) fuel t.short rfl ty bs with
    hh | ⟨_, _, h, _⟩
  · exact hh
  · exact h.elim

/-- Non-vacuity: the document of `Verif.Props.Typed` in every mode. -/
example : ∀ x ∈ [(⟨.constexpr, false⟩ : Mode), ⟨.runtime, false⟩, ⟨.simd, true⟩], ∀ l ∈ [true, false],
    fromJsonX x { longNames := l } exEnv 9 (.ref 0) exDoc.text = .ok exVal := by decide +kernel

/-- `{"a":1,` -/
def exCut : Bytes := [0x7B, 0x22, 0x61, 0x22, 0x3A, 0x31, 0x2C]

def exCutEnv : Env := fun _ => .obj [⟨[0x61], .int exI32 false⟩] false

theorem mempbrk_end (debug : Bool) {s : Bytes} (h : 0x22 ∉ s) (h' : 0x7D ∉ s) : mempbrk false debug [chQuote, chRBrace] s = .ub := by
  induction s with
  | nil => rfl
  | cons c cs ih =>
    simp only [List.mem_cons, not_or] at h h'
    rw [mempbrk, if_neg (by simp; exact ⟨Ne.symm h.1, Ne.symm h'.1⟩)]
    simpa using ih h.2 h'.2

/-- **C123 is false of the code in the modes `runtime` and `simd`**: leaving a class, a checked parse runs over the end of every text that has
no quote and no brace left, where the default raises `UnexpectedEndOfData`; `{"a":1,` is one. -/
theorem C123_end_false (x : Mode) (hx : x.exec ≠ .constexpr) (t : TCfg) (ht : t.longNames = false) (hck : t.cfg.checked = true) (s : Bytes)
    (h : 0x22 ∉ s) (h' : 0x7D ∉ s) :
    moveToMemberX x t s = .ub ∧ moveToNextClassMember t.cfg s = .err .unexpectedEndOfData ∧
    fromJsonX x {} exCutEnv 9 (.ref 0) exCut = .ub ∧ fromJson {} exCutEnv 9 (.ref 0) exCut = .err .unexpectedEndOfData := by
  refine ⟨?_, ?_, ?_, by decide +kernel⟩
  · rw [moveToMemberX, if_neg hx, ht]; exact mempbrk_end x.debug h h'
  · clear hx ht
    induction s with
    | nil => simp [moveToNextClassMember, hck]
    | cons c cs ih =>
      simp only [List.mem_cons, not_or] at h h'
      rw [moveToNextClassMember, if_neg (by simp; exact ⟨Ne.symm h.1, Ne.symm h'.1⟩)]
      exact ih h.2 h'.2
  · rcases x with ⟨m, d⟩
    cases m with
    | constexpr => exact absurd rfl hx
    | runtime => cases d <;> decide +kernel
    | simd => cases d <;> decide +kernel

example : (⟨.runtime, false⟩ : Mode).exec ≠ .constexpr ∧ (0x22 : UInt8) ∉ ([0x20] : Bytes) ∧ (0x7D : UInt8) ∉ ([0x20] : Bytes) := by decide

theorem toQuote_none {s : Bytes} (h : 0x22 ∉ s) : (toQuote s).2 = [] := by
  induction s with
  | nil => rfl
  | cons c cs ih =>
    simp only [List.mem_cons, not_or] at h
    rw [toQuote, if_neg (Ne.symm h.1)]
    exact ih h.2

/-- **C123 is false of the code with `ExpectLongNames`**: a checked parse reads from a null pointer if the name of a member does not end, in every
mode, whatever the class; the default raises `InvalidString`. -/
theorem C123_name_false (t : TCfg) (hck : t.cfg.checked = true) (he : t.escNames = false) (hl : t.longNames = true) (s : Bytes) (h : 0x22 ∉ s) :
    parseNameX t (0x22 :: s) = .ub ∧ parseName { t with longNames := false } (0x22 :: s) = .err .invalidString ∧
    ∀ x ∈ [(⟨.constexpr, false⟩ : Mode), ⟨.runtime, false⟩, ⟨.simd, false⟩],
      fromJsonX x { longNames := true } exCutEnv 9 (.ref 0) [0x7B, 0x22, 0x61] = .ub := by
  have hq := toQuote_none h
  refine ⟨?_, ?_, by decide +kernel⟩
  · simp [parseNameX, hck, he, hl, hq, headIs, deref]
  · simp [parseName, hck, he, hq, headIs, deref]

example : ({ longNames := true } : TCfg).cfg.checked = true ∧ (0x22 : UInt8) ∉ ([0x61] : Bytes) := by decide

/-- `{"a":[1]\0}`, `strpbrk` stops at the zero. -/
def exZero : Bytes := [0x7B, 0x22, 0x61, 0x22, 0x3A, 0x5B, 0x31, 0x5D, 0x00, 0x7D]

/-- With both options a text that the default accepts is not accepted. -/
theorem C123_zero_false :
    fromJson {} (fun _ => .obj [⟨[0x61], .arr (.int exI32 false)⟩] false) 9 (.ref 0) exZero = .ok (.cls [.arr [.int 1]]) ∧
    fromJsonX ⟨.runtime, false⟩ { longNames := true } (fun _ => .obj [⟨[0x61], .arr (.int exI32 false)⟩] false) 9 (.ref 0) exZero = .ub ∧
    fromJsonX ⟨.runtime, true⟩ { longNames := true } (fun _ => .obj [⟨[0x61], .arr (.int exI32 false)⟩] false) 9 (.ref 0) exZero =
      .err .unexpectedEndOfData := by decide +kernel

/-! ## C124 -/

theorem memchrLong_none {s : Bytes} (h : 0x22 ∉ s) : memchrLong s = none := by
  induction s with
  | nil => rfl
  | cons c cs ih =>
    simp only [List.mem_cons, not_or] at h
    rw [memchrLong, if_neg (Ne.symm h.1)]
    exact ih h.2

theorem memchrLong_some {s : Bytes} (h : 0x22 ∉ s) (r : Bytes) : memchrLong (s ++ 0x22 :: r) = some (0x22 :: r) := by
  induction s with
  | nil => rfl
  | cons c cs ih =>
    simp only [List.mem_cons, not_or] at h
    rw [List.cons_append, memchrLong, if_neg (Ne.symm h.1)]
    exact ih h.2

theorem skipCmtLong_hash (bs : Bytes) : skipCmtLong .hash bs = skipHashLong bs := rfl

theorem trimCmtLong_of {p : Cmt} {bs cs : Bytes} {c : UInt8} (h : skipCmtLong p bs = .ok (c :: cs)) (hc : 0x20 < c) :
    trimCmtLong p bs = .ok (c :: cs) := by
  have hs : isSpace c = false := isSpace_gt hc
  rw [trimCmtLong.eq_def]
  split <;> rename_i hm <;> rw [h] at hm <;> simp at hm
  obtain ⟨rfl, rfl⟩ := hm
  rw [hs, Bool.and_false]
  rfl

theorem trimCmtLong_ub {p : Cmt} {bs : Bytes} (h : skipCmtLong p bs = .ub) : trimCmtLong p bs = .ub := by
  rw [trimCmtLong.eq_def]
  split <;> rename_i hm <;> rw [h] at hm <;> simp at hm

/-- Text without comments is trimmed as without the option, for every policy. -/
theorem C124_no_comments (p : Cmt) (bs : Bytes) (h : p = .hash → 0x23 ∉ bs) (h' : p = .cpp → 0x2F ∉ bs) : trimCmtLong p bs = trimCmt p bs := by
  induction bs with
  | nil =>
    have e1 : skipCmtLong p [] = .ok [] := by
      cases p
      · show skipCppLong [] = _
        rw [skipCppLong.eq_def]
      · rfl
      · rfl
    rw [trimCmt_nil, trimCmtLong.eq_def]
    split <;> rename_i hm <;> rw [e1] at hm <;> simp at hm
  | cons c cs ih =>
    have ih' := ih (fun e hm => h e (List.mem_cons_of_mem _ hm)) (fun e hm => h' e (List.mem_cons_of_mem _ hm))
    have e1 : skipCmtLong p (c :: cs) = .ok (c :: cs) := by
      cases p
      · have : c ≠ chSlash := fun e => h' rfl (by simp [e])
        show skipCppLong _ = _
        rw [skipCppLong.eq_def]; simp [this]
      · have : c ≠ chHash := fun e => h rfl (by simp [e])
        rw [skipCmtLong_hash, skipHashLong]; simp [this]
      · rfl
    have e2 : skipCmt p (c :: cs) = .ok (c :: cs) := by
      cases p
      · exact skipCpp_stop (fun e => h' rfl (by simp [e])) cs
      · exact skipHash_stop (fun e => h rfl (by simp [e])) cs
      · rfl
    rw [trimCmtLong.eq_def]
    split <;> rename_i hm <;> rw [e1] at hm <;> simp at hm
    obtain ⟨rfl, rfl⟩ := hm
    rw [ih']
    symm
    rw [trimCmt_def, e2]
    rfl

theorem trimCmt_plain_mem {p : Cmt} {bs b : Bytes} (h : p = .hash → 0x23 ∉ bs) (h' : p = .cpp → 0x2F ∉ bs) (e : trimCmt p bs = .ok b) :
    ∀ c ∈ b, c ∈ bs := by
  induction bs with
  | nil => rw [trimCmt_nil] at e; simp at e; subst e; exact fun c hc => hc
  | cons c cs ih =>
    have e2 : skipCmt p (c :: cs) = .ok (c :: cs) := by
      cases p
      · exact skipCpp_stop (fun e => h' rfl (by simp [e])) cs
      · exact skipHash_stop (fun e => h rfl (by simp [e])) cs
      · rfl
    rw [trimCmt_def, e2] at e
    simp only [trimAfter] at e
    split at e
    · exact fun x hx => List.mem_cons_of_mem _
        (ih (fun e hm => h e (List.mem_cons_of_mem _ hm)) (fun e hm => h' e (List.mem_cons_of_mem _ hm)) e x hx)
    · simp at e; subst e; exact fun x hx => hx

/-- Moving to the next member is the same too. -/
theorem C124_next_no_comments (p : Cmt) (bs : Bytes) (h : p = .hash → 0x23 ∉ bs) (h' : p = .cpp → 0x2F ∉ bs) :
    moveNextCmtLong p bs = moveNextCmt p bs := by
  unfold moveNextCmtLong moveNextCmt
  rw [C124_no_comments p bs h h']
  cases e : trimCmt p bs with
  | err _ => rfl
  | ub => rfl
  | ok b =>
    cases b with
    | nil => rfl
    | cons c cs =>
      have hs := trimCmt_plain_mem h h' e
      simp only [Res.ok_bind]
      rw [C124_no_comments p cs (fun e hm => h e (hs _ (List.mem_cons_of_mem _ hm))) (fun e hm => h' e (hs _ (List.mem_cons_of_mem _ hm)))]

example : trimCmtLong .hash [0x20, 0x31] = trimCmt .hash [0x20, 0x31] := C124_no_comments .hash _ (by decide) (by decide)

/-- A hash comment and whitespace behind it, without quotes, in front of a string or a name is passed over as without the option.  Missing: everything else, which
is not passed over, see below. -/
theorem C124_before_a_quote_partial (t w r : Bytes) (ht : 0x0A ∉ t) (hq : 0x22 ∉ t) (hw : IsWs w) :
    trimCmtLong .hash (0x23 :: (t ++ 0x0A :: (w ++ 0x22 :: r))) = .ok (0x22 :: r) ∧
    trimCmt .hash (0x23 :: (t ++ 0x0A :: (w ++ 0x22 :: r))) = .ok (0x22 :: r) := by
  have hw' : 0x22 ∉ w := fun hm => absurd (hw _ hm) (by simp [isWsByte])
  constructor
  · have e : t ++ 0x0A :: (w ++ 0x22 :: r) = (t ++ 0x0A :: w) ++ 0x22 :: r := by simp
    refine trimCmtLong_of ?_ (by decide)
    rw [skipCmtLong_hash, skipHashLong, if_pos rfl, e, memchrLong_some (by simp [hq, hw'])]
  · have hg : ∀ w : Bytes, IsWs w → HashGap w := by
      intro w
      induction w with
      | nil => exact fun _ => .nil
      | cons c cs ih => exact fun h => .ws (h c (by simp)) (ih fun x hx => h x (List.mem_cons_of_mem _ hx))
    have e : 0x23 :: (t ++ 0x0A :: (w ++ 0x22 :: r)) = (0x23 :: (t ++ 0x0A :: w)) ++ 0x22 :: r := by simp
    rw [e, trimCmt_hash (.comment ht (hg w hw))]
    exact trimCmt_stop (p := .hash) (by decide) (by decide) r

example : trimCmtLong .hash [0x23, 0x61, 0x0A, 0x20, 0x22] = .ok [0x22] :=
  (C124_before_a_quote_partial [0x61] [0x20] [] (by decide) (by decide) (by simp [IsWs, isWsByte])).1

/-- **C124 is false of the code**, hash comments: whatever stands between the end of the comment's line and the next quote is passed over with the comment, and if there
is no quote the parse reads from a null pointer. -/
theorem C124_hash_false (t u r : Bytes) (ht : 0x0A ∉ t) (hq : 0x22 ∉ t) (hu : 0x22 ∉ u) :
    trimCmtLong .hash (0x23 :: (t ++ 0x0A :: (u ++ 0x22 :: r))) = .ok (0x22 :: r) ∧
    trimCmtLong .hash (0x23 :: (t ++ 0x0A :: u)) = .ub ∧
    (∀ c s, u = c :: s → 0x20 < c → c ≠ 0x23 → trimCmt .hash (0x23 :: (t ++ 0x0A :: u)) = .ok u) := by
  refine ⟨?_, ?_, ?_⟩
  · have e : t ++ 0x0A :: (u ++ 0x22 :: r) = (t ++ 0x0A :: u) ++ 0x22 :: r := by simp
    refine trimCmtLong_of ?_ (by decide)
    rw [skipCmtLong_hash, skipHashLong, if_pos rfl, e, memchrLong_some (by simp [hq, hu])]
  · refine trimCmtLong_ub ?_
    rw [skipCmtLong_hash, skipHashLong, if_pos rfl, memchrLong_none (by simp [hq, hu])]
  · rintro c s rfl h1 h2
    have e : 0x23 :: (t ++ 0x0A :: (c :: s)) = (0x23 :: (t ++ 0x0A :: [])) ++ c :: s := by simp
    rw [e, trimCmt_hash (.comment ht .nil)]
    exact trimCmt_stop (p := .hash) h1 h2 s

/-- `# one⏎2,"a"`: the number is gone. -/
example : trimCmtLong .hash [0x23, 0x31, 0x0A, 0x32, 0x2C, 0x22, 0x61, 0x22] = .ok [0x22, 0x61, 0x22] ∧
    trimCmt .hash [0x23, 0x31, 0x0A, 0x32, 0x2C, 0x22, 0x61, 0x22] = .ok [0x32, 0x2C, 0x22, 0x61, 0x22] := by decide +kernel

/-- **C124 is false of the code**, comments from `//`: the opening quote of the string behind the comment is passed over too. -/
theorem C124_cpp_false (t w : Bytes) (x : UInt8) (r : Bytes) (ht : 0x0A ∉ t) (hq : 0x22 ∉ t) (hw : IsWs w) (hx : 0x20 < x) (hx2 : x ≠ 0x2F) :
    trimCmtLong .cpp (0x2F :: 0x2F :: (t ++ 0x0A :: (w ++ 0x22 :: x :: r))) = .ok (x :: r) ∧
    trimCmt .cpp (0x2F :: 0x2F :: (t ++ 0x0A :: (w ++ 0x22 :: x :: r))) = .ok (0x22 :: x :: r) := by
  have hw' : 0x22 ∉ w := fun hm => absurd (hw _ hm) (by simp [isWsByte])
  constructor
  · have e : (0x2F :: 0x2F :: (t ++ 0x0A :: (w ++ 0x22 :: x :: r)) : Bytes) = (0x2F :: 0x2F :: (t ++ 0x0A :: w)) ++ 0x22 :: x :: r := by simp
    have hm := memchrLong_some (s := 0x2F :: 0x2F :: (t ++ 0x0A :: w)) (by simp [hq, hw']) (x :: r)
    rw [← e] at hm
    refine trimCmtLong_of ?_ hx
    show skipCppLong _ = _
    rw [skipCppLong.eq_def]
    simp only [if_true]
    split <;> rename_i h <;> rw [hm] at h <;> simp at h
    obtain ⟨_, rfl⟩ := h
    rw [skipCppLong.eq_def]
    simp [hx2]
  · have hg : ∀ w : Bytes, IsWs w → CppGapOf EvenStars w := by
      intro w
      induction w with
      | nil => exact fun _ => .nil
      | cons c cs ih => exact fun h => .ws (h c (by simp)) (ih fun x hx => h x (List.mem_cons_of_mem _ hx))
    have e : 0x2F :: 0x2F :: (t ++ 0x0A :: (w ++ 0x22 :: x :: r)) = (0x2F :: 0x2F :: (t ++ 0x0A :: w)) ++ 0x22 :: x :: r := by simp
    rw [e, trimCmt_cpp (.line ht (hg w hw))]
    exact trimCmt_stop (p := .cpp) (by decide) (by decide) _

/-- **C124 is false of the code**, block comments: they end at the first `"/` in place of `*/` (text with no other quotes in front), and a text without quotes is
not read at all. -/
theorem C124_block_false (t : Bytes) (x : UInt8) (r : Bytes) (hq : 0x22 ∉ t) (hx : 0x20 < x) (hx2 : x ≠ 0x2F) :
    trimCmtLong .cpp (0x2F :: 0x2A :: (t ++ 0x22 :: 0x2F :: x :: r)) = .ok (x :: r) ∧
    (t ≠ [] → trimCmtLong .cpp (0x2F :: 0x2A :: t) = .ub) := by
  constructor
  · have hm := memchrLong_some hq (0x2F :: x :: r)
    have hb : blockEndLong (t ++ 0x22 :: 0x2F :: x :: r) = .ok (x :: r) := by
      generalize t ++ 0x22 :: 0x2F :: x :: r = y at hm
      rw [blockEndLong.eq_def]
      cases y with
      | nil => simp [memchrLong] at hm
      | cons c cs =>
        dsimp only
        split <;> rename_i h <;> rw [hm] at h <;> simp at h
        obtain ⟨_, rfl, rfl⟩ := h
        rfl
    refine trimCmtLong_of ?_ hx
    show skipCppLong _ = _
    rw [skipCppLong.eq_def]
    simp only [if_true, show (0x2A : UInt8) ≠ 0x2F by decide, if_false]
    split <;> rename_i h <;> rw [hb] at h <;> simp at h
    subst h
    rw [skipCppLong.eq_def]
    simp [hx2]
  · intro hne
    have hm := memchrLong_none hq
    have hb : blockEndLong t = .ub := by
      rw [blockEndLong.eq_def]
      cases t with
      | nil => exact absurd rfl hne
      | cons c cs =>
        dsimp only
        split <;> rename_i h <;> rw [hm] at h <;> simp at h
    refine trimCmtLong_ub ?_
    show skipCppLong _ = _
    rw [skipCppLong.eq_def]
    simp only [if_true, show (0x2A : UInt8) ≠ 0x2F by decide, if_false]
    split <;> rename_i h
    · rw [hb] at h; simp at h
    · rfl

/-- `/* */1"/2` -/
example : trimCmtLong .cpp (0x2F :: 0x2A :: ([0x20, 0x2A, 0x2F, 0x31] ++ 0x22 :: 0x2F :: 0x32 :: [])) = .ok [0x32] :=
  (C124_block_false [0x20, 0x2A, 0x2F, 0x31] 0x32 [] (by decide) (by decide) (by decide)).1

/-- `//x⏎ "a"` -/
example : trimCmtLong .cpp [0x2F, 0x2F, 0x78, 0x0A, 0x20, 0x22, 0x61, 0x22] = .ok [0x61, 0x22] :=
  (C124_cpp_false [0x78] [0x20] 0x61 [0x22] (by decide) (by decide) (by simp [IsWs, isWsByte]) (by decide) (by decide)).1

end Verif
