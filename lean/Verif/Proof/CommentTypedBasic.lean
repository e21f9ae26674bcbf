import Verif.Spec.CommentTyped
import Verif.Model.CommentTyped
import Verif.Proof.Comments
import Verif.Proof.TypedMain

/-!
# Typed parsing with comments: gaps, arrays, maps
-/

namespace Verif

open Spec

/-- What is needed to know about a comment policy and the gaps that may occur. -/
structure Pol (p : Cmt) (G L : Bytes → Prop) : Prop where
  nil : G []
  head : ∀ {x g}, G (x :: g) → isWsByte x ∨ x = cmtChar p
  trim : ∀ {g} r, G g → trimCmt p (g ++ r) = trimCmt p r
  loop : ∀ k, IsBr k → ∀ ps s cnt g cs, G g → brLoopCmt p k ps s cnt (g ++ cs) = brLoopCmt p k ps s cnt cs
  lead : ∀ {g}, L g → G g
  leadTrim : ∀ {g x} r, L g → isSpace x = false → x ≠ cmtChar p → trimCmtUnchecked p (g ++ x :: r) = .ok (x :: r)

theorem hashGap_ws {w : Bytes} (h : IsWs w) : HashGap w := by
  induction w with
  | nil => exact .nil
  | cons c w ih => exact .ws (h c (by simp)) (ih fun d hd => h d (by simp [hd]))

theorem cppGap_ws {B : Bytes → Bytes → Prop} {w : Bytes} (h : IsWs w) : CppGapOf B w := by
  induction w with
  | nil => exact .nil
  | cons c w ih => exact .ws (h c (by simp)) (ih fun d hd => h d (by simp [hd]))

theorem moveToUnchecked_found {c : UInt8} {t : Bytes} (h : c ∉ t) (g : Bytes) : moveToUnchecked c (t ++ c :: g) = .ok (c :: g) := by
  induction t with
  | nil => simp [moveToUnchecked]
  | cons d t ih =>
    rw [List.cons_append, moveToUnchecked, if_neg (by rintro rfl; simp at h)]
    exact ih (fun hm => h (List.mem_cons_of_mem _ hm))

theorem skipHashUnchecked_comment {t : Bytes} (h : chNl ∉ t) (g : Bytes) :
    skipHashUnchecked (chHash :: (t ++ chNl :: g)) = skipHashUnchecked g := by
  rw [skipHashUnchecked.eq_def]
  simp only [if_true]
  split
  · rename_i hm; rw [moveToUnchecked_found h] at hm; simp at hm; rw [hm.2]
  · rename_i hm; rw [moveToUnchecked_found h] at hm; exact absurd rfl (hm _ _)

theorem skipHashUnchecked_stop {c : UInt8} (h : c ≠ chHash) (cs : Bytes) : skipHashUnchecked (c :: cs) = .ok (c :: cs) := by
  rw [skipHashUnchecked.eq_def]; simp [h]

theorem skipCppUnchecked_stop {c : UInt8} (h : c ≠ chSlash) (cs : Bytes) : skipCppUnchecked (c :: cs) = .ok (c :: cs) := by
  rw [skipCppUnchecked.eq_def]; simp [h]

theorem skipCppUnchecked_line {t : Bytes} (h : chNl ∉ t) (g : Bytes) :
    skipCppUnchecked (chSlash :: chSlash :: (t ++ chNl :: g)) = skipCppUnchecked g := by
  have e : moveToUnchecked chNl (chSlash :: chSlash :: (t ++ chNl :: g)) = .ok (chNl :: g) := by
    rw [moveToUnchecked, if_neg (by decide), moveToUnchecked, if_neg (by decide), moveToUnchecked_found h]
  rw [skipCppUnchecked.eq_def]
  simp only [if_true]
  split
  · rename_i hm; rw [e] at hm; simp at hm; rw [hm.2]
  · rename_i hm; rw [e] at hm; exact absurd rfl (hm _ _)

theorem blockEndUnchecked_simple {t : Bytes} (h : chStar ∉ t) (g : Bytes) : blockEndUnchecked (t ++ chStar :: chSlash :: g) = .ok g := by
  induction t with
  | nil => rw [List.nil_append, blockEndUnchecked.eq_def]; simp
  | cons c t ih =>
    have hc : c ≠ chStar := by rintro rfl; simp at h
    rw [List.cons_append, blockEndUnchecked.eq_def]
    simp only [hc, if_false]
    exact ih fun hm => h (List.mem_cons_of_mem _ hm)

theorem skipCppUnchecked_block {t : Bytes} (h : chStar ∉ t) (g : Bytes) :
    skipCppUnchecked (chSlash :: chStar :: (t ++ chStar :: chSlash :: g)) = skipCppUnchecked g := by
  rw [skipCppUnchecked.eq_def]
  simp only [if_true]
  rw [if_neg (by decide)]
  split
  · rename_i hm; rw [blockEndUnchecked_simple h] at hm; simp at hm; rw [hm]
  · rename_i hm; rw [blockEndUnchecked_simple h] at hm; exact absurd rfl (hm _)

theorem ws_ne_cmt {c : UInt8} (p : Cmt) (h : isWsByte c) : c ≠ cmtChar p := by
  rcases h with rfl | rfl | rfl | rfl <;> cases p <;> decide

theorem trimUnchecked_lead {w : Bytes} (hw : IsWs w) {x : UInt8} (r : Bytes) (hx : isSpace x = false) :
    trimUnchecked (w ++ x :: r) = .ok (x :: r) := by
  rw [trimUnchecked_ws _ _ hw, trimUnchecked_cons_of_not _ hx]

theorem lead_head {w : Bytes} (hw : IsWs w) (p : Cmt) {x : UInt8} (r : Bytes) (hc : x ≠ cmtChar p) :
    ∃ y ys, w ++ x :: r = y :: ys ∧ y ≠ cmtChar p := by
  cases w with
  | nil => exact ⟨x, r, rfl, hc⟩
  | cons y w => exact ⟨y, w ++ x :: r, rfl, ws_ne_cmt p (hw y (by simp))⟩

theorem trimCmtUnchecked_hash {g : Bytes} (h : HashLead g) {x : UInt8} (r : Bytes) (hx : isSpace x = false) (hc : x ≠ chHash) :
    trimCmtUnchecked .hash (g ++ x :: r) = .ok (x :: r) := by
  induction h with
  | ws hw =>
    obtain ⟨y, ys, e, hy⟩ := lead_head hw .hash r hc
    unfold trimCmtUnchecked
    simp only [e, skipHashUnchecked_stop hy, Res.ok_bind]
    rw [← e, trimUnchecked_lead hw r hx]
  | comment ht _ ih =>
    unfold trimCmtUnchecked at ih ⊢
    simp only [List.cons_append, List.append_assoc] at ih ⊢
    rw [skipHashUnchecked_comment ht]
    exact ih

theorem trimCmtUnchecked_cpp {g : Bytes} (h : CppLeadOf SimpleBlock g) {x : UInt8} (r : Bytes) (hx : isSpace x = false) (hc : x ≠ chSlash) :
    trimCmtUnchecked .cpp (g ++ x :: r) = .ok (x :: r) := by
  induction h with
  | ws hw =>
    obtain ⟨y, ys, e, hy⟩ := lead_head hw .cpp r hc
    unfold trimCmtUnchecked
    simp only [e, skipCppUnchecked_stop hy, Res.ok_bind]
    rw [← e, trimUnchecked_lead hw r hx]
  | line ht _ ih =>
    unfold trimCmtUnchecked at ih ⊢
    simp only [List.cons_append, List.append_assoc] at ih ⊢
    rw [skipCppUnchecked_line ht]
    exact ih
  | block _ hb _ ih =>
    unfold trimCmtUnchecked at ih ⊢
    simp only [List.cons_append, List.append_assoc] at ih ⊢
    rw [skipCppUnchecked_block hb.1]
    exact ih

theorem endStars_simple {t : Bytes} (h : chStar ∉ t) : endStars t = 0 := by
  unfold endStars
  cases e : t.reverse with
  | nil => rfl
  | cons c cs =>
    have : c ∈ t := by rw [← List.mem_reverse, e]; simp
    have hc : c ≠ chStar := by rintro rfl; exact h this
    simp [hc]

theorem cppGap_even {g : Bytes} (h : CppGapOf SimpleBlock g) : CppGapOf EvenStars g := by
  induction h with
  | nil => exact .nil
  | ws hc _ ih => exact .ws hc ih
  | line ht _ ih => exact .line ht ih
  | block hn hb _ ih => exact .block hn (by simp [EvenStars, endStars_simple hb.1]) ih

theorem hashLead_gap {g : Bytes} (h : HashLead g) : HashGap g := by
  induction h with
  | ws hw => exact hashGap_ws hw
  | comment ht _ ih => exact .comment ht ih

theorem cppLead_gap {B : Bytes → Bytes → Prop} {g : Bytes} (h : CppLeadOf B g) : CppGapOf B g := by
  induction h with
  | ws hw => exact cppGap_ws hw
  | line ht _ ih => exact .line ht ih
  | block h1 h2 _ ih => exact .block h1 h2 ih

theorem polHash : Pol .hash HashGap HashLead where
  nil := .nil
  head h := by cases h <;> simp_all [cmtChar]
  trim r h := trimCmt_hash h r
  loop _ hk ps s cnt g cs h := brLoopHash_gap hk ps s cnt g cs h
  lead := hashLead_gap
  leadTrim r h hx hc := trimCmtUnchecked_hash h r hx hc

theorem polCpp : Pol .cpp (CppGapOf SimpleBlock) (CppLeadOf SimpleBlock) where
  nil := .nil
  head h := by cases h <;> simp_all [cmtChar]
  trim r h := trimCmt_cpp (cppGap_even h) r
  loop _ hk ps s cnt g cs h := brLoopCpp_gap hk ps s cnt g cs h
  lead := cppLead_gap
  leadTrim r h hx hc := trimCmtUnchecked_cpp h r hx hc

/-- Without whitespace there is nothing to skip. -/
theorem polMini : Pol .mini (fun g => g = []) (fun g => g = []) where
  nil := rfl
  head h := by cases h
  trim r h := by rw [h]; rfl
  loop _ _ _ _ _ g cs h := by rw [h]; rfl
  lead h := h
  leadTrim r h _ _ := by rw [h]; rfl

/-! ## First character of a value -/

theorem text_headC {cc : UInt8} {G L : Bytes → Prop} (v : JVal) (hv : v.WFc cc G L) :
    ∃ c cs, v.text = c :: cs ∧ isSpace c = false ∧ isTokenAfterValue c = false ∧
      (v ≠ .null → c ≠ chN) ∧ (∀ p : Cmt, c ≠ cmtChar p) ∧ (∀ w es, v = .arr w es → c = chLBrack) ∧ (∀ w ms, v = .obj w ms → c = chLBrace) := by
  have hc : ∀ c : UInt8, c ≠ chHash → c ≠ chSlash → ∀ p : Cmt, c ≠ cmtChar p := by
    intro c h1 h2 p; cases p
    · exact h2
    · exact h1
    · exact h1
  match v with
  | .null => exact ⟨_, _, rfl, by decide, by decide, by simp, hc _ (by decide) (by decide), by simp, by simp⟩
  | .tru => exact ⟨_, _, rfl, by decide, by decide, by simp, hc _ (by decide) (by decide), by simp, by simp⟩
  | .fls => exact ⟨_, _, rfl, by decide, by decide, by simp, hc _ (by decide) (by decide), by simp, by simp⟩
  | .str b => exact ⟨_, _, rfl, by decide, by decide, by simp, hc _ (by decide) (by decide), by simp, by simp⟩
  | .arr w .nil => exact ⟨_, _, rfl, by decide, by decide, by simp, hc _ (by decide) (by decide), by simp, by simp⟩
  | .arr w (.cons ..) => exact ⟨_, _, rfl, by decide, by decide, by simp, hc _ (by decide) (by decide), by simp, by simp⟩
  | .obj w .nil => exact ⟨_, _, rfl, by decide, by decide, by simp, hc _ (by decide) (by decide), by simp, by simp⟩
  | .obj w (.cons ..) => exact ⟨_, _, rfl, by decide, by decide, by simp, hc _ (by decide) (by decide), by simp, by simp⟩
  | .num t =>
    have ht : IsNumber t := by simpa [JVal.WFc] using hv
    obtain ⟨c, cs, h1, h2, h3, h4, -⟩ := text_head (tc := false) (.num t) (by simpa [JVal.WFt] using ht)
    have hm : ∀ cc, CmtByte cc → c ≠ cc := fun cc hcc => number_no_cmt hcc ht c (by
      have : t = c :: cs := h1
      rw [this]; simp)
    exact ⟨c, cs, h1, h2, h3, h4, fun p => hm _ (cmtChar_byte p), by simp, by simp⟩

theorem trimCmt_solid {p : Cmt} {c : UInt8} (h : isSpace c = false) (hc : c ≠ cmtChar p) (cs : Bytes) : trimCmt p (c :: cs) = .ok (c :: cs) := by
  have hs : skipCmt p (c :: cs) = .ok (c :: cs) := by
    cases p
    · exact skipCpp_stop hc cs
    · exact skipHash_stop hc cs
    · rfl
  rw [trimCmt_def, hs]
  simp [trimAfter, h]

theorem trimCmt_punct (p : Cmt) {c : UInt8} (h : c = chComma ∨ c = chRBrack ∨ c = chRBrace ∨ c = chQuote ∨ c = chColon ∨ c = chLBrack ∨ c = chLBrace) (cs : Bytes) :
    trimCmt p (c :: cs) = .ok (c :: cs) := by
  rcases h with rfl | rfl | rfl | rfl | rfl | rfl | rfl <;> exact trimCmt_solid (by decide) (by cases p <;> decide) cs

theorem trimCmt_text {p : Cmt} {cc : UInt8} {G L : Bytes → Prop} {v : JVal} (hv : v.WFc cc G L) (k : Bytes) :
    trimCmt p (v.text ++ k) = .ok (v.text ++ k) := by
  obtain ⟨c, cs, h, hs, -, -, hc, -⟩ := text_headC v hv
  rw [h, List.cons_append, trimCmt_solid hs (hc p)]

theorem trimCmt_endToken (p : Cmt) {t : Bytes} (h : EndToken t) : trimCmt p t = .ok t := by
  rcases h with rfl | ⟨x, t', rfl, hx⟩
  · exact trimCmt_nil p
  · exact trimCmt_punct p (by rcases hx with rfl | rfl | rfl <;> simp) t'

/-! ## What a value is followed by -/

section
variable {p : Cmt} {G L : Bytes → Prop}

theorem Pol.trim_rest (P : Pol p G L) {g t r : Bytes} (hg : G g) (ht : EndToken t) (hr : r = g ++ t ∨ r = t) : trimCmt p r = .ok t := by
  rcases hr with rfl | rfl
  · rw [P.trim t hg, trimCmt_endToken p ht]
  · exact trimCmt_endToken p ht

/-- Moving on from the token that a gap is followed by. -/
def afterToken (p : Cmt) : Bytes → Res Bytes
  | [] => .ok []
  | c :: cs => if c = chComma then trimCmt p cs else .ok (c :: cs)

theorem Pol.moveNext_rest (P : Pol p G L) {g t r : Bytes} (hg : G g) (ht : EndToken t) (hr : r = g ++ t ∨ r = t) :
    moveNextCmt p r = afterToken p t := by
  unfold moveNextCmt
  rw [P.trim_rest hg ht hr, Res.ok_bind]
  cases t <;> rfl

theorem endToken_arr (tl : JElems) (k : Bytes) : EndToken (tl.text ++ chRBrack :: k) := by
  cases tl with
  | nil => exact Or.inr ⟨_, _, rfl, by simp⟩
  | cons => exact Or.inr ⟨0x2C, _, rfl, by simp⟩

theorem endToken_obj (tl : JMems) (k : Bytes) : EndToken (tl.text ++ chRBrace :: k) := by
  cases tl with
  | nil => exact Or.inr ⟨_, _, rfl, by simp⟩
  | cons => exact Or.inr ⟨0x2C, _, rfl, by simp⟩

theorem arrAfter_eq (post : Bytes) (tl : JElems) (k : Bytes) : arrAfter post tl [] k = post ++ (tl.text ++ chRBrack :: k) := rfl

theorem objAfter_eq (post : Bytes) (tl : JMems) (k : Bytes) : objAfter post tl [] k = post ++ (tl.text ++ chRBrace :: k) := rfl

theorem Pol.afterToken_arr (P : Pol p G L) {cc : UInt8} {tl : JElems} (h : tl.WFc cc G L) (k : Bytes) :
    afterToken p (tl.text ++ chRBrack :: k) = .ok (arrRest [] k tl) := by
  cases tl with
  | nil => rfl
  | cons pre v post tl =>
    simp only [JElems.WFc] at h
    simp only [JElems.text, List.cons_append, List.append_assoc, afterToken, if_true]
    rw [P.trim _ h.1, trimCmt_text h.2.1]
    rfl

theorem Pol.afterToken_obj (P : Pol p G L) {cc : UInt8} {tl : JMems} (h : tl.WFc cc G L) (k : Bytes) :
    afterToken p (tl.text ++ chRBrace :: k) = .ok (objRest [] k tl) := by
  cases tl with
  | nil => rfl
  | cons pre n pc qc v post tl =>
    simp only [JMems.WFc] at h
    simp only [JMems.text, List.cons_append, List.append_assoc, afterToken, if_true]
    rw [P.trim _ h.1, trimCmt_punct p (by simp)]
    rfl

theorem arrRest_neC {cc : UInt8} (w k : Bytes) {es : JElems} (h : es.WFc cc G L) : arrRest w k es ≠ [] := by
  cases es with
  | nil => simp [arrRest]
  | cons pre d post tl =>
    simp only [JElems.WFc] at h
    obtain ⟨c, cs, hc, -⟩ := text_headC d h.2.1
    simp [arrRest, hc]

theorem arrRest_cons_headC {cc : UInt8} {w k : Bytes} {pre : Bytes} {d : JVal} {post : Bytes} {tl : JElems}
    (hd : d.WFc cc G L) : ∃ c cs, arrRest w k (.cons pre d post tl) = c :: cs ∧ c ≠ chRBrack := by
  obtain ⟨c, cs, h, -, h2, -⟩ := text_headC d hd
  refine ⟨c, cs ++ arrAfter post tl w k, by simp [arrRest, h], ?_⟩
  rintro rfl
  simp [isTokenAfterValue] at h2

theorem text_length_posC {cc : UInt8} {d : JVal} (hd : d.WFc cc G L) : 0 < d.text.length := by
  obtain ⟨c, cs, h, -⟩ := text_headC d hd
  rw [h]; simp

/-- `f` reads `d` as `v`, whatever follows. -/
def SemUC (p : Cmt) (G : Bytes → Prop) (f : Bytes → Res (Val × Bytes)) (d : JVal) (v : Val) : Prop :=
  ∀ g t, Behind (cmtChar p) G d g → EndToken t → (g ++ t = [] → EndsWell d v) →
    ∃ r, f (d.text ++ (g ++ t)) = .ok (v, r) ∧ (r = g ++ t ∨ r = t)

theorem SemUC.arr {f : Bytes → Res (Val × Bytes)} {d : JVal} {v : Val} (h : SemUC p G f d v) {post : Bytes} (hp : Behind (cmtChar p) G d post)
    (tl : JElems) (k : Bytes) :
    ∃ r, f (d.text ++ arrAfter post tl [] k) = .ok (v, r) ∧ (r = post ++ (tl.text ++ chRBrack :: k) ∨ r = tl.text ++ chRBrack :: k) :=
  h post _ hp (endToken_arr tl k) (by simp)

theorem SemUC.obj {f : Bytes → Res (Val × Bytes)} {d : JVal} {v : Val} (h : SemUC p G f d v) {post : Bytes} (hp : Behind (cmtChar p) G d post)
    (tl : JMems) (k : Bytes) :
    ∃ r, f (d.text ++ objAfter post tl [] k) = .ok (v, r) ∧ (r = post ++ (tl.text ++ chRBrace :: k) ∨ r = tl.text ++ chRBrace :: k) :=
  h post _ hp (endToken_obj tl k) (by simp)

/-- The elements are read as the values. -/
def ElemsSemC (p : Cmt) (G : Bytes → Prop) (f : Bytes → Res (Val × Bytes)) : JElems → List Val → Prop
  | .nil, [] => True
  | .cons _ d _ tl, v :: vs => SemUC p G f d v ∧ ElemsSemC p G f tl vs
  | _, _ => False

/-- The members are read as the pairs. -/
def PairsSemC (p : Cmt) (G : Bytes → Prop) (f : Bytes → Res (Val × Bytes)) : JMems → List (Bytes × Val) → Prop
  | .nil, [] => True
  | .cons _ n _ _ d _ tl, (k, v) :: kvs => Unesc n k ∧ n.length < 2 ^ 63 ∧ SemUC p G f d v ∧ PairsSemC p G f tl kvs
  | _, _ => False

/-! ## Arrays -/

theorem arrLoopC_sem (P : Pol p G L) {f : Bytes → Res (Val × Bytes)} {cc : UInt8} (hcc : cc = cmtChar p) {k r₀ : Bytes} (hk : trimCmt p k = .ok r₀) :
    ∀ (tl : JElems) (pre : Bytes) (d : JVal) (post : Bytes) (v : Val) (vs : List Val),
      d.WFc cc G L → Behind cc G d post → tl.WFc cc G L → ElemsSemC p G f (.cons pre d post tl) (v :: vs) →
      arrLoopC p f (d.text ++ arrAfter post tl [] k) = .ok (v :: vs, r₀)
  | tl, pre, d, post, v, vs, hd, hpost, htl, hs => by
    subst hcc
    obtain ⟨hs1, hs2⟩ := (by simpa only [ElemsSemC] using hs : SemUC p G f d v ∧ ElemsSemC p G f tl vs)
    obtain ⟨r, hr, htr⟩ := hs1.arr hpost tl k
    have hne : (d.text ++ arrAfter post tl [] k).isEmpty = false := by
      obtain ⟨c, cs, h, -⟩ := text_headC d hd
      rw [h]; rfl
    have htrim := P.trim_rest hpost.1 (endToken_arr tl k) htr
    have hmv : moveNextCmt p (tl.text ++ chRBrack :: k) = .ok (arrRest [] k tl) := by
      rw [P.moveNext_rest P.nil (endToken_arr tl k) (Or.inr rfl), P.afterToken_arr htl]
    have hh : headIs (fun c => c == chComma || c == chRBrack) (tl.text ++ chRBrack :: k) = true := by
      cases tl <;> rfl
    unfold arrLoopC
    simp only [hne, Bool.not_false, ensure_true, Res.ok_bind, hr, htrim, hh, hmv]
    match tl, vs, hs2 with
    | .nil, [], _ =>
      simp only [arrRest, List.isEmpty_cons, Bool.not_false, ensure_true, Res.ok_bind, headIs, beq_self_eq_true, if_true, List.tail_cons, hk]
    | .cons pre' d' post' tl', v' :: vs', hs2 =>
      obtain ⟨-, hd', hpost', htl'⟩ := (by simpa only [JElems.WFc] using htl :
        G pre' ∧ d'.WFc (cmtChar p) G L ∧ Behind (cmtChar p) G d' post' ∧ tl'.WFc (cmtChar p) G L)
      obtain ⟨x, xs, hx, hxn⟩ := arrRest_cons_headC (w := []) (k := k) (pre := pre') (post := post') (tl := tl') hd'
      have hl := arrRest_length [] k post (.cons pre' d' post' tl')
      have hp := text_length_posC hd
      have hr' := arrLoopC_sem P rfl hk tl' pre' d' post' v' vs' hd' hpost' htl' hs2
      have hlt : (arrRest [] k (.cons pre' d' post' tl')).length
          < (d.text ++ arrAfter post (.cons pre' d' post' tl') [] k).length := by
        rw [List.length_append]; omega
      have hde : headIs (· == chRBrack) (arrRest [] k (.cons pre' d' post' tl')) = false := by rw [hx]; simpa [headIs] using hxn
      have hem : (arrRest [] k (.cons pre' d' post' tl')).isEmpty = false := by rw [hx]; rfl
      simp only [hem, Bool.not_false, ensure_true, Res.ok_bind, hde]
      rw [if_neg (by simp), dif_pos hlt]
      have : arrLoopC p f (arrRest [] k (.cons pre' d' post' tl')) = .ok (v' :: vs', r₀) := hr'
      rw [this]
      rfl
    | .nil, _ :: _, h => simp [ElemsSemC] at h
    | .cons .., [], h => simp [ElemsSemC] at h

/-- Arrays. -/
theorem parseArrC_sem (P : Pol p G L) (cfg : Cfg) {f : Bytes → Res (Val × Bytes)} {w : Bytes}
    {es : JElems} {vs : List Val} (hwf : (JVal.arr w es).WFc (cmtChar p) G L) (hs : ElemsSemC p G f es vs) :
    SemUC p G (parseArrC p cfg f) (.arr w es) (.arr vs) := by
  intro g t hg ht _
  refine ⟨t, ?_, Or.inr rfl⟩
  have hT := P.trim_rest hg.1 ht (Or.inl rfl)
  unfold parseArrC
  match es, vs, hs with
  | .nil, [], _ =>
    have hw : L w := by simpa [JVal.WFc] using hwf
    have h1 : trimCmt p ((JVal.arr w .nil).text ++ (g ++ t)) = .ok (chLBrack :: (w ++ chRBrack :: (g ++ t))) := by
      simp only [JVal.text, List.cons_append, List.append_assoc, List.nil_append]
      exact trimCmt_punct p (by simp) _
    have h2 := P.leadTrim (x := chRBrack) (g ++ t) hw (by decide) (by cases p <;> decide)
    simp only [h1, Res.ok_bind, headIs, beq_self_eq_true, ensure_true, List.tail_cons, h2, derefEnd_cons, if_true, hT]
  | .cons pre d post tl, v :: vs, hs =>
    obtain ⟨rfl, hpre, hd, hpost, htl⟩ := (by simpa only [JVal.WFc] using hwf :
      w = [] ∧ L pre ∧ d.WFc (cmtChar p) G L ∧ Behind (cmtChar p) G d post ∧ tl.WFc (cmtChar p) G L)
    rw [arr_text]
    have h1 : trimCmt p (chLBrack :: (pre ++ (d.text ++ arrAfter post tl [] (g ++ t))))
        = .ok (chLBrack :: (pre ++ (d.text ++ arrAfter post tl [] (g ++ t)))) := trimCmt_punct p (by simp) _
    obtain ⟨c, cs, h, hsp, htok, -, hc, -⟩ := text_headC d hd
    have h2 : trimCmtUnchecked p (pre ++ (d.text ++ arrAfter post tl [] (g ++ t))) = .ok (d.text ++ arrAfter post tl [] (g ++ t)) := by
      rw [h, List.cons_append]
      exact P.leadTrim _ hpre hsp (hc p)
    have h3 : derefEnd cfg (d.text ++ arrAfter post tl [] (g ++ t)) = .ok c := by rw [h]; rfl
    have h4 : c ≠ chRBrack := by rintro rfl; simp [isTokenAfterValue] at htok
    have hr := arrLoopC_sem P rfl hT tl pre d post v vs hd hpost htl hs
    simp only [h1, Res.ok_bind, headIs, beq_self_eq_true, ensure_true, List.tail_cons, h2, h3, if_neg h4, hr]
  | .nil, _ :: _, h => simp [ElemsSemC] at h
  | .cons .., [], h => simp [ElemsSemC] at h

/-! ## Maps -/

theorem Pol.endOfName (P : Pol p G L) {cc : UInt8} {pc qc k : Bytes} {d : JVal} (hd : d.WFc cc G L) (hpc : G pc) (hqc : G qc) :
    trimEndOfNameC p (pc ++ chColon :: (qc ++ (d.text ++ k))) = .ok (d.text ++ k) := by
  unfold trimEndOfNameC
  rw [P.trim _ hpc, trimCmt_punct p (by simp)]
  simp only [Res.ok_bind, headIs, beq_self_eq_true, ensure_true, List.isEmpty_cons, Bool.not_false, List.tail_cons]
  rw [P.trim _ hqc, trimCmt_text hd]

theorem mapLoopC_sem (P : Pol p G L) (cfg : Cfg) {f : Bytes → Res (Val × Bytes)} {cc : UInt8} (hcc : cc = cmtChar p) {k r₀ : Bytes} (hk : trimCmt p k = .ok r₀) :
    ∀ (tl : JMems) (pre n pc qc : Bytes) (d : JVal) (post : Bytes) (kv : Bytes × Val) (kvs : List (Bytes × Val)),
      G pc → G qc → d.WFc cc G L → Behind cc G d post → tl.WFc cc G L → PairsSemC p G f (.cons pre n pc qc d post tl) (kv :: kvs) →
      mapLoopC p cfg f (objRest [] k (.cons pre n pc qc d post tl)) = .ok (kv :: kvs, r₀)
  | tl, pre, n, pc, qc, d, post, (ky, v), kvs, hpc, hqc, hd, hpost, htl, hs => by
    subst hcc
    obtain ⟨hs0, hsl, hs1, hs2⟩ := (by simpa only [PairsSemC] using hs :
      Unesc n ky ∧ n.length < 2 ^ 63 ∧ SemUC p G f d v ∧ PairsSemC p G f tl kvs)
    obtain ⟨r, hr, htr⟩ := hs1.obj hpost tl k
    have hstr := parseStr_body cfg true hs0 hsl (pc ++ chColon :: (qc ++ (d.text ++ objAfter post tl [] k)))
      (Or.inl rfl)
    have hmv : moveNextCmt p r = .ok (objRest [] k tl) := by
      rw [P.moveNext_rest hpost.1 (endToken_obj tl k) htr, P.afterToken_obj htl]
    have hnm := P.endOfName (k := objAfter post tl [] k) hd hpc hqc
    have hobj : objRest [] k (.cons pre n pc qc d post tl)
        = chQuote :: (n ++ chQuote :: (pc ++ chColon :: (qc ++ (d.text ++ objAfter post tl [] k)))) := rfl
    rw [hobj]
    unfold mapLoopC
    simp only [ensure_true, List.isEmpty_cons, Bool.not_false, Res.ok_bind, hstr, hnm, hr, hmv]
    match tl, kvs, hs2 with
    | .nil, [], _ =>
      simp only [objRest, List.isEmpty_cons, Bool.not_false, ensure_true, Res.ok_bind, headIs, beq_self_eq_true, if_true, List.tail_cons, hk]
    | .cons pre' n' pc' qc' d' post' tl', kv' :: kvs', hs2 =>
      obtain ⟨-, -, hpc', hqc', hd', hpost', htl'⟩ := (by simpa only [JMems.WFc] using htl :
        G pre' ∧ IsStrBody n' ∧ G pc' ∧ G qc' ∧ d'.WFc (cmtChar p) G L ∧ Behind (cmtChar p) G d' post' ∧ tl'.WFc (cmtChar p) G L)
      have hl := objRest_length [] k post (.cons pre' n' pc' qc' d' post' tl')
      have hr' := mapLoopC_sem P cfg rfl hk tl' pre' n' pc' qc' d' post' kv' kvs' hpc' hqc' hd' hpost' htl' hs2
      have hlt : (objRest [] k (.cons pre' n' pc' qc' d' post' tl')).length
          < (chQuote :: (n ++ chQuote :: (pc ++ chColon :: (qc ++ (d.text ++
              objAfter post (.cons pre' n' pc' qc' d' post' tl') [] k))))).length := by
        simp only [List.length_append, List.length_cons]; omega
      have hde : headIs (· == chRBrace) (objRest [] k (.cons pre' n' pc' qc' d' post' tl')) = false := rfl
      have hem : (objRest [] k (.cons pre' n' pc' qc' d' post' tl')).isEmpty = false := rfl
      simp only [hem, hde, Bool.not_false, ensure_true, Res.ok_bind]
      rw [if_neg (by simp), dif_pos hlt, hr']
      rfl
    | .nil, _ :: _, h => simp [PairsSemC] at h
    | .cons .., [], h => simp [PairsSemC] at h

/-- Maps. -/
theorem parseMapC_sem (P : Pol p G L) (cfg : Cfg) {f : Bytes → Res (Val × Bytes)} {w : Bytes}
    {ms : JMems} {kvs : List (Bytes × Val)} (hwf : (JVal.obj w ms).WFc (cmtChar p) G L)
    (hs : PairsSemC p G f ms kvs) : SemUC p G (parseMapC p cfg f) (.obj w ms) (.map kvs) := by
  intro g t hg ht _
  refine ⟨t, ?_, Or.inr rfl⟩
  have hT := P.trim_rest hg.1 ht (Or.inl rfl)
  unfold parseMapC
  match ms, kvs, hs with
  | .nil, [], _ =>
    have hw : G w := by simpa [JVal.WFc] using hwf
    have h1 : (JVal.obj w .nil).text ++ (g ++ t) = chLBrace :: (w ++ chRBrace :: (g ++ t)) := by simp [JVal.text]
    have h2 : trimCmt p (w ++ chRBrace :: (g ++ t)) = .ok (chRBrace :: (g ++ t)) := by
      rw [P.trim _ hw, trimCmt_punct p (by simp)]
    simp only [h1, headIs, beq_self_eq_true, ensure_true, Res.ok_bind, h2,
      List.tail_cons, if_true, List.isEmpty_cons, Bool.not_false, hT]
  | .cons pre n pc qc d post tl, kv :: kvs, hs =>
    obtain ⟨rfl, hpre, -, hpc, hqc, hd, hpost, htl⟩ := (by simpa only [JVal.WFc] using hwf :
      w = [] ∧ G pre ∧ IsStrBody n ∧ G pc ∧ G qc ∧ d.WFc (cmtChar p) G L ∧ Behind (cmtChar p) G d post ∧ tl.WFc (cmtChar p) G L)
    have h2 : trimCmt p (pre ++ objRest [] (g ++ t) (.cons pre n pc qc d post tl))
        = .ok (objRest [] (g ++ t) (.cons pre n pc qc d post tl)) := by
      rw [P.trim _ hpre]
      exact trimCmt_punct p (by simp) _
    have hde : headIs (· == chRBrace) (objRest [] (g ++ t) (.cons pre n pc qc d post tl)) = false := rfl
    have hem : (objRest [] (g ++ t) (.cons pre n pc qc d post tl)).isEmpty = false := rfl
    have hr := mapLoopC_sem P cfg rfl hT tl pre n pc qc d post kv kvs hpc hqc hd hpost htl hs
    have h0 : headIs (· == chLBrace) (chLBrace :: (pre ++ objRest [] (g ++ t) (.cons pre n pc qc d post tl))) = true := rfl
    rw [obj_text]
    simp only [h0, ensure_true, Res.ok_bind, h2, List.tail_cons, hem, hde, Bool.not_false, Bool.false_eq_true, if_false, hr]
  | .nil, _ :: _, h => simp [PairsSemC] at h
  | .cons .., [], h => simp [PairsSemC] at h

end

end Verif
