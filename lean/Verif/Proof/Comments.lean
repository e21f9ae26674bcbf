import Verif.Proof.SkipExact
import Verif.Model.Comments
import Verif.Spec.Comments

/-!
# Comments are passed over
-/

namespace Verif

open Spec

/-! ## Moving over single comments -/

theorem moveTo_found {c : UInt8} {t : Bytes} (h : c ∉ t) (g : Bytes) : moveTo c (t ++ c :: g) = c :: g := by
  induction t with
  | nil => simp [moveTo]
  | cons d t ih =>
    rw [List.cons_append, moveTo, if_neg (by rintro rfl; simp at h)]
    exact ih (fun hm => h (List.mem_cons_of_mem _ hm))

theorem skipHash_comment {t : Bytes} (h : chNl ∉ t) (g : Bytes) : skipHash (chHash :: (t ++ chNl :: g)) = skipHash g := by
  rw [skipHash.eq_def]
  simp only [if_true]
  split
  · rename_i hm; rw [moveTo_found h] at hm; simp at hm
  · rename_i hm; rw [moveTo_found h] at hm; simp at hm; rw [hm.2]

theorem skipHash_stop {c : UInt8} (h : c ≠ chHash) (cs : Bytes) : skipHash (c :: cs) = .ok (c :: cs) := by
  rw [skipHash.eq_def]; simp [h]

theorem skipCpp_stop {c : UInt8} (h : c ≠ chSlash) (cs : Bytes) : skipCpp (c :: cs) = .ok (c :: cs) := by
  rw [skipCpp.eq_def]; simp [h]

theorem skipCpp_line {t : Bytes} (h : chNl ∉ t) (g : Bytes) : skipCpp (chSlash :: chSlash :: (t ++ chNl :: g)) = skipCpp g := by
  rw [skipCpp.eq_def]
  simp only [if_true]
  have e : moveTo chNl (chSlash :: chSlash :: (t ++ chNl :: g)) = chNl :: g := by
    rw [moveTo, if_neg (by decide), moveTo, if_neg (by decide), moveTo_found h]
  split
  · rename_i hm; rw [e] at hm; simp at hm
  · rename_i hm; rw [e] at hm; simp at hm; rw [hm.2]

theorem skipCpp_block (bs : Bytes) : skipCpp (chSlash :: chStar :: bs) = skipCpp (blockEnd bs) := by
  rw [skipCpp.eq_def]; simp

/-! ## Block comments -/

theorem blockEnd_plain {c : UInt8} (h : c ≠ chStar) (cs : Bytes) : blockEnd (c :: cs) = blockEnd cs := by
  rw [blockEnd.eq_def]; simp [h]

theorem blockEnd_close (g : Bytes) : blockEnd (chStar :: chSlash :: g) = g := by
  rw [blockEnd.eq_def]; simp

theorem blockEnd_pair {d : UInt8} (h : d ≠ chSlash) (g : Bytes) : blockEnd (chStar :: d :: g) = blockEnd g := by
  rw [blockEnd.eq_def]; simp [h]

theorem endStars_nil : endStars [] = 0 := rfl

theorem endStars_replicate (n : Nat) : endStars (List.replicate n chStar) = n := by
  simp [endStars]

theorem endStars_append {t : Bytes} {c : UInt8} (u : Bytes) (hc : c ≠ chStar) : endStars (u ++ c :: t) = endStars t := by
  unfold endStars
  rw [List.reverse_append, List.reverse_cons, List.append_assoc, List.takeWhile_append]
  split
  · rename_i h
    rw [h]
    simp [hc]
  · rfl

theorem noClose_tail {c : UInt8} {cs : Bytes} (h : NoClose (c :: cs)) : NoClose cs := by
  cases cs with
  | nil => trivial
  | cons d ds => exact h.2

/-- Where the code takes a block comment to end. -/
theorem blockEnd_comment {t : Bytes} (h : NoClose (t ++ [chStar])) (g : Bytes) :
    blockEnd (t ++ chStar :: chSlash :: g) = if endStars t % 2 = 0 then g else blockEnd g := by
  -- by strong induction, taking stars in pairs
  induction hn : t.length using Nat.strongRecOn generalizing t with
  | _ n ih =>
    match t with
    | [] => simp [blockEnd_close, endStars_nil]
    | [c] =>
      by_cases hc : c = chStar
      · subst hc
        have : endStars [chStar] = 1 := rfl
        simp only [List.cons_append, List.nil_append, this]
        rw [blockEnd_pair (by decide), blockEnd_plain (by decide)]
        simp
      · rw [List.cons_append, blockEnd_plain hc, List.nil_append, blockEnd_close]
        have := endStars_append (t := []) [] hc
        simp only [List.nil_append] at this
        rw [this, endStars_nil]; simp
    | c :: d :: t' =>
      have hl : t'.length + 2 = n := by simpa using hn
      by_cases hc : c = chStar
      · subst hc
        have hd : d ≠ chSlash := fun e => h.1 ⟨rfl, e⟩
        have h2 : NoClose (t' ++ [chStar]) := noClose_tail (noClose_tail h)
        rw [List.cons_append, List.cons_append, blockEnd_pair hd, ih t'.length (by omega) h2 rfl]
        have key : endStars (chStar :: d :: t') % 2 = endStars t' % 2 := by
          by_cases hds : d = chStar
          · subst hds
            by_cases hall : ∃ u x r, t' = u ++ x :: r ∧ x ≠ chStar
            · obtain ⟨u, x, r, rfl, hx⟩ := hall
              rw [show chStar :: chStar :: (u ++ x :: r) = (chStar :: chStar :: u) ++ x :: r by rfl,
                endStars_append _ hx, endStars_append _ hx]
            · have : ∀ x ∈ t', x = chStar := by
                intro x hx
                obtain ⟨u, r, rfl⟩ := List.append_of_mem hx
                by_cases hxs : x = chStar
                · exact hxs
                · exact absurd ⟨u, x, r, rfl, hxs⟩ hall
              have e := List.eq_replicate_of_mem this
              rw [e, show chStar :: chStar :: List.replicate t'.length chStar = List.replicate (t'.length + 2) chStar by
                simp [List.replicate_succ], endStars_replicate, endStars_replicate]
              omega
          · have := endStars_append (t := t') [chStar] hds
            simp only [List.cons_append, List.nil_append] at this
            rw [this]
        rw [key]
      · rw [List.cons_append, blockEnd_plain hc, ih (d :: t').length (by simp; omega) (noClose_tail h) rfl]
        have := endStars_append (t := d :: t') [] hc
        simp only [List.nil_append] at this
        rw [this]

/-! ## Trimming -/

theorem isSpace_ws {c : UInt8} (h : isWsByte c) : isSpace c = true := by
  rcases h with rfl | rfl | rfl | rfl <;> decide

theorem isSpace_gt {c : UInt8} (h : 0x20 < c) : isSpace c = false := by
  have h1 := c.toNat_lt
  rw [UInt8.lt_iff_toNat_lt] at h
  unfold isSpace
  have : (0x20 : UInt8).toNat = 32 := rfl
  simp only [decide_eq_false_iff_not]
  omega

/-- The rest of `trimCmt` once comments are skipped. -/
def trimAfter (p : Cmt) : Res Bytes → Res Bytes
  | .ok [] => .ok []
  | .ok (c :: cs) => if p.skipsSpace && isSpace c then trimCmt p cs else .ok (c :: cs)
  | .err e => .err e
  | .ub => .ub

theorem trimCmt_def (p : Cmt) (bs : Bytes) : trimCmt p bs = trimAfter p (skipCmt p bs) := by
  rw [trimCmt.eq_def]
  split <;> (rename_i h; rw [h]; rfl)

/-- Trimming behaves like a step of comment skipping. -/
theorem trimCmt_skip {p : Cmt} {a b : Bytes} (h : skipCmt p a = skipCmt p b) : trimCmt p a = trimCmt p b := by
  rw [trimCmt_def, trimCmt_def, h]

theorem trimCmt_ws {p : Cmt} (hp : p.skipsSpace = true) {c : UInt8} (h : isWsByte c) (cs : Bytes) : trimCmt p (c :: cs) = trimCmt p cs := by
  have hs : skipCmt p (c :: cs) = .ok (c :: cs) := by
    cases p
    · exact skipCpp_stop (by rcases h with rfl | rfl | rfl | rfl <;> decide) cs
    · exact skipHash_stop (by rcases h with rfl | rfl | rfl | rfl <;> decide) cs
    · rfl
  rw [trimCmt_def, hs]
  simp [trimAfter, isSpace_ws h, hp]

theorem trimCmt_stop {p : Cmt} {c : UInt8} (h : 0x20 < c) (hc : c ≠ cmtChar p) (cs : Bytes) : trimCmt p (c :: cs) = .ok (c :: cs) := by
  have hs : skipCmt p (c :: cs) = .ok (c :: cs) := by
    cases p
    · exact skipCpp_stop hc cs
    · exact skipHash_stop hc cs
    · rfl
  rw [trimCmt_def, hs]
  simp [trimAfter, isSpace_gt h]

theorem trimCmt_nil (p : Cmt) : trimCmt p [] = .ok [] := by
  rw [trimCmt_def]
  cases p
  · show trimAfter _ (skipCpp []) = _
    rw [skipCpp.eq_def]; rfl
  · show trimAfter _ (skipHash []) = _
    rw [skipHash.eq_def]; rfl
  · rfl

theorem trimCmt_hash {g : Bytes} (hg : HashGap g) (rest : Bytes) : trimCmt .hash (g ++ rest) = trimCmt .hash rest := by
  induction hg with
  | nil => rfl
  | ws hc _ ih => rw [List.cons_append, trimCmt_ws rfl hc, ih]
  | comment ht _ ih =>
    rw [← ih]
    simp only [List.cons_append, List.append_assoc]
    exact trimCmt_skip (p := .hash) (skipHash_comment ht _)

theorem trimCmt_cpp {g : Bytes} (hg : CppGapOf EvenStars g) (rest : Bytes) : trimCmt .cpp (g ++ rest) = trimCmt .cpp rest := by
  induction hg with
  | nil => rfl
  | ws hc _ ih => rw [List.cons_append, trimCmt_ws rfl hc, ih]
  | line ht _ ih =>
    rw [← ih]
    simp only [List.cons_append, List.append_assoc]
    exact trimCmt_skip (p := .cpp) (skipCpp_line ht _)
  | block ht hb _ ih =>
    rw [← ih]
    simp only [List.cons_append, List.append_assoc]
    refine trimCmt_skip (p := .cpp) ?_
    show skipCpp _ = skipCpp _
    rw [skipCpp_block, blockEnd_comment ht, if_pos hb]

/-! ## The bracket loop, for any way of passing over gaps -/

/-- What the induction over values needs of a bracket loop. -/
structure LoopOver (k : Brackets) (cc : UInt8) (G : Bytes → Prop) (L : Nat → Nat → Nat → Bytes → Res (Nat × Bytes)) : Prop where
  neutral1 : ∀ p s cnt c cs, Neutral c → c ≠ cc → L p s cnt (c :: cs) = L p s cnt cs
  string : ∀ p s cnt b cs, IsStrBody b → L p s cnt (chQuote :: (b ++ chQuote :: cs)) = L p s cnt cs
  comma : ∀ p s cnt cs, L p s cnt (chComma :: cs) = L p s (cnt + if p = 1 ∧ s = 0 then 1 else 0) cs
  primL : ∀ p s cnt cs, L p s cnt (k.primLeft :: cs) = L (inc32 p) s cnt cs
  primR : ∀ p s cnt cs, L p s cnt (k.primRight :: cs) =
    if dec32 p = 0 then (do ensure (s == 0) .invalidBracketing; .ok (cnt, cs)) else L (dec32 p) s cnt cs
  secL : ∀ p s cnt cs, L p s cnt (k.secLeft :: cs) = L p (inc32 s) cnt cs
  secR : ∀ p s cnt cs, L p s cnt (k.secRight :: cs) = L p (dec32 s) cnt cs
  gap : ∀ p s cnt g cs, G g → L p s cnt (g ++ cs) = L p s cnt cs

/-- The byte that starts comments is in no number and no literal, and is no colon. -/
def CmtByte (cc : UInt8) : Prop := cc = chSlash ∨ cc = chHash

theorem number_no_cmt {cc : UInt8} (hcc : CmtByte cc) {n : Bytes} (h : IsNumber n) : ∀ c ∈ n, c ≠ cc := by
  have hdig : ∀ c, IsDig c → c ≠ cc := by
    intro c h
    simp only [IsDig, UInt8.le_iff_toNat_le] at h
    rcases hcc with rfl | rfl <;> rintro rfl <;> simp at h
  obtain ⟨m, i, f, e, hm, hi, hf, he, rfl⟩ := h
  intro c hc
  simp only [List.mem_append] at hc
  rcases hc with hc | hc | hc | hc
  · rcases hm with rfl | rfl
    · simp at hc
    · simp at hc; subst hc; rcases hcc with rfl | rfl <;> decide
  · exact hdig c ((isInt_digits hi).2 c hc)
  · rcases hf with rfl | ⟨ds, hds, rfl⟩
    · simp at hc
    · rcases List.mem_cons.1 hc with rfl | hc
      · rcases hcc with rfl | rfl <;> decide
      · exact hdig c (hds.2 c hc)
  · rcases he with rfl | ⟨x, sg, ds, hx, hs, hds, rfl⟩
    · simp at hc
    · rcases List.mem_cons.1 hc with rfl | hc
      · rcases hx with rfl | rfl <;> rcases hcc with rfl | rfl <;> decide
      · rcases List.mem_append.1 hc with hc | hc
        · rcases hs with rfl | rfl | rfl
          · simp at hc
          · simp at hc; subst hc; rcases hcc with rfl | rfl <;> decide
          · simp at hc; subst hc; rcases hcc with rfl | rfl <;> decide
        · exact hdig c (hds.2 c hc)

section
variable {k : Brackets} {cc : UInt8} {G : Bytes → Prop} {L : Nat → Nat → Nat → Bytes → Res (Nat × Bytes)}

theorem LoopOver.neutral (H : LoopOver k cc G L) (p s cnt : Nat) (l cs : Bytes)
    (h : ∀ c ∈ l, Neutral c) (h' : ∀ c ∈ l, c ≠ cc) : L p s cnt (l ++ cs) = L p s cnt cs := by
  induction l with
  | nil => rfl
  | cons c l ih =>
    rw [List.cons_append, H.neutral1 p s cnt c _ (h c (by simp)) (h' c (by simp))]
    exact ih (fun d hd => h d (by simp [hd])) (fun d hd => h' d (by simp [hd]))

theorem LoopOver.wrap (H : LoopOver k cc G L) (hk : IsBr k) (l r : UInt8)
    (hlr : (l = chLBrack ∧ r = chRBrack) ∨ (l = chLBrace ∧ r = chRBrace))
    (p s cnt : Nat) (hp : 1 ≤ p) (hp2 : p + 1 < 4294967296) (hs : s + 1 < 4294967296)
    (mid : Bytes) (rest : Bytes)
    (hmid : ∀ p' s', p' ≤ p + 1 → s' ≤ s + 1 → 1 ≤ p' → ¬ (p' = 1 ∧ s' = 0) →
      L p' s' cnt (mid ++ (r :: rest)) = L p' s' cnt (r :: rest)) :
    L p s cnt (l :: (mid ++ (r :: rest))) = L p s cnt rest := by
  have prim : l = k.primLeft → r = k.primRight → L p s cnt (l :: (mid ++ (r :: rest))) = L p s cnt rest := by
    rintro rfl rfl
    rw [H.primL, inc32_eq hp2, hmid (p + 1) s (by omega) (by omega) (by omega) (by omega),
      H.primR, dec32_succ hp2, if_neg (by omega)]
  have sec : l = k.secLeft → r = k.secRight → L p s cnt (l :: (mid ++ (r :: rest))) = L p s cnt rest := by
    rintro rfl rfl
    rw [H.secL, inc32_eq hs, hmid p (s + 1) (by omega) (by omega) (by omega) (by omega), H.secR, dec32_succ hs]
  rcases hk with rfl | rfl <;> rcases hlr with ⟨rfl, rfl⟩ | ⟨rfl, rfl⟩
  · exact prim rfl rfl
  · exact sec rfl rfl
  · exact sec rfl rfl
  · exact prim rfl rfl

mutual
theorem LoopOver.val (H : LoopOver k cc G L) (hk : IsBr k) (hcc : CmtByte cc) (v : JVal) (hv : v.WFg G) (p s cnt : Nat) (rest : Bytes)
    (hp : 1 ≤ p) (hp2 : p + v.depth < 4294967296) (hs : s + v.depth < 4294967296) :
    L p s cnt (v.text ++ rest) = L p s cnt rest := by
  have lit : ∀ l : Bytes, (∀ c ∈ l, Neutral c) → chSlash ∉ l → chHash ∉ l → L p s cnt (l ++ rest) = L p s cnt rest := by
    intro l h1 h2 h3
    refine H.neutral p s cnt l rest h1 ?_
    rcases hcc with rfl | rfl
    · rintro c hc rfl; exact h2 hc
    · rintro c hc rfl; exact h3 hc
  match v with
  | .null => exact lit [0x6E, 0x75, 0x6C, 0x6C] (by simp [Neutral]) (by decide) (by decide)
  | .tru => exact lit [0x74, 0x72, 0x75, 0x65] (by simp [Neutral]) (by decide) (by decide)
  | .fls => exact lit [0x66, 0x61, 0x6C, 0x73, 0x65] (by simp [Neutral]) (by decide) (by decide)
  | .num t =>
    have ht : IsNumber t := by simpa [JVal.WFg] using hv
    exact H.neutral p s cnt t rest (number_neutral ht) (number_no_cmt hcc ht)
  | .str b =>
    have hb : IsStrBody b := by simpa [JVal.WFg] using hv
    simp only [JVal.text, List.cons_append, List.append_assoc, List.nil_append]
    exact H.string p s cnt b rest hb
  | .arr w .nil =>
    simp only [JVal.WFg] at hv
    simp only [JVal.depth, JElems.depth] at hp2 hs
    simp only [JVal.text, List.cons_append, List.append_assoc, List.nil_append]
    refine H.wrap hk _ _ (Or.inl ⟨rfl, rfl⟩) p s cnt hp (by omega) (by omega) w rest ?_
    intro p' s' _ _ _ _
    rw [H.gap _ _ _ _ _ hv.1]
  | .arr w (.cons pre x post tl) =>
    simp only [JVal.WFg, JElems.WFg] at hv
    simp only [JVal.depth, JElems.depth] at hp2 hs
    simp only [JVal.text, List.cons_append, List.append_assoc, List.nil_append]
    have := H.wrap hk 0x5B 0x5D (Or.inl ⟨rfl, rfl⟩) p s cnt hp (by omega) (by omega)
      (pre ++ (x.text ++ (post ++ (tl.text ++ w)))) rest ?_
    · simpa using this
    · intro p' s' h₁ h₂ h₃ h₄
      simp only [List.append_assoc]
      rw [H.gap _ _ _ _ _ hv.2.1, H.val hk hcc x hv.2.2.1 p' s' cnt _ h₃ (by omega) (by omega),
        H.gap _ _ _ _ _ hv.2.2.2.1, H.elems hk hcc tl hv.2.2.2.2 p' s' cnt _ h₃ (by omega) (by omega),
        H.gap _ _ _ _ _ hv.1]
      simp [h₄]
  | .obj w .nil =>
    simp only [JVal.WFg] at hv
    simp only [JVal.depth, JMems.depth] at hp2 hs
    simp only [JVal.text, List.cons_append, List.append_assoc, List.nil_append]
    refine H.wrap hk _ _ (Or.inr ⟨rfl, rfl⟩) p s cnt hp (by omega) (by omega) w rest ?_
    intro p' s' _ _ _ _
    rw [H.gap _ _ _ _ _ hv.1]
  | .obj w (.cons pre n pc qc x post tl) =>
    simp only [JVal.WFg, JMems.WFg] at hv
    obtain ⟨hw, hpre, hn, hpc, hqc, hx, hpost, htl⟩ := hv
    simp only [JVal.depth, JMems.depth] at hp2 hs
    simp only [JVal.text, List.cons_append, List.append_assoc, List.nil_append]
    have := H.wrap hk 0x7B 0x7D (Or.inr ⟨rfl, rfl⟩) p s cnt hp (by omega) (by omega)
      (pre ++ (0x22 :: (n ++ (0x22 :: (pc ++ (0x3A :: (qc ++ (x.text ++ (post ++ (tl.text ++ w)))))))))) rest ?_
    · simpa using this
    · intro p' s' h₁ h₂ h₃ h₄
      simp only [List.append_assoc, List.cons_append]
      rw [H.gap _ _ _ _ _ hpre, H.string _ _ _ _ _ hn, H.gap _ _ _ _ _ hpc,
        H.neutral1 p' s' cnt _ _ (by simp [Neutral]) (by rcases hcc with rfl | rfl <;> decide),
        H.gap _ _ _ _ _ hqc, H.val hk hcc x hx p' s' cnt _ h₃ (by omega) (by omega),
        H.gap _ _ _ _ _ hpost, H.mems hk hcc tl htl p' s' cnt _ h₃ (by omega) (by omega), H.gap _ _ _ _ _ hw]
      simp [h₄]
theorem LoopOver.elems (H : LoopOver k cc G L) (hk : IsBr k) (hcc : CmtByte cc) (es : JElems) (hv : es.WFg G) (p s cnt : Nat)
    (rest : Bytes) (hp : 1 ≤ p) (hp2 : p + es.depth < 4294967296) (hs : s + es.depth < 4294967296) :
    L p s cnt (es.text ++ rest) = L p s (cnt + if p = 1 ∧ s = 0 then es.length else 0) rest := by
  match es with
  | .nil => simp [JElems.text, JElems.length]
  | .cons pre x post tl =>
    simp only [JElems.WFg] at hv
    simp only [JElems.depth] at hp2 hs
    simp only [JElems.text, List.cons_append, List.append_assoc]
    rw [H.comma, H.gap _ _ _ _ _ hv.1, H.val hk hcc x hv.2.1 p s _ _ hp (by omega) (by omega),
      H.gap _ _ _ _ _ hv.2.2.1, H.elems hk hcc tl hv.2.2.2 p s _ _ hp (by omega) (by omega)]
    congr 1
    simp only [JElems.length]
    split <;> omega
theorem LoopOver.mems (H : LoopOver k cc G L) (hk : IsBr k) (hcc : CmtByte cc) (ms : JMems) (hv : ms.WFg G) (p s cnt : Nat)
    (rest : Bytes) (hp : 1 ≤ p) (hp2 : p + ms.depth < 4294967296) (hs : s + ms.depth < 4294967296) :
    L p s cnt (ms.text ++ rest) = L p s (cnt + if p = 1 ∧ s = 0 then ms.length else 0) rest := by
  match ms with
  | .nil => simp [JMems.text, JMems.length]
  | .cons pre n pc qc x post tl =>
    simp only [JMems.WFg] at hv
    obtain ⟨hpre, hn, hpc, hqc, hx, hpost, htl⟩ := hv
    simp only [JMems.depth] at hp2 hs
    simp only [JMems.text, List.cons_append, List.append_assoc]
    rw [H.comma, H.gap _ _ _ _ _ hpre, H.string _ _ _ _ _ hn, H.gap _ _ _ _ _ hpc,
      H.neutral1 p s _ _ _ (by simp [Neutral]) (by rcases hcc with rfl | rfl <;> decide),
      H.gap _ _ _ _ _ hqc, H.val hk hcc x hx p s _ _ hp (by omega) (by omega),
      H.gap _ _ _ _ _ hpost, H.mems hk hcc tl htl p s _ _ hp (by omega) (by omega)]
    congr 1
    simp only [JMems.length]
    split <;> omega
end

end

/-! ## The loops of the two policies -/

theorem brLoopCmt_step {pol : Cmt} {k : Brackets} (hk : IsBr k) (p s cnt : Nat) (cs : Bytes) :
    brLoopCmt pol k p s cnt (cmtChar pol :: cs) =
      (match brComment pol cs with | .ok r => brLoopCmt pol k p s cnt r | .err e => .err e | .ub => .ub) := by
  rw [brLoopCmt.eq_def]
  have : cmtChar pol ≠ chBslash ∧ cmtChar pol ≠ chQuote ∧ cmtChar pol ≠ chComma ∧ cmtChar pol ≠ chLBrack ∧
      cmtChar pol ≠ chRBrack ∧ cmtChar pol ≠ chLBrace ∧ cmtChar pol ≠ chRBrace := by cases pol <;> decide
  obtain ⟨h1, h2, h3, h4, h5, h6, h7⟩ := this
  rcases hk with rfl | rfl <;> simp only [h1, h2, h3, h4, h5, h6, h7, arrBr, objBr, if_false, if_true] <;>
    split <;> simp_all

theorem brLoopCmt_over {pol : Cmt} {k : Brackets} (hk : IsBr k) {G : Bytes → Prop}
    (hG : ∀ p s cnt g cs, G g → brLoopCmt pol k p s cnt (g ++ cs) = brLoopCmt pol k p s cnt cs) :
    LoopOver k (cmtChar pol) G (brLoopCmt pol k) where
  neutral1 p s cnt c cs h hc := by
    obtain ⟨h1, h2, h3, h4, h5, h6, h7⟩ := h
    rw [brLoopCmt]
    rcases hk with rfl | rfl <;> simp [h1, h2, h3, h4, h5, h6, h7, arrBr, objBr, hc]
  string p s cnt b cs hb := by
    rw [brLoopCmt]
    simp only [show (0x22 : UInt8) ≠ 0x5C by decide, if_false, if_true]
    split
    · rename_i h; rw [memSkipStr_body hb] at h; simp at h
    · rename_i h; rw [memSkipStr_body hb] at h; simp at h; rw [h.2]
  comma p s cnt cs := by
    rw [brLoopCmt]
    simp only [show (0x2C : UInt8) ≠ 0x5C by decide, show (0x2C : UInt8) ≠ 0x22 by decide, if_false, if_true]
    congr 1
    split <;> rfl
  primL p s cnt cs := by rw [brLoopCmt]; rcases hk with rfl | rfl <;> simp [arrBr, objBr]
  primR p s cnt cs := by rw [brLoopCmt]; rcases hk with rfl | rfl <;> simp [arrBr, objBr]
  secL p s cnt cs := by rw [brLoopCmt]; rcases hk with rfl | rfl <;> simp [arrBr, objBr]
  secR p s cnt cs := by rw [brLoopCmt]; rcases hk with rfl | rfl <;> simp [arrBr, objBr]
  gap := hG

theorem brLoopCmt_wsByte {pol : Cmt} {k : Brackets} (hk : IsBr k) (p s cnt : Nat) {c : UInt8} (hc : isWsByte c) (cs : Bytes) :
    brLoopCmt pol k p s cnt (c :: cs) = brLoopCmt pol k p s cnt cs := by
  refine (brLoopCmt_over hk (G := fun g => g = []) (pol := pol) ?_).neutral1 p s cnt c cs ?_ ?_
  · rintro _ _ _ _ _ rfl; rfl
  · rcases hc with rfl | rfl | rfl | rfl <;> simp [Neutral]
  · rcases hc with rfl | rfl | rfl | rfl <;> cases pol <;> decide

theorem brLoopHash_gap {k : Brackets} (hk : IsBr k) (p s cnt : Nat) (g cs : Bytes) (hg : HashGap g) :
    brLoopCmt .hash k p s cnt (g ++ cs) = brLoopCmt .hash k p s cnt cs := by
  induction hg with
  | nil => rfl
  | ws hc _ ih => rw [List.cons_append, brLoopCmt_wsByte hk _ _ _ hc, ih]
  | @comment t g ht _ ih =>
    have := brLoopCmt_step (pol := .hash) hk p s cnt (t ++ chNl :: (g ++ cs))
    simp only [brComment, moveTo_found ht] at this
    simp only [List.cons_append, List.append_assoc]
    rw [show (0x23 : UInt8) = cmtChar .hash from rfl, this, brLoopCmt_wsByte hk _ _ _ (by simp [isWsByte]), ih]

theorem lineStop_found {t : Bytes} (h : chNl ∉ t) (g : Bytes) : lineStop (t ++ chNl :: g) = chNl :: g := by
  induction t with
  | nil => cases g <;> simp [lineStop]
  | cons d t ih =>
    have hd : d ≠ chNl := by rintro rfl; simp at h
    have ht : chNl ∉ t := fun hm => h (List.mem_cons_of_mem _ hm)
    cases t with
    | nil => simp only [List.cons_append, List.nil_append]; rw [lineStop, if_neg hd]; exact ih ht
    | cons e t => simp only [List.cons_append]; rw [lineStop, if_neg hd]; exact ih ht

theorem blockStop_found {t : Bytes} (h1 : chStar ∉ t) (h2 : chSlash ∉ t) (a b : UInt8) (g : Bytes) :
    blockStop (t ++ chStar :: chSlash :: a :: b :: g) = chStar :: chSlash :: a :: b :: g := by
  induction t with
  | nil => rw [List.nil_append, blockStop]; simp
  | cons d t ih =>
    have hd : d ≠ chStar := by rintro rfl; simp at h1
    have ht1 : chStar ∉ t := fun hm => h1 (List.mem_cons_of_mem _ hm)
    have ht2 : chSlash ∉ t := fun hm => h2 (List.mem_cons_of_mem _ hm)
    match t with
    | [] =>
      simp only [List.cons_append, List.nil_append]
      rw [blockStop, if_pos ⟨hd, by decide⟩]
      exact ih ht1 ht2
    | [e] =>
      have he : e ≠ chSlash := by rintro rfl; simp at ht2
      simp only [List.cons_append, List.nil_append]
      rw [blockStop, if_pos ⟨hd, he⟩]
      exact ih ht1 ht2
    | e :: f :: t =>
      have he : e ≠ chSlash := by rintro rfl; simp at ht2
      simp only [List.cons_append]
      rw [blockStop, if_pos ⟨hd, he⟩]
      exact ih ht1 ht2

theorem brLoopCpp_gap {k : Brackets} (hk : IsBr k) (p s cnt : Nat) (g cs : Bytes) (hg : CppGapOf SimpleBlock g) :
    brLoopCmt .cpp k p s cnt (g ++ cs) = brLoopCmt .cpp k p s cnt cs := by
  induction hg with
  | nil => rfl
  | ws hc _ ih => rw [List.cons_append, brLoopCmt_wsByte hk _ _ _ hc, ih]
  | @line t g ht _ ih =>
    have := brLoopCmt_step (pol := .cpp) hk p s cnt (chSlash :: (t ++ chNl :: (g ++ cs)))
    simp only [brComment, lineStop_found ht, if_true] at this
    simp only [List.cons_append, List.append_assoc]
    refine this.trans ?_
    simpa using ih
  | @block t g _ hb _ ih =>
    obtain ⟨h1, h2, a, b, g', rfl, ha, hb⟩ := hb
    have s1 := brLoopCmt_step (pol := .cpp) hk p s cnt (chStar :: (t ++ chStar :: chSlash :: a :: b :: (g' ++ cs)))
    simp only [brComment, blockStop_found h1 h2, if_true, show (chStar = chSlash) = False by decide, if_false] at s1
    have s2 := brLoopCmt_step (pol := .cpp) hk p s cnt (a :: b :: (g' ++ cs))
    have ha1 : a ≠ chSlash := by rcases ha with rfl | rfl | rfl | rfl <;> decide
    have ha2 : a ≠ chStar := by rcases ha with rfl | rfl | rfl | rfl <;> decide
    simp only [brComment, ha1, ha2, if_false] at s2
    simp only [List.cons_append, List.append_assoc] at ih ⊢
    rw [brLoopCmt_wsByte hk _ _ _ ha, brLoopCmt_wsByte hk _ _ _ hb] at ih
    refine s1.trans ?_
    refine Eq.trans ?_ ih
    simpa [cmtChar] using s2

/-! ## Values -/

theorem skipBracketedCmt_of_loop {pol : Cmt} {k : Brackets} (body c : Bytes) (n : Nat)
    (h : brLoopCmt pol k 1 0 0 (body ++ c) = .ok (n, c)) :
    skipBracketedCmt pol k (k.primLeft :: (body ++ c)) = .ok ({ text := k.primLeft :: body, counter := n }, c) := by
  have hlen : (k.primLeft :: (body ++ c)).take ((k.primLeft :: (body ++ c)).length - c.length) = k.primLeft :: body := by
    have : (k.primLeft :: (body ++ c)).length - c.length = (k.primLeft :: body).length := by simp; omega
    rw [this, show k.primLeft :: (body ++ c) = (k.primLeft :: body) ++ c by rfl, List.take_left]
  simp only [skipBracketedCmt, if_true, h, Res.ok_bind, hlen]

/-- A whole container, for any way of passing over gaps. -/
theorem loop_arr {cc : UInt8} {G : Bytes → Prop} {L : Nat → Nat → Nat → Bytes → Res (Nat × Bytes)} (H : LoopOver arrBr cc G L)
    (hcc : CmtByte cc) (w : Bytes) (es : JElems) (hv : (JVal.arr w es).WFg G) (hd : (JVal.arr w es).depth < 4294967296) (c : Bytes) :
    ∃ body, (JVal.arr w es).text = chLBrack :: body ∧ L 1 0 0 (body ++ c) = .ok (extraElems (.arr w es), c) := by
  have hR : ∀ n cs, L 1 0 n (chRBrack :: cs) = .ok (n, cs) := by
    intro n cs
    have := H.primR 1 0 n cs
    simpa [arrBr, dec32] using this
  have hk : IsBr arrBr := Or.inl rfl
  cases es with
  | nil =>
    refine ⟨w ++ [chRBrack], rfl, ?_⟩
    simp only [JVal.WFg] at hv
    rw [List.append_assoc, H.gap _ _ _ _ _ hv.1, List.cons_append, List.nil_append, hR]
    rfl
  | cons pre x post tl =>
    simp only [JVal.WFg, JElems.WFg] at hv
    simp only [JVal.depth, JElems.depth] at hd
    refine ⟨pre ++ (x.text ++ (post ++ (tl.text ++ (w ++ [chRBrack])))), by simp [JVal.text], ?_⟩
    simp only [List.append_assoc, List.cons_append, List.nil_append]
    rw [H.gap _ _ _ _ _ hv.2.1, H.val hk hcc x hv.2.2.1 1 0 0 _ (by omega) (by omega) (by omega),
      H.gap _ _ _ _ _ hv.2.2.2.1, H.elems hk hcc tl hv.2.2.2.2 1 0 0 _ (by omega) (by omega) (by omega),
      H.gap _ _ _ _ _ hv.1, hR]
    simp [extraElems]

/-- The same for objects. -/
theorem loop_obj {cc : UInt8} {G : Bytes → Prop} {L : Nat → Nat → Nat → Bytes → Res (Nat × Bytes)} (H : LoopOver objBr cc G L)
    (hcc : CmtByte cc) (w : Bytes) (ms : JMems) (hv : (JVal.obj w ms).WFg G) (hd : (JVal.obj w ms).depth < 4294967296) (c : Bytes) :
    ∃ body, (JVal.obj w ms).text = chLBrace :: body ∧ L 1 0 0 (body ++ c) = .ok (extraElems (.obj w ms), c) := by
  have hR : ∀ n cs, L 1 0 n (chRBrace :: cs) = .ok (n, cs) := by
    intro n cs
    have := H.primR 1 0 n cs
    simpa [objBr, dec32] using this
  have hk : IsBr objBr := Or.inr rfl
  cases ms with
  | nil =>
    refine ⟨w ++ [chRBrace], rfl, ?_⟩
    simp only [JVal.WFg] at hv
    rw [List.append_assoc, H.gap _ _ _ _ _ hv.1, List.cons_append, List.nil_append, hR]
    rfl
  | cons pre n pc qc x post tl =>
    simp only [JVal.WFg, JMems.WFg] at hv
    obtain ⟨hw, hpre, hn, hpc, hqc, hx, hpost, htl⟩ := hv
    simp only [JVal.depth, JMems.depth] at hd
    refine ⟨pre ++ (0x22 :: (n ++ (0x22 :: (pc ++ (0x3A :: (qc ++ (x.text ++ (post ++ (tl.text ++ (w ++ [chRBrace])))))))))),
      by simp [JVal.text], ?_⟩
    simp only [List.append_assoc, List.cons_append, List.nil_append]
    rw [H.gap _ _ _ _ _ hpre, H.string _ _ _ _ _ hn, H.gap _ _ _ _ _ hpc,
      H.neutral1 1 0 _ _ _ (by simp [Neutral]) (by rcases hcc with rfl | rfl <;> decide),
      H.gap _ _ _ _ _ hqc, H.val hk hcc x hx 1 0 0 _ (by omega) (by omega) (by omega),
      H.gap _ _ _ _ _ hpost, H.mems hk hcc tl htl 1 0 0 _ (by omega) (by omega) (by omega), H.gap _ _ _ _ _ hw, hR]
    simp [extraElems]

theorem cmtChar_byte (pol : Cmt) : CmtByte (cmtChar pol) := by cases pol <;> simp [CmtByte, cmtChar]

/-- A whole value with comments in it and after it. -/
theorem skipValueCmt_exact {pol : Cmt} {G G' : Bytes → Prop} (excl kq : Bool)
    (hloop : ∀ k, IsBr k → ∀ p s cnt g cs, G g → brLoopCmt pol k p s cnt (g ++ cs) = brLoopCmt pol k p s cnt cs)
    (htrim : ∀ g rest, G' g → trimCmt pol (g ++ rest) = trimCmt pol rest)
    (hhead : ∀ g x g', G' g → g = x :: g' → isWsByte x ∨ x = cmtChar pol)
    (v : JVal) (hv : v.WFg G) (hd : v.depth < 4294967296) (g t : Bytes) (hg : G' g) (ht : EndToken t)
    (hn : v = .null → g ++ t ≠ []) :
    ∃ r, skipValueCmt pol excl kq (v.text ++ (g ++ t)) = .ok (r, if v.isLiteral then t else g ++ t) ∧
      r.text = rangeText kq v ∧ (r.null = true ↔ v = .null) ∧
      ((∃ w es, v = .arr w es) ∨ (∃ w ms, v = .obj w ms) → r.counter = extraElems v) := by
  have hT : trimCmt pol (g ++ t) = .ok t := by
    rw [htrim g t hg]
    rcases ht with rfl | ⟨x, t', rfl, hx⟩
    · exact trimCmt_nil pol
    · refine trimCmt_stop ?_ ?_ t'
      · rcases hx with rfl | rfl | rfl <;> decide
      · rcases hx with rfl | rfl | rfl <;> cases pol <;> decide
  have hE : ∀ e, endOfLiteralCmt pol e (g ++ t) = .ok t := by
    intro e
    unfold endOfLiteralCmt
    rw [hT]
    rcases ht with rfl | ⟨x, t', rfl, hx⟩
    · rfl
    · rcases hx with rfl | rfl | rfl <;> rfl
  have hhd : ∀ x, (g ++ t).head? = some x → isWsByte x ∨ x = cmtChar pol ∨ x = 0x2C ∨ x = 0x5D ∨ x = 0x7D := by
    intro x hx
    cases g with
    | nil =>
      rcases ht with rfl | ⟨y, t', rfl, hy⟩
      · simp at hx
      · simp at hx; subst hx; exact Or.inr (Or.inr hy)
    | cons y g' =>
      simp at hx; subst hx
      rcases hhead _ _ _ hg rfl with h | h
      · exact Or.inl h
      · exact Or.inr (Or.inl h)
  match v with
  | .null =>
    refine ⟨{ text := [], null := true }, ?_, rfl, by simp, by simp⟩
    have h0 : (!(g ++ t).isEmpty) = true := by
      have := hn rfl
      cases hh : g ++ t with
      | nil => exact absurd hh this
      | cons => rfl
    have hE' := hE .unexpectedEndOfData
    generalize g ++ t = c at h0 hE'
    simp [skipValueCmt, JVal.text, eatLiteral, List.isPrefixOf, h0, hE', JVal.isLiteral]
  | .tru =>
    refine ⟨{ text := [0x74, 0x72, 0x75, 0x65], counter := 1 }, ?_, rfl, by simp, by simp⟩
    simp [skipValueCmt, JVal.text, eatLiteral, List.isPrefixOf, hE, JVal.isLiteral]
  | .fls =>
    refine ⟨{ text := [0x66, 0x61, 0x6C, 0x73, 0x65], counter := 0 }, ?_, rfl, by simp, by simp⟩
    simp [skipValueCmt, JVal.text, eatLiteral, List.isPrefixOf, hE, JVal.isLiteral]
  | .num n =>
    have hnum : IsNumber n := by simpa [JVal.WFg] using hv
    have hne : NumEnd (g ++ t) := by
      intro x hx
      rcases hhd x hx with (rfl | rfl | rfl | rfl) | h | rfl | rfl | rfl
      all_goals first
        | (subst h; cases pol <;> simp [IsDig, cmtChar, UInt8.le_iff_toNat_le])
        | simp [IsDig, UInt8.le_iff_toNat_le]
    obtain ⟨r, h1, h2, h3, _⟩ := skipValue_before { checked := true, exclSpecial := excl } kq (tc := false) (.num n) hnum hd (g ++ t)
      (fun h => by simp [JVal.isLiteral] at h) (fun _ _ => hne) (fun h => by simp at h) (fun h => by simp [JVal.isLiteral] at h)
      (fun h => by simp at h)
    refine ⟨r, ?_, h2, h3, by simp⟩
    refine Eq.trans ?_ h1
    obtain ⟨x, n', rfl, hx⟩ : ∃ x n', n = x :: n' ∧ (x = chMinus ∨ IsDig x) := by
      obtain ⟨m, i, f, e, hm, hi, _, _, rfl⟩ := hnum
      obtain ⟨y, i', rfl, hy⟩ := isDigits_head (isInt_digits hi)
      rcases hm with rfl | rfl
      · exact ⟨y, _, rfl, Or.inr hy⟩
      · exact ⟨_, _, rfl, Or.inl rfl⟩
    rw [← isDigit_iff] at hx
    have hne : x ≠ chQuote ∧ x ≠ chLBrack ∧ x ≠ chLBrace ∧ x ≠ chT ∧ x ≠ chF ∧ x ≠ chN := by
      rcases hx with rfl | hx
      · decide
      · refine ⟨?_, ?_, ?_, ?_, ?_, ?_⟩ <;> rintro rfl <;> revert hx <;> decide
    simp [skipValueCmt, skipValue, JVal.text, hne, hx]
  | .str b =>
    have hb : IsStrBody b := by simpa [JVal.WFg] using hv
    obtain ⟨r, h1, h2, h3, _⟩ := skipValue_before { checked := true, exclSpecial := excl } kq (tc := false) (.str b) hb hd (g ++ t)
      (fun h => by simp [JVal.isLiteral] at h) (fun _ h => by simp at h) (fun h => by simp at h)
      (fun h => by simp [JVal.isLiteral] at h) (fun h => by simp at h)
    refine ⟨r, ?_, h2, h3, by simp⟩
    refine Eq.trans ?_ h1
    simp [skipValueCmt, skipValue, JVal.text]
  | .arr w es =>
    obtain ⟨body, hb, hl⟩ := loop_arr (brLoopCmt_over (Or.inl rfl) (hloop arrBr (Or.inl rfl))) (cmtChar_byte pol) w es hv hd (g ++ t)
    have := skipBracketedCmt_of_loop body (g ++ t) _ hl
    refine ⟨{ text := chLBrack :: body, counter := extraElems (.arr w es) }, ?_, ?_, by simp, fun _ => rfl⟩
    · rw [hb]
      simpa [skipValueCmt, JVal.isLiteral, arrBr] using this
    · simp [rangeText, hb]
  | .obj w ms =>
    obtain ⟨body, hb, hl⟩ := loop_obj (brLoopCmt_over (Or.inr rfl) (hloop objBr (Or.inr rfl))) (cmtChar_byte pol) w ms hv hd (g ++ t)
    have := skipBracketedCmt_of_loop body (g ++ t) _ hl
    refine ⟨{ text := chLBrace :: body, counter := extraElems (.obj w ms) }, ?_, ?_, by simp, fun _ => rfl⟩
    · rw [hb]
      simpa [skipValueCmt, JVal.isLiteral, objBr] using this
    · simp [rangeText, hb]

end Verif
