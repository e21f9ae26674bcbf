import Verif.Proof.CommentTypedClass
import Verif.Proof.TypedMain

/-!
# Typed parsing with comments: tuples, ordered classes and scalars
-/

namespace Verif

open Spec

variable {p : Cmt} {G L : Bytes → Prop}

/-! ## Tuples -/

/-- The components are read as the values; `rest` are the elements left. -/
def TupSemC (p : Cmt) (G : Bytes → Prop) (pU : Ty → Bytes → Res (Val × Bytes)) (rest : JElems) : List Ty → JElems → List Val → Prop
  | [], es, [] => es = rest
  | ty :: ts, .cons _ d _ tl, v :: vs => SemUC p G (pU ty) d v ∧ TupSemC p G pU rest ts tl vs
  | _, _, _ => False

theorem arrRest_emptyC {cc : UInt8} (k : Bytes) {es : JElems} (h : es.WFc cc G L) : (arrRest [] k es).isEmpty = false := by
  have := arrRest_neC (G := G) (L := L) [] k h
  revert this
  cases arrRest [] k es <;> simp

theorem tupMembersC_sem (P : Pol p G L) {pU : Ty → Bytes → Res (Val × Bytes)} {k : Bytes} {rest : JElems} :
    ∀ (ts : List Ty) (es : JElems) (vs : List Val), es.WFc (cmtChar p) G L → TupSemC p G pU rest ts es vs →
      tupMembersC p pU ts (arrRest [] k es) = .ok (vs, arrRest [] k rest)
  | [], _, [], _, h => by cases h; rfl
  | ty :: ts, .cons pre d post tl, v :: vs, hwf, hs => by
    have hwf' := hwf
    simp only [JElems.WFc] at hwf
    obtain ⟨-, hd, hpost, htl⟩ := hwf
    simp only [TupSemC] at hs
    obtain ⟨hs1, hs2⟩ := hs
    obtain ⟨r, hr, htr⟩ := hs1.arr hpost tl k
    have hmv : moveNextCmt p r = .ok (arrRest [] k tl) := by
      rw [P.moveNext_rest hpost.1 (endToken_arr tl k) htr, P.afterToken_arr htl]
    have hr' : pU ty (arrRest [] k (.cons pre d post tl)) = .ok (v, r) := hr
    have ih := tupMembersC_sem P (k := k) ts tl vs htl hs2
    unfold tupMembersC
    simp only [arrRest_emptyC k hwf', Bool.not_false, ensure_true, Res.ok_bind, hr', hmv, ih]
  | [], _, _ :: _, _, h => by simp [TupSemC] at h
  | _ :: _, .nil, _, _, h => by simp [TupSemC] at h
  | _ :: _, .cons .., [], _, h => by simp [TupSemC] at h

theorem TupSemC.wf {cc : UInt8} {pU : Ty → Bytes → Res (Val × Bytes)} {rest : JElems} :
    ∀ {ts : List Ty} {es : JElems} {vs : List Val}, TupSemC p G pU rest ts es vs → es.WFc cc G L → es.depth < 4294967295 →
      rest.WFc cc G L ∧ rest.depth < 4294967295
  | [], _, [], h, hwf, hd => by cases h; exact ⟨hwf, hd⟩
  | _ :: _, .cons pre d post tl, _ :: _, h, hwf, hd => by
    simp only [JElems.WFc] at hwf
    simp only [JElems.depth] at hd
    simp only [TupSemC] at h
    exact TupSemC.wf h.2 hwf.2.2.2 (by omega)
  | [], _, _ :: _, h, _, _ => by simp [TupSemC] at h
  | _ :: _, .nil, _, h, _, _ => by simp [TupSemC] at h
  | _ :: _, .cons .., [], h, _, _ => by simp [TupSemC] at h

theorem moveNextCmt_arrRest {cc : UInt8} (k : Bytes) (es : JElems) (hwf : es.WFc cc G L) :
    trimCmt p (arrRest [] k es) = .ok (arrRest [] k es) ∧ moveNextCmt p (arrRest [] k es) = .ok (arrRest [] k es) := by
  match es with
  | .nil =>
    have ht : trimCmt p (arrRest [] k .nil) = .ok (arrRest [] k .nil) := trimCmt_punct p (by simp) _
    refine ⟨ht, ?_⟩
    unfold moveNextCmt
    rw [ht]
    rfl
  | .cons pre d post tl =>
    simp only [JElems.WFc] at hwf
    have ht : trimCmt p (arrRest [] k (.cons pre d post tl)) = .ok (arrRest [] k (.cons pre d post tl)) := trimCmt_text hwf.2.1 _
    refine ⟨ht, ?_⟩
    unfold moveNextCmt
    rw [ht]
    obtain ⟨c, cs, hc, -, hc2, -⟩ := text_headC d hwf.2.1
    have hcm : c ≠ chComma := by rintro rfl; simp [isTokenAfterValue] at hc2
    simp only [Res.ok_bind, arrRest, hc, List.cons_append]
    rw [if_neg hcm]

/-- An array from its opening bracket on. -/
theorem arr_openC (P : Pol p G L) {cc : UInt8} {w k : Bytes} {es : JElems} (hwf : (JVal.arr w es).WFc cc G L) :
    ∃ b, (JVal.arr w es).text ++ k = chLBrack :: b ∧ trimCmt p b = .ok (arrRest [] k es) ∧
      moveNextCmt p b = .ok (arrRest [] k es) ∧ es.WFc cc G L := by
  have key : ∀ (g : Bytes) (es : JElems), G g → es.WFc cc G L → trimCmt p (g ++ arrRest [] k es) = .ok (arrRest [] k es) ∧
      moveNextCmt p (g ++ arrRest [] k es) = .ok (arrRest [] k es) := by
    intro g es hg hes
    obtain ⟨h1, h2⟩ := moveNextCmt_arrRest (p := p) k es hes
    have h3 := (P.trim (arrRest [] k es) hg).trans h1
    refine ⟨h3, ?_⟩
    rw [← h2]
    unfold moveNextCmt
    rw [h1, h3]
  match es with
  | .nil =>
    simp only [JVal.WFc] at hwf
    obtain ⟨h1, h2⟩ := key w .nil (P.lead hwf) (by simp [JElems.WFc])
    exact ⟨w ++ chRBrack :: k, by simp [JVal.text], h1, h2, by simp [JElems.WFc]⟩
  | .cons pre d post tl =>
    simp only [JVal.WFc] at hwf
    obtain ⟨rfl, hpre, hr⟩ := hwf
    have hes : (JElems.cons pre d post tl).WFc cc G L := by
      simp only [JElems.WFc]
      exact ⟨P.lead hpre, hr⟩
    obtain ⟨h1, h2⟩ := key pre _ (P.lead hpre) hes
    exact ⟨_, arr_text .., h1, h2, hes⟩

theorem brLoopC_elems (P : Pol p G L) {cc : UInt8} {g : Bytes} (hg : G g) (tl : JElems) (htl : tl.WFc cc G L) (hd : tl.depth < 4294967295)
    (k : Bytes) : brLoopCmt p arrBr 1 0 0 (g ++ (tl.text ++ chRBrack :: k)) = .ok (tl.length, k) := by
  have hk : IsBr arrBr := Or.inl rfl
  have H := P.over hk
  have hend := H.primR 1 0 tl.length k
  rw [H.gap _ _ _ _ _ hg, H.elems hk (cmtChar_byte p) tl (wfc_wfgE P tl htl) 1 0 0 _ (by omega) (by omega) (by omega)]
  simpa [arrBr, dec32] using hend

/-- The rest of an array, from an element on that is not an array, is passed over. -/
theorem skipBracketedC_arrRest (P : Pol p G L) {cc : UInt8} (k : Bytes) (es : JElems) (hes : es.WFc cc G L)
    (hd : es.depth < 4294967295) (hna : ∀ pre w es' post tl, es ≠ .cons pre (.arr w es') post tl) :
    ∃ r, skipBracketedCmt p arrBr (arrRest [] k es) = .ok (r, k) := by
  match es with
  | .nil => exact skipBracketedC_rest (by decide) (brLoopC_elems P P.nil .nil hes hd k)
  | .cons pre d post tl =>
    simp only [JElems.WFc] at hes
    simp only [JElems.depth] at hd
    have hl : brLoopCmt p arrBr 1 0 0 (arrRest [] k (.cons pre d post tl)) = .ok (tl.length, k) := by
      simp only [arrRest, arrAfter_eq]
      rw [(P.over (Or.inl rfl)).val (Or.inl rfl) (cmtChar_byte p) d (wfc_wfg P d hes.2.1) 1 0 0 _ (by omega) (by omega) (by omega)]
      exact brLoopC_elems P hes.2.2.1.1 tl hes.2.2.2 (by omega) k
    have hh : ∃ c cs, arrRest [] k (.cons pre d post tl) = c :: cs ∧ c ≠ chLBrack := by
      cases d with
      | arr w' es' => exact absurd rfl (hna _ _ _ _ _)
      | num x =>
        have hn : IsNumber x := by simpa [JVal.WFc] using hes.2.1
        obtain ⟨c, cs, hc, -⟩ := text_headC (.num x) hes.2.1
        refine ⟨c, _, by rw [arrRest, hc]; rfl, ?_⟩
        rintro rfl
        simp only [JVal.text] at hc
        have := number_neutral hn chLBrack (by simp [hc])
        revert this
        unfold Neutral
        decide
      | obj w' ms' => cases ms' <;> exact ⟨_, _, rfl, by decide⟩
      | _ => exact ⟨_, _, rfl, by decide⟩
    obtain ⟨c, cs, hc, hcn⟩ := hh
    rw [hc] at hl ⊢
    exact skipBracketedC_rest hcn hl

/-- Tuples. -/
theorem parseTupC_sem (P : Pol p G L) {cfg : Cfg} {exact : Bool} {pU : Ty → Bytes → Res (Val × Bytes)}
    {ts : List Ty} {w : Bytes} {es rest : JElems} {vs : List Val} (hwf : (JVal.arr w es).WFc (cmtChar p) G L)
    (hd : es.depth < 4294967295) (hs : TupSemC p G pU rest ts es vs) (hre : TupRest exact rest) :
    SemUC p G (parseTupC p cfg exact ts pU) (.arr w es) (.cls vs) := by
  intro g t hg ht _
  obtain ⟨b, h1, -, h2, hes⟩ := arr_openC P (k := g ++ t) hwf
  have h3 := (moveNextCmt_arrRest (p := p) (g ++ t) es hes).1
  have hm := tupMembersC_sem P (k := g ++ t) ts es vs hes hs
  obtain ⟨hr1, hr2⟩ := hs.wf hes hd
  have htr : trimCmt p (chLBrack :: b) = .ok (chLBrack :: b) := trimCmt_punct p (by simp) _
  unfold parseTupC
  rw [h1]
  simp only [htr, Res.ok_bind, headIs, beq_self_eq_true, ensure_true, List.tail_cons, h2, h3, hm, endTupC]
  cases exact with
  | true =>
    obtain rfl := hre.1 rfl
    have : trimCmt p (chRBrack :: (g ++ t)) = .ok (chRBrack :: (g ++ t)) := trimCmt_punct p (by simp) _
    simp only [if_true, arrRest, this, derefEnd_cons, Res.ok_bind, beq_self_eq_true, ensure_true,
      List.tail_cons, P.trim_rest hg.1 ht (Or.inl rfl)]
    exact ⟨_, rfl, Or.inr rfl⟩
  | false =>
    obtain ⟨r, hr⟩ := skipBracketedC_arrRest P (g ++ t) rest hr1 hr2 hre.2
    simp only [Bool.false_eq_true, if_false, hr, Res.ok_bind]
    exact ⟨_, rfl, Or.inl rfl⟩

/-! ## Ordered classes -/

/-- The members are read as the values from the elements left, the first of which has index `idx`. -/
inductive OrdSemC (p : Cmt) (G : Bytes → Prop) (pU : Ty → Bytes → Res (Val × Bytes)) (exact : Bool) :
    Nat → List (Option Nat × Ty) → JElems → List Val → Prop
  | nil {idx es} : (exact = true → es = .nil) → OrdSemC p G pU exact idx [] es []
  | skip {idx want ty ms pre d post tl vs} : idx < want →
      OrdSemC p G pU exact (idx + 1) ((some want, ty) :: ms) tl vs →
      OrdSemC p G pU exact idx ((some want, ty) :: ms) (.cons pre d post tl) vs
  | read {idx want ty ms pre d post tl v vs} : (want = none ∨ want = some idx) → SemUC p G (pU ty) d v →
      OrdSemC p G pU exact (idx + 1) ms tl vs → OrdSemC p G pU exact idx ((want, ty) :: ms) (.cons pre d post tl) (v :: vs)
  | gone {idx want ty ms vs} : (∀ w, want = some w → idx ≤ w) → ty.isOpt = true →
      OrdSemC p G pU exact ((want.getD idx) + 1) ms .nil vs →
      OrdSemC p G pU exact idx ((want, ty) :: ms) .nil (.none :: vs)

theorem skipMembersC_nil (cfg : Cfg) (n : Nat) (k : Bytes) :
    skipMembersC p cfg n (chRBrack :: k) = .ok (n, chRBrack :: k) := by
  cases n <;> simp [skipMembersC]

theorem maybeSkipC_nil (cfg : Cfg) {cur want : Nat} (h : cur ≤ want)
    (k : Bytes) : maybeSkipC p cfg cur want (chRBrack :: k) = .ok (cur, chRBrack :: k) := by
  unfold maybeSkipC
  simp only [h, decide_true, ensure_true, Res.ok_bind, skipMembersC_nil]
  congr 2
  rw [Nat.max_eq_left h]
  omega

theorem moveNextCmt_close (k : Bytes) : moveNextCmt p (chRBrack :: k) = .ok (chRBrack :: k) := by
  unfold moveNextCmt
  rw [trimCmt_punct p (by simp)]
  rfl

/-- No more elements: the remaining members are empty. -/
theorem ordMembersC_gone {cfg : Cfg} {pU : Ty → Bytes → Res (Val × Bytes)} {exact : Bool}
    {idx : Nat} {ms : List (Option Nat × Ty)} {es : JElems} {vs : List Val} (h : OrdSemC p G pU exact idx ms es vs)
    (hes : es = .nil) (cur : Nat) (hcur : cur ≤ idx) (b k : Bytes) (hb : moveNextCmt p b = .ok (chRBrack :: k)) :
    ∃ b', ordMembersC p cfg pU cur ms b = .ok (vs, b') ∧ (ms = [] ∧ b' = b ∨ b' = chRBrack :: k) := by
  induction h generalizing cur b with
  | nil => exact ⟨b, rfl, Or.inl ⟨rfl, rfl⟩⟩
  | skip => simp at hes
  | read => simp at hes
  | @gone idx want ty ms vs h1 h2 h3 ih =>
    have key : ∀ cur', cur' ≤ want.getD idx → ∃ b', ordMembersC p cfg pU (cur' + 1) ms (chRBrack :: k) = .ok (vs, b') ∧
        b' = chRBrack :: k := by
      intro cur' hc
      obtain ⟨b', hb', h'⟩ := ih rfl (cur' + 1) (by omega) (chRBrack :: k) (moveNextCmt_close k)
      exact ⟨b', hb', by rcases h' with ⟨-, h⟩ | h <;> exact h⟩
    unfold ordMembersC
    cases want with
    | none =>
      obtain ⟨b', hb', rfl⟩ := key cur hcur
      simp only [hb, Res.ok_bind, List.isEmpty_cons, Bool.not_false,
        ensure_true, derefEnd_cons, if_true, h2, hb']
      exact ⟨_, rfl, Or.inr rfl⟩
    | some wn =>
      have hle : cur ≤ wn := by have := h1 wn rfl; omega
      obtain ⟨b', hb', rfl⟩ := key cur (by simpa using hle)
      simp only [hb, Res.ok_bind, maybeSkipC_nil cfg hle, derefEnd_cons, if_true, h2, hb']
      exact ⟨_, rfl, Or.inr rfl⟩

theorem skipMembersC_step (P : Pol p G L) {cfg : Cfg} (n : Nat) {k : Bytes} {pre : Bytes} {d : JVal} {post : Bytes} {tl : JElems}
    (hwf : (JElems.cons pre d post tl).WFc (cmtChar p) G L) (hdep : d.depth < 4294967296) :
    skipMembersC p cfg (n + 1) (arrRest [] k (.cons pre d post tl))
      = skipMembersC p cfg n (arrRest [] k tl) := by
  have hwf' := hwf
  simp only [JElems.WFc] at hwf
  obtain ⟨-, hd, hpost, htl⟩ := hwf
  obtain ⟨r, h1, -⟩ := skipValueCmt_exact (G := G) (G' := G) cfg.exclSpecial false P.loop (fun g rest h => P.trim rest h)
    (fun g x g' h e => P.head (e ▸ h)) d (wfc_wfg P d hd) hdep post (tl.text ++ chRBrack :: k) hpost.1 (endToken_arr tl k) (fun _ => by simp)
  obtain ⟨c, cs, hc, hcn⟩ := arrRest_cons_headC (G := G) (L := L) (w := []) (k := k) (pre := pre) (post := post) (tl := tl) hd
  have hde : derefEnd cfg (arrRest [] k (.cons pre d post tl)) = .ok c := by rw [hc]; rfl
  rw [← arrAfter_eq] at h1
  have hmv : moveNextCmt p (if d.isLiteral then tl.text ++ chRBrack :: k else arrAfter post tl [] k) = .ok (arrRest [] k tl) := by
    rw [P.moveNext_rest hpost.1 (endToken_arr tl k), P.afterToken_arr htl]
    rw [arrAfter_eq]
    split <;> simp
  rw [skipMembersC]
  have h1' : skipValueCmt p cfg.exclSpecial false (arrRest [] k (.cons pre d post tl)) = _ := h1
  simp only [hde, if_neg hcn, Res.ok_bind, h1', hmv, arrRest_emptyC k htl, Bool.not_false, ensure_true]

theorem maybeSkipC_step (P : Pol p G L) {cfg : Cfg} {cur want : Nat} (h : cur < want)
    {k : Bytes} {pre : Bytes} {d : JVal} {post : Bytes} {tl : JElems}
    (hwf : (JElems.cons pre d post tl).WFc (cmtChar p) G L) (hdep : d.depth < 4294967296) :
    maybeSkipC p cfg cur want (arrRest [] k (.cons pre d post tl))
      = maybeSkipC p cfg (cur + 1) want (arrRest [] k tl) := by
  unfold maybeSkipC
  have e : want - cur = (want - (cur + 1)) + 1 := by omega
  have h1 : decide (cur ≤ want) = true := by simp; omega
  have h2 : decide (cur + 1 ≤ want) = true := by simp; omega
  rw [e, skipMembersC_step P _ hwf hdep, h1, h2, Nat.max_eq_left (by omega), Nat.max_eq_left (by omega)]

theorem maybeSkipC_here {cc : UInt8} (cfg : Cfg) (cur : Nat) {k : Bytes} {pre : Bytes} {d : JVal} {post : Bytes} {tl : JElems}
    (hwf : (JElems.cons pre d post tl).WFc cc G L) :
    maybeSkipC p cfg cur cur (arrRest [] k (.cons pre d post tl)) = .ok (cur, arrRest [] k (.cons pre d post tl)) := by
  simp only [JElems.WFc] at hwf
  obtain ⟨c, cs, hc, -⟩ := arrRest_cons_headC (G := G) (L := L) (w := []) (k := k) (pre := pre) (post := post) (tl := tl) hwf.2.1
  have hde : derefEnd cfg (arrRest [] k (.cons pre d post tl)) = .ok c := by rw [hc]; rfl
  simp [maybeSkipC, skipMembersC, hde]

/-- Where the cursor stands after the last member of an ordered class, `es` being the elements left. -/
def EndAtC (G : Bytes → Prop) (k b : Bytes) (es : JElems) : Prop := ∃ g, G g ∧ b = g ++ (es.text ++ chRBrack :: k)

/-- The members of an ordered class. -/
theorem ordMembersC_sem (P : Pol p G L) {cfg : Cfg} {pU : Ty → Bytes → Res (Val × Bytes)} {exact : Bool}
    {k : Bytes} {idx : Nat} {ms : List (Option Nat × Ty)} {es : JElems} {vs : List Val}
    (h : OrdSemC p G pU exact idx ms es vs) (hwf : es.WFc (cmtChar p) G L) (hdep : es.depth < 4294967295) (b : Bytes)
    (hb : moveNextCmt p b = .ok (arrRest [] k es)) :
    ∃ b' es', ordMembersC p cfg pU idx ms b = .ok (vs, b') ∧ es'.WFc (cmtChar p) G L ∧ es'.depth < 4294967295 ∧
      (exact = true → es' = .nil) ∧ (ms = [] ∧ b' = b ∧ es' = es ∨ EndAtC G k b' es') := by
  induction h generalizing b with
  | nil hex => exact ⟨b, _, rfl, hwf, hdep, hex, Or.inl ⟨rfl, rfl, rfl⟩⟩
  | @skip idx want ty ms pre d post tl vs hlt h3 ih =>
    simp only [JElems.depth] at hdep
    have htl : tl.WFc (cmtChar p) G L := by simp only [JElems.WFc] at hwf; exact hwf.2.2.2
    have hmt := (moveNextCmt_arrRest (p := p) k tl htl).2
    obtain ⟨b', es', h1, h2, h4, h5, h6⟩ := ih htl (by omega) (arrRest [] k tl) hmt
    refine ⟨b', es', ?_, h2, h4, h5, ?_⟩
    · rw [← h1]
      conv => lhs; unfold ordMembersC
      conv => rhs; unfold ordMembersC
      simp only [hb, hmt, Res.ok_bind, maybeSkipC_step P hlt (k := k) hwf (by omega)]
    · rcases h6 with ⟨h, -⟩ | h
      · simp at h
      · exact Or.inr h
  | @read idx want ty ms pre d post tl v vs hwant hsem h3 ih =>
    simp only [JElems.depth] at hdep
    have hwf' := hwf
    simp only [JElems.WFc] at hwf
    obtain ⟨-, hd, hpost, htl⟩ := hwf
    obtain ⟨r, hr, htr⟩ := hsem.arr hpost tl k
    have hmv : moveNextCmt p r = .ok (arrRest [] k tl) := by
      rw [P.moveNext_rest hpost.1 (endToken_arr tl k) htr, P.afterToken_arr htl]
    obtain ⟨b', es', h1, h2, h4, h5, h6⟩ := ih htl (by omega) r hmv
    refine ⟨b', es', ?_, h2, h4, h5, ?_⟩
    · obtain ⟨c, cs, hc, hcn⟩ := arrRest_cons_headC (G := G) (L := L) (w := []) (k := k) (pre := pre) (post := post) (tl := tl) hd
      have hde : derefEnd cfg (arrRest [] k (.cons pre d post tl)) = .ok c := by rw [hc]; rfl
      have hne : (arrRest [] k (.cons pre d post tl)).isEmpty = false := by rw [hc]; rfl
      have hr' : pU ty (arrRest [] k (.cons pre d post tl)) = .ok (v, r) := hr
      unfold ordMembersC
      rcases hwant with rfl | rfl
      · simp only [hb, Res.ok_bind, hne, Bool.not_false, ensure_true, hde, if_neg hcn, hr', h1]
      · simp only [hb, Res.ok_bind, maybeSkipC_here cfg _ hwf', hde, if_neg hcn, hr', h1]
    · rcases h6 with ⟨-, rfl, rfl⟩ | h
      · refine Or.inr ?_
        rcases htr with rfl | rfl
        · exact ⟨post, hpost.1, rfl⟩
        · exact ⟨[], P.nil, rfl⟩
      · exact Or.inr h
  | @gone idx want ty ms vs h1 h2 h3 ih =>
    obtain ⟨b', hb', h'⟩ := ordMembersC_gone (p := p) (G := G) (cfg := cfg) (.gone (exact := exact) h1 h2 h3) rfl idx (Nat.le_refl _) b k hb
    refine ⟨b', .nil, hb', hwf, hdep, fun _ => rfl, ?_⟩
    rcases h' with ⟨h, -⟩ | rfl
    · simp at h
    · exact Or.inr ⟨[], P.nil, rfl⟩

/-- Skipping to the end of the array after the last member. -/
theorem skipBracketedC_end (P : Pol p G L) {k b : Bytes} {es : JElems} (hr : es.WFc (cmtChar p) G L)
    (hd : es.depth < 4294967295) (hb : EndAtC G k b es) : ∃ r, skipBracketedCmt p arrBr b = .ok (r, k) := by
  obtain ⟨g, hg, rfl⟩ := hb
  have hl := brLoopC_elems P hg es hr hd k
  have hh := P.head_rest hg (endToken_arr es k)
  revert hl hh
  cases hx : g ++ (es.text ++ chRBrack :: k) with
  | nil => simp at hx
  | cons c cs =>
    intro hl hh
    refine skipBracketedC_rest ?_ hl
    rintro rfl
    rcases hh _ rfl with (h | h | h | h) | ⟨h, -⟩ | h | h | h
    all_goals first
      | (revert h; decide)
      | (revert h; cases p <;> decide)

/-- Ordered classes. -/
theorem parseOrdC_sem (P : Pol p G L) {cfg : Cfg} {exact : Bool} {pU : Ty → Bytes → Res (Val × Bytes)}
    {ms : List (Option Nat × Ty)} {w : Bytes} {es : JElems} {vs : List Val} (hwf : (JVal.arr w es).WFc (cmtChar p) G L)
    (hd : es.depth < 4294967295) (hms : ms = [] → es = .nil) (hs : OrdSemC p G pU exact 0 ms es vs) :
    SemUC p G (parseOrdC p cfg exact ms pU) (.arr w es) (.cls vs) := by
  intro g t hg ht _
  obtain ⟨b, h1, h2, -, hes⟩ := arr_openC P (k := g ++ t) hwf
  have h3 := (moveNextCmt_arrRest (p := p) (g ++ t) es hes).2
  obtain ⟨b', es', h4, h5, h6, h7, h8⟩ := ordMembersC_sem P (cfg := cfg) (k := g ++ t) hs hes hd _ h3
  have hend : EndAtC G (g ++ t) b' es' := by
    rcases h8 with ⟨h, rfl, rfl⟩ | h
    · obtain rfl := hms h
      exact ⟨[], P.nil, rfl⟩
    · exact h
  have htr : trimCmt p (chLBrack :: b) = .ok (chLBrack :: b) := trimCmt_punct p (by simp) _
  unfold parseOrdC
  rw [h1]
  simp only [htr, Res.ok_bind, headIs, beq_self_eq_true, ensure_true, List.tail_cons, h2, h4, endTupC]
  cases exact with
  | true =>
    obtain rfl := h7 rfl
    have : trimCmt p b' = .ok (chRBrack :: (g ++ t)) := by
      obtain ⟨g', hg', rfl⟩ := hend
      rw [P.trim _ hg']
      exact trimCmt_punct p (by simp) _
    simp only [if_true, this, derefEnd_cons, Res.ok_bind, beq_self_eq_true, ensure_true, List.tail_cons,
      P.trim_rest hg.1 ht (Or.inl rfl)]
    exact ⟨_, rfl, Or.inr rfl⟩
  | false =>
    obtain ⟨r, hr⟩ := skipBracketedC_end P h5 h6 hend
    simp only [Bool.false_eq_true, if_false, hr, Res.ok_bind]
    exact ⟨_, rfl, Or.inl rfl⟩

end Verif
