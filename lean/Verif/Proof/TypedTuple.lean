import Verif.Proof.TypedClass

/-!
# Typed parsing: tuples, ordered classes and scalars
-/

namespace Verif

open Spec

/-! ## Tuples -/

/-- The components are read as the values; `rest` are the elements left. -/
def TupSem (ck : Bool) (pU : Ty → Bytes → Res (Val × Bytes)) (rest : JElems) : List Ty → JElems → List Val → Prop
  | [], es, [] => es = rest
  | ty :: ts, .cons _ d _ tl, v :: vs => SemU ck (pU ty) d v ∧ TupSem ck pU rest ts tl vs
  | _, _, _ => False

/-- What may be left behind the components of a tuple. -/
def TupRest (exact : Bool) (rest : JElems) : Prop :=
  (exact = true → rest = .nil) ∧ ∀ pre w es' post tl, rest ≠ .cons pre (.arr w es') post tl

theorem tupMembers_sem {cfg : Cfg} {ck : Bool} {pU : Ty → Bytes → Res (Val × Bytes)} {tc : Bool}
    {w k : Bytes} (hw : IsTail tc w) {rest : JElems} :
    ∀ (ts : List Ty) (es : JElems) (vs : List Val), es.WFt tc → TupSem ck pU rest ts es vs →
      tupMembers cfg pU ts (arrRest w k es) = .ok (vs, arrRest w k rest)
  | [], _, [], _, h => by cases h; rfl
  | ty :: ts, .cons pre d post tl, v :: vs, hwf, hs => by
    obtain ⟨-, hd, hpost, htl⟩ := (by simpa only [JElems.WFt] using hwf : IsWs pre ∧ d.WFt tc ∧ IsWs post ∧ tl.WFt tc)
    obtain ⟨hs1, hs2⟩ := (by simpa only [TupSem] using hs : SemU ck (pU ty) d v ∧ TupSem ck pU rest ts tl vs)
    obtain ⟨r, hr, htr⟩ := hs1 _ (fun _ => arrAfter_follows (tl := tl) (k := k) _ _ hpost hw) (fun _ => arrAfter_nonsp _ _ _ _)
    have hmv : moveNextChecked r = arrRest w k tl := by
      rw [moveNextChecked_trimEq htr, moveNext_arr hpost htl hw]
    obtain ⟨c, cs, hc, -⟩ := arrRest_cons_head (w := w) (k := k) (pre := pre) (post := post) (tl := tl) hd
    have hne : (arrRest w k (.cons pre d post tl)).isEmpty = false := by rw [hc]; rfl
    have hr' : pU ty (arrRest w k (.cons pre d post tl)) = .ok (v, r) := hr
    have ih := tupMembers_sem (cfg := cfg) (k := k) hw ts tl vs htl hs2
    unfold tupMembers
    simp only [assertWeak_tt, hne, Bool.not_false, Res.ok_bind, hr', moveNext_of hmv (arrRest_ne w k htl), ih]
  | [], _, _ :: _, _, h => by simp [TupSem] at h
  | _ :: _, .nil, _, _, h => by simp [TupSem] at h
  | _ :: _, .cons .., [], _, h => by simp [TupSem] at h

theorem TupSem.wf {ck : Bool} {pU : Ty → Bytes → Res (Val × Bytes)} {tc : Bool} {rest : JElems} :
    ∀ {ts : List Ty} {es : JElems} {vs : List Val}, TupSem ck pU rest ts es vs → es.WFt tc → es.depth < 4294967295 →
      rest.WFt tc ∧ rest.depth < 4294967295
  | [], _, [], h, hwf, hd => by cases h; exact ⟨hwf, hd⟩
  | _ :: _, .cons pre d post tl, _ :: _, h, hwf, hd => by
    simp only [JElems.WFt] at hwf
    simp only [JElems.depth] at hd
    simp only [TupSem] at h
    exact TupSem.wf h.2 hwf.2.2.2 (by omega)
  | [], _, _ :: _, h, _, _ => by simp [TupSem] at h
  | _ :: _, .nil, _, h, _, _ => by simp [TupSem] at h
  | _ :: _, .cons .., [], h, _, _ => by simp [TupSem] at h

theorem skipBracketed_close {cfg : Cfg} {k : Bytes} (hk : cfg.checked = false → k ≠ []) :
    ∃ r, skipBracketed cfg arrBr (chRBrack :: k) = .ok (r, k) := by
  have := brLoop_primR (Or.inl rfl : IsBr arrBr) 1 0 0 k
  have h : brLoop arrBr 1 0 0 (chRBrack :: k) = .ok (0, k) := by simpa [arrBr, dec32] using this
  exact skipBracketed_rest (by decide) hk h

theorem arr_open {tc : Bool} {w k : Bytes} {es : JElems} (hwf : (JVal.arr w es).WFt tc) :
    ∃ b, trimChecked ((JVal.arr w es).text ++ k) = chLBrack :: b ∧ moveNextChecked b = arrRest w k es ∧
      trimChecked (arrRest w k es) = arrRest w k es ∧ moveNextChecked (arrRest w k es) = arrRest w k es ∧
      (es = .nil → b = w ++ chRBrack :: k) := by
  simp only [JVal.WFt] at hwf
  match es with
  | .nil =>
    refine ⟨w ++ chRBrack :: k, ?_, ?_, ?_, ?_, fun _ => rfl⟩
    · simp only [JVal.text, List.cons_append, List.append_assoc, List.nil_append]
      exact trimChecked_cons_of_not _ (by decide)
    · exact moveNext_close (w₀ := []) (Or.inl rfl) (by simp [IsWs]) hwf.1
    · exact trimChecked_cons_of_not _ (by decide)
    · unfold moveNextChecked
      simp only [arrRest]
      rw [trimChecked_cons_of_not _ (by decide)]
      simp
  | .cons pre d post tl =>
    have h := hwf.2
    simp only [JElems.WFt] at h
    have ht : trimChecked (arrRest w k (.cons pre d post tl)) = arrRest w k (.cons pre d post tl) :=
      trimChecked_text d h.2.1 _
    have hm : moveNextChecked (arrRest w k (.cons pre d post tl)) = arrRest w k (.cons pre d post tl) := by
      unfold moveNextChecked
      rw [ht]
      obtain ⟨c, cs, hc, -, hc2, -⟩ := text_head d h.2.1
      have hcm : c ≠ chComma := by rintro rfl; simp [isTokenAfterValue] at hc2
      simp only [arrRest, hc, List.cons_append]
      rw [if_neg hcm]
    refine ⟨pre ++ (d.text ++ arrAfter post tl w k), ?_, ?_, ht, hm, nofun⟩
    · rw [arr_text]
      exact trimChecked_cons_of_not _ (by decide)
    · have : moveNextChecked (pre ++ arrRest w k (.cons pre d post tl))
          = moveNextChecked (arrRest w k (.cons pre d post tl)) :=
        (moveNextChecked_trimEq ⟨pre, IsWs.sp h.1, rfl⟩).symm
      exact this.trans hm

theorem brLoop_arrAfter' {tc : Bool} {w post : Bytes} (hw : IsTail tc w) (hpost : IsWs post) (tl : JElems)
    (htl : tl.WFt tc) (hd : tl.depth < 4294967295) (k : Bytes) :
    brLoop arrBr 1 0 0 (arrAfter post tl w k) = .ok (tl.length + w.count chComma, k) := by
  have hk : IsBr arrBr := Or.inl rfl
  have hend := brLoop_primR hk 1 0 (tl.length + w.count chComma) k
  unfold arrAfter
  rw [brLoop_neutral hk _ _ _ _ _ (ws_neutral hpost),
    brLoop_elems hk tl htl _ _ _ _ (by omega) (by omega) (by omega), brLoop_tail hk hw]
  simpa [arrBr, dec32] using hend

/-- The rest of an array, from behind an element on, is passed over. -/
theorem brLoop_arrAfter {tc : Bool} {w k post : Bytes} (hw : IsTail tc w) (hpost : IsWs post) (tl : JElems)
    (htl : tl.WFt tc) (hd : tl.depth < 4294967295) :
    ∃ n, brLoop arrBr 1 0 0 (arrAfter post tl w k) = .ok (n, k) :=
  ⟨_, brLoop_arrAfter' hw hpost tl htl hd k⟩

/-- The rest of an array, from an element on that is not an array, is passed over. -/
theorem arrRest_body {tc : Bool} {w : Bytes} (hw : IsTail tc w) (es : JElems) (hes : es.WFt tc)
    (hd : es.depth < 4294967295) (hna : ∀ pre w es' post tl, es ≠ .cons pre (.arr w es') post tl) :
    ∃ (body : Bytes) (n : Nat), (∀ q, arrRest w q es = body ++ q) ∧ body ≠ [] ∧ body.head? ≠ some chLBrack ∧
      ∀ q, brLoop arrBr 1 0 0 (body ++ q) = .ok (n, q) := by
  match es with
  | .nil =>
    refine ⟨[chRBrack], 0, fun q => rfl, by simp, by decide, fun q => ?_⟩
    simpa [arrBr, dec32] using brLoop_primR (Or.inl rfl : IsBr arrBr) 1 0 0 q
  | .cons pre d post tl =>
    simp only [JElems.WFt] at hes
    simp only [JElems.depth] at hd
    have he : ∀ q, d.text ++ arrAfter post tl w [] ++ q = d.text ++ arrAfter post tl w q := by intro q; simp [arrAfter]
    refine ⟨d.text ++ arrAfter post tl w [], tl.length + w.count chComma, fun q => (he q).symm, ?_, ?_, fun q => ?_⟩
    · simp [arrAfter]
    · cases d with
      | arr w' es' => exact absurd rfl (hna _ _ _ _ _)
      | num x =>
        obtain ⟨c, cs, hc, -⟩ := text_head (.num x) hes.2.1
        rw [hc]
        intro h
        simp only [List.cons_append, List.head?_cons, Option.some.injEq] at h
        subst h
        simp only [JVal.text] at hc
        have hn : IsNumber x := by simpa [JVal.WFt] using hes.2.1
        have := number_neutral hn chLBrack (by simp [hc])
        revert this
        unfold Neutral
        decide
      | obj w' ms' => cases ms' <;> simp [JVal.text]
      | _ => simp [JVal.text]
    · rw [he, brLoop_val (Or.inl rfl) d hes.2.1 _ _ _ _ (by omega) (by omega) (by omega)]
      exact brLoop_arrAfter' hw hes.2.2.1 tl hes.2.2.2 (by omega) q

/-- Tuples. -/
theorem parseTup_sem {cfg : Cfg} {tc exact : Bool} {pU : Ty → Bytes → Res (Val × Bytes)}
    {ts : List Ty} {w : Bytes} {es rest : JElems} {vs : List Val} (hwf : (JVal.arr w es).WFt tc)
    (hd : es.depth < 4294967295) (hs : TupSem cfg.checked pU rest ts es vs) (hre : TupRest exact rest) :
    SemU cfg.checked (parseTup cfg exact ts pU) (.arr w es) (.cls vs) := by
  intro k hk hns
  obtain ⟨b, h1, h2, h3, -⟩ := arr_open (k := k) hwf
  simp only [JVal.WFt] at hwf
  have hm := tupMembers_sem (cfg := cfg) (k := k) hwf.1 ts es vs hwf.2 hs
  obtain ⟨hr1, hr2⟩ := hs.wf hwf.2 hd
  unfold parseTup
  have hne' := arrRest_ne w k hwf.2
  have htk : trim cfg k = .ok (trimChecked k) := by
    cases hc : cfg.checked with
    | true => exact trim_ck hc k
    | false => exact trim_of rfl (hns hc)
  simp only [trim_of h1 (by simp), Res.ok_bind, assertWeak_tt, headIs, beq_self_eq_true,
    List.tail_cons, moveNext_of h2 hne', trim_of h3 hne', hm]
  cases exact with
  | true =>
    obtain rfl := hre.1 rfl
    have : trimChecked (chRBrack :: k) = chRBrack :: k := trimChecked_cons_of_not _ (by decide)
    simp only [if_true, arrRest, trim_of this (by simp), derefEnd_cons, Res.ok_bind, beq_self_eq_true, assertWeak_tt,
      List.tail_cons, htk]
    exact ⟨_, rfl, trimChecked_te (TrimEq.refl k)⟩
  | false =>
    obtain ⟨body, n, he, hne, hhd, hl⟩ := arrRest_body hwf.1 rest hr1 hr2 hre.2
    have : ∃ r, skipBracketed cfg arrBr (arrRest w k rest) = .ok (r, k) := by
      rw [he k]
      cases body with
      | nil => exact absurd rfl hne
      | cons c cs =>
        have hc : c ≠ arrBr.primLeft := fun h => hhd (congrArg some h)
        have hl' := hl k
        rw [List.cons_append] at hl' ⊢
        exact skipBracketed_rest hc (fun h => (hns h).ne) hl'
    obtain ⟨r, hr⟩ := this
    simp only [Bool.false_eq_true, if_false, hr, Res.ok_bind]
    exact ⟨_, rfl, TrimEq.refl k⟩

/-! ## Ordered classes -/

/-- The members are read as the values from the elements left, the first of which has index `idx`. -/
inductive OrdSem (ck : Bool) (pU : Ty → Bytes → Res (Val × Bytes)) (exact : Bool) :
    Nat → List (Option Nat × Ty) → JElems → List Val → Prop
  | nil {idx es} : (exact = true → es = .nil) → OrdSem ck pU exact idx [] es []
  | skip {idx want ty ms pre d post tl vs} : idx < want →
      OrdSem ck pU exact (idx + 1) ((some want, ty) :: ms) tl vs →
      OrdSem ck pU exact idx ((some want, ty) :: ms) (.cons pre d post tl) vs
  | read {idx want ty ms pre d post tl v vs} : (want = none ∨ want = some idx) → SemU ck (pU ty) d v →
      OrdSem ck pU exact (idx + 1) ms tl vs → OrdSem ck pU exact idx ((want, ty) :: ms) (.cons pre d post tl) (v :: vs)
  | gone {idx want ty ms vs} : ck = true → (∀ w, want = some w → idx ≤ w) → ty.isOpt = true →
      OrdSem ck pU exact ((want.getD idx) + 1) ms .nil vs →
      OrdSem ck pU exact idx ((want, ty) :: ms) .nil (.none :: vs)

theorem skipMembers_nil {cfg : Cfg} (hck : cfg.checked = true) (nullable : Bool) (n : Nat) (k : Bytes) :
    skipMembers cfg nullable n (chRBrack :: k) = .ok (n, chRBrack :: k) := by
  cases n <;> simp [skipMembers, atArrayEnd, hck]

theorem maybeSkip_nil {cfg : Cfg} (hck : cfg.checked = true) (nullable : Bool) {cur want : Nat} (h : cur ≤ want)
    (k : Bytes) : maybeSkip cfg nullable cur want (chRBrack :: k) = .ok (cur, chRBrack :: k) := by
  unfold maybeSkip
  simp only [hck, assertWeak_checked, h, decide_true, ensure_true, Res.ok_bind, skipMembers_nil hck]
  congr 2
  rw [Nat.max_eq_left h]
  omega

/-- No more elements: the remaining members are empty. -/
theorem ordMembers_gone {cfg : Cfg} (hck : cfg.checked = true) {ck : Bool} {pU : Ty → Bytes → Res (Val × Bytes)} {exact : Bool}
    {idx : Nat} {ms : List (Option Nat × Ty)} {es : JElems} {vs : List Val} (h : OrdSem ck pU exact idx ms es vs)
    (hes : es = .nil) (cur : Nat) (hcur : cur ≤ idx) (b k : Bytes) (hb : moveNextChecked b = chRBrack :: k) :
    ∃ b', ordMembers cfg pU cur ms b = .ok (vs, b') ∧ (ms = [] ∧ b' = b ∨ b' = chRBrack :: k) := by
  induction h generalizing cur b with
  | nil => exact ⟨b, rfl, Or.inl ⟨rfl, rfl⟩⟩
  | skip => simp at hes
  | read => simp at hes
  | @gone idx want ty ms vs hc h1 h2 h3 ih =>
    have hmv : moveNextChecked (chRBrack :: k) = chRBrack :: k := by
      unfold moveNextChecked
      rw [trimChecked_cons_of_not _ (by decide)]
      simp
    have key : ∀ cur', cur' ≤ want.getD idx → ∃ b', ordMembers cfg pU (cur' + 1) ms (chRBrack :: k) = .ok (vs, b') ∧
        b' = chRBrack :: k := by
      intro cur' hc
      obtain ⟨b', hb', h'⟩ := ih rfl (cur' + 1) (by omega) (chRBrack :: k) hmv
      exact ⟨b', hb', by rcases h' with ⟨-, h⟩ | h <;> exact h⟩
    unfold ordMembers
    cases want with
    | none =>
      obtain ⟨b', hb', rfl⟩ := key cur hcur
      simp only [moveNext_ck hck, hb, Res.ok_bind, hck, assertWeak_checked, List.isEmpty_cons, Bool.not_false,
        ensure_true, derefEnd_cons, if_true, h2, hb']
      exact ⟨_, rfl, Or.inr rfl⟩
    | some wn =>
      have hle : cur ≤ wn := by have := h1 wn rfl; omega
      obtain ⟨b', hb', rfl⟩ := key cur (by simpa using hle)
      simp only [moveNext_ck hck, hb, Res.ok_bind, maybeSkip_nil hck _ hle, derefEnd_cons, if_true, h2, hb']
      exact ⟨_, rfl, Or.inr rfl⟩

theorem skipMembers_step {cfg : Cfg} (nullable : Bool) (n : Nat) {tc : Bool} {w k : Bytes}
    (hw : IsTail tc w) {pre : Bytes} {d : JVal} {post : Bytes} {tl : JElems}
    (hwf : (JElems.cons pre d post tl).WFt tc) (hdep : d.depth < 4294967296) :
    skipMembers cfg nullable (n + 1) (arrRest w k (.cons pre d post tl))
      = skipMembers cfg nullable n (arrRest w k tl) := by
  obtain ⟨-, hd, hpost, htl⟩ := (by simpa only [JElems.WFt] using hwf : IsWs pre ∧ d.WFt tc ∧ IsWs post ∧ tl.WFt tc)
  obtain ⟨r, h1, -⟩ := skipValue_exact cfg false d hd hdep _ (arrAfter_after (tl := tl) (k := k) hpost hw)
    ((arrAfter_nonsp _ _ _ _).room (arrAfter_after hpost hw)).room
    (fun _ => (arrAfter_nonsp _ _ _ _).room (arrAfter_after hpost hw)) (fun _ => arrAfter_ne _ _ _ _)
  obtain ⟨c, cs, hc, hcn⟩ := arrRest_cons_head (w := w) (k := k) (pre := pre) (post := post) (tl := tl) hd
  have hde : derefEnd cfg (arrRest w k (.cons pre d post tl)) = .ok c := by rw [hc]; rfl
  have hcf : (c == chRBrack) = false := by simpa using hcn
  have h1' : skipValue cfg false (arrRest w k (.cons pre d post tl))
      = .ok (r, if d.isLiteral then dropWs (arrAfter post tl w k) else arrAfter post tl w k) := h1
  have hmv : moveNextChecked (if d.isLiteral then dropWs (arrAfter post tl w k) else arrAfter post tl w k)
      = arrRest w k tl := by
    rw [← moveNext_arr (k := k) hpost htl hw]
    apply moveNextChecked_trimEq
    split
    · exact dropWs_trimEq _
    · exact TrimEq.refl _
  have hne : (arrRest w k tl).isEmpty = false := by
    match tl, htl with
    | .nil, _ => rfl
    | .cons _ d' _ _, htl =>
      simp only [JElems.WFt] at htl
      obtain ⟨c, cs, hc, -⟩ := text_head d' htl.2.1
      simp [arrRest, hc]
  rw [skipMembers]
  have hae : atArrayEnd cfg nullable (arrRest w k (.cons pre d post tl)) = .ok false := by
    unfold atArrayEnd
    split
    · rfl
    · simp only [hde, Res.ok_bind, hcf]
  simp only [hae, if_false, Res.ok_bind, Bool.false_eq_true, h1', moveNext_of hmv (arrRest_ne w k htl),
    assertWeak_tt, hne, Bool.not_false]

theorem maybeSkip_step {cfg : Cfg} (nullable : Bool) {cur want : Nat} (h : cur < want)
    {tc : Bool} {w k : Bytes} (hw : IsTail tc w) {pre : Bytes} {d : JVal} {post : Bytes} {tl : JElems}
    (hwf : (JElems.cons pre d post tl).WFt tc) (hdep : d.depth < 4294967296) :
    maybeSkip cfg nullable cur want (arrRest w k (.cons pre d post tl))
      = maybeSkip cfg nullable (cur + 1) want (arrRest w k tl) := by
  unfold maybeSkip
  have e : want - cur = (want - (cur + 1)) + 1 := by omega
  have h1 : decide (cur ≤ want) = true := by simp; omega
  have h2 : decide (cur + 1 ≤ want) = true := by simp; omega
  rw [e, skipMembers_step nullable _ hw hwf hdep, h1, h2, Nat.max_eq_left (by omega), Nat.max_eq_left (by omega)]

theorem maybeSkip_here {cfg : Cfg} (nullable : Bool) (cur : Nat)
    {tc : Bool} {w k : Bytes} {pre : Bytes} {d : JVal} {post : Bytes} {tl : JElems}
    (hwf : (JElems.cons pre d post tl).WFt tc) :
    maybeSkip cfg nullable cur cur (arrRest w k (.cons pre d post tl))
      = .ok (cur, arrRest w k (.cons pre d post tl)) := by
  obtain ⟨-, hd, hpost, htl⟩ := (by simpa only [JElems.WFt] using hwf : IsWs pre ∧ d.WFt tc ∧ IsWs post ∧ tl.WFt tc)
  obtain ⟨c, cs, hc, hcn⟩ := arrRest_cons_head (w := w) (k := k) (pre := pre) (post := post) (tl := tl) hd
  have hde : derefEnd cfg (arrRest w k (.cons pre d post tl)) = .ok c := by rw [hc]; rfl
  have hae : ∃ x, atArrayEnd cfg nullable (arrRest w k (.cons pre d post tl)) = .ok x := by
    unfold atArrayEnd
    split
    · exact ⟨_, rfl⟩
    · simp only [hde, Res.ok_bind]; exact ⟨_, rfl⟩
  obtain ⟨x, hx⟩ := hae
  simp [maybeSkip, skipMembers, hx, assertWeak_tt]

theorem moveNext_arrRest {tc : Bool} {w k : Bytes} (es : JElems) (hwf : es.WFt tc) :
    moveNextChecked (arrRest w k es) = arrRest w k es := by
  match es with
  | .nil =>
    unfold moveNextChecked
    simp only [arrRest]
    rw [trimChecked_cons_of_not _ (by decide)]
    simp
  | .cons pre d post tl =>
    simp only [JElems.WFt] at hwf
    unfold moveNextChecked
    have ht : trimChecked (arrRest w k (.cons pre d post tl)) = arrRest w k (.cons pre d post tl) :=
      trimChecked_text d hwf.2.1 _
    rw [ht]
    obtain ⟨c, cs, hc, -, hc2, -⟩ := text_head d hwf.2.1
    have hcm : c ≠ chComma := by rintro rfl; simp [isTokenAfterValue] at hc2
    simp only [arrRest, hc, List.cons_append]
    rw [if_neg hcm]

/-- Where the cursor stands after the last member of an ordered class, `es` being the elements left. -/
def EndAt (w k b : Bytes) (es : JElems) : Prop :=
  (∃ post, IsWs post ∧ TrimEq b (arrAfter post es w k)) ∨ (es = .nil ∧ b = chRBrack :: k)

theorem OrdSem.le {ck : Bool} {pU : Ty → Bytes → Res (Val × Bytes)} {exact : Bool} {idx : Nat} {ms : List (Option Nat × Ty)}
    {es : JElems} {vs : List Val} (h : OrdSem ck pU exact idx ms es vs) : idx ≤ ordEnd idx ms := by
  induction h with
  | nil _ => exact Nat.le_refl _
  | skip hlt _ ih => simp only [ordEnd, Option.getD_some] at ih ⊢; omega
  | read hw _ _ ih => rcases hw with rfl | rfl <;> simp only [ordEnd, Option.getD_some, Option.getD_none] <;> omega
  | @gone idx want ty ms vs _ h1 _ _ ih =>
    cases want with
    | none => simp only [ordEnd, Option.getD_none] at ih ⊢; omega
    | some w => have := h1 w rfl; simp only [ordEnd, Option.getD_some] at ih ⊢; omega

/-- The members of an ordered class. -/
theorem ordMembers_sem {cfg : Cfg} {pU : Ty → Bytes → Res (Val × Bytes)} {exact tc : Bool}
    {w k : Bytes} (hw : IsTail tc w) {idx : Nat} {ms : List (Option Nat × Ty)} {es : JElems} {vs : List Val}
    (h : OrdSem cfg.checked pU exact idx ms es vs) (hwf : es.WFt tc) (hdep : es.depth < 4294967295) (b : Bytes)
    (hb : moveNextChecked b = arrRest w k es) :
    ∃ b' es', ordMembers cfg pU idx ms b = .ok (vs, b') ∧ es'.WFt tc ∧ es'.depth < 4294967295 ∧
      (exact = true → es' = .nil) ∧ (ordEnd idx ms < idx + es.length → es' ≠ .nil) ∧ (ms = [] ∧ b' = b ∧ es' = es ∨ EndAt w k b' es') := by
  induction h generalizing b with
  | nil hex => exact ⟨b, _, rfl, hwf, hdep, hex, by
      rintro h rfl; simp [ordEnd, JElems.length] at h, Or.inl ⟨rfl, rfl, rfl⟩⟩
  | @skip idx want ty ms pre d post tl vs hlt h3 ih =>
    simp only [JElems.depth] at hdep
    have htl : tl.WFt tc := by simp only [JElems.WFt] at hwf; exact hwf.2.2.2
    obtain ⟨b', es', h1, h2, h4, h5, h7, h6⟩ := ih htl (by omega) (arrRest w k tl) (moveNext_arrRest tl htl)
    refine ⟨b', es', ?_, h2, h4, h5, fun h => h7 (by simp only [ordEnd, JElems.length, Option.getD_some] at h ⊢; omega), ?_⟩
    · rw [← h1]
      conv => lhs; unfold ordMembers
      conv => rhs; unfold ordMembers
      simp only [moveNext_of hb (arrRest_ne w k hwf), moveNext_of (moveNext_arrRest tl htl) (arrRest_ne w k htl), Res.ok_bind,
        maybeSkip_step ty.isOpt hlt (k := k) hw hwf (by omega)]
    · rcases h6 with ⟨h, -⟩ | h
      · simp at h
      · exact Or.inr h
  | @read idx want ty ms pre d post tl v vs hwant hsem h3 ih =>
    simp only [JElems.depth] at hdep
    obtain ⟨-, hd, hpost, htl⟩ := (by simpa only [JElems.WFt] using hwf : IsWs pre ∧ d.WFt tc ∧ IsWs post ∧ tl.WFt tc)
    obtain ⟨r, hr, htr⟩ := hsem _ (fun _ => arrAfter_follows (tl := tl) (k := k) _ _ hpost hw) (fun _ => arrAfter_nonsp _ _ _ _)
    have hmv : moveNextChecked r = arrRest w k tl := by
      rw [moveNextChecked_trimEq htr, moveNext_arr hpost htl hw]
    obtain ⟨b', es', h1, h2, h4, h5, h7, h6⟩ := ih htl (by omega) r hmv
    refine ⟨b', es', ?_, h2, h4, h5, fun h => h7 (by
      rcases hwant with rfl | rfl <;> simp only [ordEnd, JElems.length, Option.getD_some, Option.getD_none] at h <;> omega), ?_⟩
    · obtain ⟨c, cs, hc, hcn⟩ := arrRest_cons_head (w := w) (k := k) (pre := pre) (post := post) (tl := tl) hd
      have hde : derefEnd cfg (arrRest w k (.cons pre d post tl)) = .ok c := by rw [hc]; rfl
      have hne : (arrRest w k (.cons pre d post tl)).isEmpty = false := by rw [hc]; rfl
      have hr' : pU ty (arrRest w k (.cons pre d post tl)) = .ok (v, r) := hr
      unfold ordMembers
      rcases hwant with rfl | rfl
      · simp only [moveNext_of hb (arrRest_ne w k hwf), Res.ok_bind, assertWeak_tt, hne, Bool.not_false, hde,
          if_neg hcn, hr', h1]
      · simp only [moveNext_of hb (arrRest_ne w k hwf), Res.ok_bind, maybeSkip_here _ _ hwf, hde, if_neg hcn, hr', h1]
    · rcases h6 with ⟨-, rfl, rfl⟩ | h
      · exact Or.inr (Or.inl ⟨post, hpost, htr⟩)
      · exact Or.inr h
  | @gone idx want ty ms vs hc h1 h2 h3 ih =>
    obtain ⟨b', hb', h'⟩ := ordMembers_gone hc (.gone (ck := cfg.checked) (exact := exact) hc h1 h2 h3) rfl idx (Nat.le_refl _) b k hb
    refine ⟨b', .nil, hb', hwf, hdep, fun _ => rfl, fun h => ?_, ?_⟩
    · exfalso
      have := (OrdSem.gone (pU := pU) (exact := exact) hc h1 h2 h3).le
      simp only [JElems.length] at h
      omega
    rcases h' with ⟨h, -⟩ | rfl
    · simp at h
    · exact Or.inr (Or.inr ⟨rfl, rfl⟩)

/-- Skipping to the end of the array after the last member. -/
theorem skipBracketed_end {cfg : Cfg} {tc : Bool} {w k b : Bytes} (hw : IsTail tc w)
    {es : JElems} (hr : es.WFt tc) (hd : es.depth < 4294967295) (hb : EndAt w k b es)
    (hk : cfg.checked = false → k ≠ []) :
    ∃ r, skipBracketed cfg arrBr b = .ok (r, k) := by
  rcases hb with ⟨post, hpost, u, hu, he⟩ | ⟨-, rfl⟩
  · obtain ⟨n, hn⟩ := brLoop_arrAfter (k := k) hw hpost es hr hd
    rw [he, brLoop_neutral (Or.inl rfl) _ _ _ _ _ (sp_neutral hu)] at hn
    -- the first character is whitespace, a comma or the closing bracket
    have hhead : ∀ c cs, b = c :: cs → c ≠ chLBrack := by
      rintro c cs rfl rfl
      have ha : AfterValue (chLBrack :: cs) :=
        TrimEq.after ⟨u, hu, he⟩ (arrAfter_after (tl := es) (k := k) hpost hw)
      obtain ⟨w', t', hw', ht', h⟩ := ha
      cases w' with
      | nil =>
        simp only [List.nil_append] at ht'
        subst ht'
        rcases h with h | ⟨x, t'', h, hx⟩
        · simp at h
        · simp only [List.cons.injEq] at h
          obtain ⟨rfl, -⟩ := h
          revert hx; decide
      | cons y w' =>
        simp only [List.cons_append, List.cons.injEq] at ht'
        obtain ⟨rfl, -⟩ := ht'
        have := hw' 0x5B (by simp)
        unfold isWsByte at this
        revert this; decide
    cases b with
    | nil => simp [brLoop, ensure] at hn
    | cons c cs => exact skipBracketed_rest (hhead c cs rfl) hk hn
  · exact skipBracketed_close hk

/-- Ordered classes. -/
theorem parseOrd_sem {cfg : Cfg} {tc exact : Bool} {pU : Ty → Bytes → Res (Val × Bytes)}
    {ms : List (Option Nat × Ty)} {w : Bytes} {es : JElems} {vs : List Val} (hwf : (JVal.arr w es).WFt tc)
    (hd : es.depth < 4294967295) (hms : ms = [] → es = .nil) (hex : exact = true → IsWs w) (hs : OrdSem cfg.checked pU exact 0 ms es vs) :
    SemU cfg.checked (parseOrd cfg exact ms pU) (.arr w es) (.cls vs) := by
  intro k hk hns
  obtain ⟨b, h1, h2, h3, -, h9⟩ := arr_open (k := k) hwf
  simp only [JVal.WFt] at hwf
  obtain ⟨b', es', h4, h5, h6, h7, -, h8⟩ := ordMembers_sem (cfg := cfg) (k := k) hwf.1 hs hwf.2 hd (trimChecked b)
    (by rw [moveNextChecked_trim]; exact h2)
  have hend : EndAt w k b' es' := by
    rcases h8 with ⟨h, rfl, rfl⟩ | h
    · obtain rfl := hms h
      obtain rfl := h9 rfl
      refine Or.inl ⟨[], by simp [IsWs], ?_⟩
      exact trimChecked_te (TrimEq.refl _)
    · exact h
  have htk : trim cfg k = .ok (trimChecked k) := by
    cases hc : cfg.checked with
    | true => exact trim_ck hc k
    | false => exact trim_of rfl (hns hc)
  have htb : trimChecked b ≠ [] := by
    intro h
    rw [← moveNextChecked_trim, h] at h2
    exact arrRest_ne w k hwf.2 h2.symm
  unfold parseOrd
  simp only [trim_of h1 (by simp), trim_of rfl htb, Res.ok_bind, assertWeak_tt, headIs, beq_self_eq_true,
    List.tail_cons, h4]
  cases exact with
  | true =>
    obtain rfl := h7 rfl
    have : trimChecked b' = chRBrack :: k := by
      rcases hend with ⟨post, hpost, ht⟩ | ⟨-, rfl⟩
      · rw [trimChecked_trimEq ht, arrAfter, trimChecked_ws _ _ hpost]
        simp only [JElems.text, List.nil_append]
        rw [trimChecked_ws _ _ (hex rfl), trimChecked_cons_of_not _ (by decide)]
      · exact trimChecked_cons_of_not _ (by decide)
    simp only [if_true, trim_of this (by simp), derefEnd_cons, Res.ok_bind, beq_self_eq_true, assertWeak_tt, List.tail_cons,
      htk]
    exact ⟨_, rfl, trimChecked_te (TrimEq.refl k)⟩
  | false =>
    obtain ⟨r, hr⟩ := skipBracketed_end (cfg := cfg) hwf.1 h5 h6 hend (fun h => (hns h).ne)
    simp only [Bool.false_eq_true, if_false, hr, Res.ok_bind]
    exact ⟨_, rfl, TrimEq.refl k⟩

/-! ## Scalars -/

theorem parseBool_sem {cfg : Cfg} (b : Bool) {k : Bytes} (hk : AfterValue k) (hns : cfg.checked = false → Nonsp k) :
    ∃ r, parseBool cfg ((if b then JVal.tru else JVal.fls).text ++ k) = .ok (b, r) ∧ TrimEq r k := by
  have hd := dropWs_trimEq k
  have he := (endOfItem_after hk).2
  refine ⟨dropWs k, ?_, hd⟩
  cases hc : cfg.checked with
  | true =>
    cases b
    · simp [parseBool, eatBool, hc, JVal.text, List.isPrefixOf, trim_ck hc, trimChecked_after hk, he]
    · simp [parseBool, eatBool, hc, JVal.text, List.isPrefixOf, trim_ck hc, trimChecked_after hk, he]
  | false =>
    have ht := trim_of (cfg := cfg) (trimChecked_after hk) (by rw [← trimChecked_after hk]; exact hns hc)
    cases b
    · have h : ¬ (k.length + 1 + 1 + 1 + 1 + 1 < 5) := by omega
      simp [parseBool, eatBool, hc, JVal.text, h, ht]
    · have h : ¬ (k.length + 1 + 1 + 1 + 1 < 4) := by omega
      simp [parseBool, eatBool, hc, JVal.text, h, ht]

theorem eatNull_null {cfg : Cfg} (hck : cfg.checked = true) {k : Bytes} (hk : AfterValue k) :
    ∃ r, eatNull cfg (JVal.null.text ++ k) = .ok (some r) ∧ TrimEq r k := by
  refine ⟨dropWs k, ?_, dropWs_trimEq k⟩
  simp [eatNull, hck, JVal.text, List.isPrefixOf, trimChecked_after hk, (endOfItem_after hk).1, headIs,
    isTokenAfterValue]

theorem eatNull_value {cfg : Cfg} {tc : Bool} {d : JVal} (hd : d.WFt tc) (hne : d ≠ .null)
    (k : Bytes) : eatNull cfg (d.text ++ k) = .ok none := by
  obtain ⟨c, cs, h, -, h2, h3, -⟩ := text_head d hd
  have hc := h3 hne
  have : (0x6E == c) = false := by simpa using fun h => hc h.symm
  cases hck : cfg.checked with
  | true => simp [eatNull, hck, h, headIs, h2, List.isPrefixOf, this]
  | false =>
    simp only [eatNull, hck, h, headIs, h2, List.cons_append, List.isEmpty_cons, Bool.or_self, Bool.false_eq_true, if_false,
      beq_iff_eq]
    rw [if_neg hc]

end Verif
