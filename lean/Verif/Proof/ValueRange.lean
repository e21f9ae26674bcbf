import Verif.Proof.ValuePath

/-!
# Paths from the start of the document: `find_range`
-/

namespace Verif

open Spec

variable {t : TCfg}

theorem pathCompare_name {n : Bytes} (hn : chBslash ∉ n) (m : Bytes) : pathCompare (escName n) m = (m == n) := by
  unfold pathCompare
  induction n generalizing m with
  | nil =>
    simp only [escName, List.flatMap_nil, headIs, Bool.false_eq_true, if_false]
    cases m with
    | nil => unfold pathCompareLoop; simp
    | cons => unfold pathCompareLoop; simp
  | cons c n ih =>
    simp only [List.mem_cons, not_or] at hn
    have hc : ¬ c = 0x5C := fun h => hn.1 h.symm
    have hstrip : (if headIs (· == chBslash) (escName (c :: n)) then (escName (c :: n)).tail else escName (c :: n)) = c :: escName n := by
      rw [escName_cons]
      split <;> simp [headIs, hc]
    rw [hstrip]
    cases m with
    | nil => unfold pathCompareLoop; simp
    | cons d m =>
      unfold pathCompareLoop
      by_cases hd : c = d
      · subst hd
        simp only [ne_eq, not_true_eq_false, if_false]
        rw [ih hn.2]
        simp [List.cons_beq_cons]
      · have : (d == c) = false := by simpa using fun h => hd h.symm
        simp [hd, List.cons_beq_cons, this]

theorem pathIndexLoop_digits (ds : Bytes) : ∀ (r count : Nat), (∀ c ∈ ds, IsDig c) → ds.length ≤ count → decFrom r ds < 18446744073709551616 →
    pathIndexLoop r count ds = (decFrom r ds, []) := by
  induction ds with
  | nil => intro r count _ _ _; cases count <;> rfl
  | cons c cs ih =>
    intro r count hd hl hv
    obtain ⟨n, rfl⟩ : ∃ n, count = n + 1 := ⟨count - 1, by simp only [List.length_cons] at hl; omega⟩
    have hc := hd c (by simp)
    have h1 : 48 ≤ c.toNat ∧ c.toNat ≤ 57 := ⟨hc.1, hc.2⟩
    have hge : r * 10 + (c.toNat - 48) ≤ decFrom r (c :: cs) := by
      rw [decFrom_cons, decFrom_eq]
      have h4 := Nat.le_mul_of_pos_right (10 * r + digVal c) (Nat.pow_pos (by decide) : 0 < 10 ^ cs.length)
      simp only [digVal] at h4 ⊢
      omega
    have hstep : (18446744073709551568 + (r * 10 % 18446744073709551616) + c.toNat) % 18446744073709551616 = 10 * r + digVal c := by
      simp only [digVal]
      omega
    unfold pathIndexLoop
    rw [hstep, ih _ n (fun x hx => hd x (by simp [hx])) (by simpa using hl)]
    · rfl
    · exact hv

theorem pathIndex_digits {ds : Bytes} (hd : IsDigits ds) (hl : ds.length ≤ 64) (hv : decVal ds < 2 ^ 64) :
    pathIndex ds = .ok (decVal ds) := by
  have h := pathIndexLoop_digits ds 0 64 hd.2 hl hv
  obtain ⟨c, cs, rfl⟩ := List.exists_cons_of_ne_nil hd.1
  have hc := hd.2 c (by simp)
  have h1 : c ≠ chMinus := by
    rintro rfl
    revert hc; unfold IsDig; decide
  unfold pathIndex
  simp only [deref, Res.ok_bind]
  rw [h]
  simp [ensure, h1]
  rfl

/-- The loop over the members. -/
theorem pathMembers_obj (hck : t.cfg.checked = true) {w k n : Bytes} (hw : IsWs w) (hn : chBslash ∉ n) :
    ∀ (ms : JMems), ms ≠ .nil → MOk false ms → (∀ m ∈ ms.names, PlainName m ∨ t.escNames = true) →
      (ms.get? n = none → pathMembers t (escName n) (objRest w k ms) = .ok none) ∧
      (∀ e, ms.get? n = some e → ∃ k', pathMembers t (escName n) (objRest w k ms) = .ok (some (e.text ++ k')) ∧ AfterValue k' ∧ k' ≠ [])
  | .nil, h, _, _ => absurd rfl h
  | .cons pre m pc qc d post tl, _, he, hN => by
    obtain ⟨hd, htl, hl⟩ := he.cons
    have hwf := he.wf
    simp only [JMems.WFt] at hwf
    have haf := objAfter_after (tl := tl) (k := k) hwf.2.2.2.2.2.1 (Or.inl hw : IsTail false w)
    have hne := objAfter_ne post tl w k
    have hpn := parseName_ck (t := t) (k := objAfter post tl w k) hwf.2.1 hl (hN m (by simp [JMems_names_cons])) hwf.2.2.1 hwf.2.2.2.1
      hd.wf
    obtain ⟨r, b, hs, hb, -⟩ := skipValue_stored (cfg := t.cfg) hd.wf hd.depth hd.size haf (objAfter_nonsp _ _ _ _)
    have hE : objRest w k (.cons pre m pc qc d post tl) =
        0x22 :: (m ++ 0x22 :: (pc ++ 0x3A :: (qc ++ (d.text ++ objAfter post tl w k)))) := rfl
    rw [hE, JMems_get?_cons]
    by_cases hm : n = m
    · subst hm
      refine ⟨fun h => by simp at h, fun e he' => ⟨objAfter post tl w k, ?_, haf, hne⟩⟩
      simp only [if_true, Option.some.injEq] at he'
      subst he'
      unfold pathMembers
      simp [hpn, pathCompare_name hn]
    · have hmb : (m == n) = false := by simpa using fun h => hm h.symm
      rw [if_neg hm]
      have hrun : pathMembers t (escName n) (0x22 :: (m ++ 0x22 :: (pc ++ 0x3A :: (qc ++ (d.text ++ objAfter post tl w k))))) =
          if headIs (· == chQuote) (objRest w k tl) = false then .ok none else pathMembers t (escName n) (objRest w k tl) := by
        conv => lhs; unfold pathMembers
        simp only [hpn, Res.ok_bind, pathCompare_name hn, hmb, Bool.false_eq_true, if_false, hs, moveNext_ck hck]
        rw [moveNextChecked_trimEq hb, moveNext_obj hwf.2.2.2.2.2.1 hwf.2.2.2.2.2.2 (Or.inl hw)]
        have hlen : (objRest w k tl).length < (0x22 :: (m ++ 0x22 :: (pc ++ 0x3A :: (qc ++ (d.text ++ objAfter post tl w k))))).length := by
          have := objRest_length w k post tl
          have := text_length_pos hd.wf
          simp only [List.length_append, List.length_cons]
          omega
        simp only [dif_pos hlen]
      rw [hrun]
      cases tl with
      | nil =>
        refine ⟨fun _ => ?_, fun e he' => by simp [JMems.get?, JMems.toList] at he'⟩
        simp [objRest, headIs]
      | cons pre' m' pc' qc' d' post' tl' =>
        rw [if_neg (by simp [objRest, headIs])]
        exact pathMembers_obj hck hw hn _ (by simp) htl (fun x hx => hN x (by simp [JMems_names_cons] at hx ⊢; exact Or.inr hx))

/-- The loop over the elements. -/
theorem pathElems_arr (hck : t.cfg.checked = true) {w k : Bytes} (hw : IsWs w) :
    ∀ (es : JElems) (n : Nat), EOk false es →
      (es ≠ .nil → es.toList.length < n → pathElems t n (arrRest w k es) = .ok none) ∧
      (∀ e, es.toList[n]? = some e → ∃ k', pathElems t n (arrRest w k es) = .ok (some (e.text ++ k')) ∧ AfterValue k' ∧ k' ≠ [])
  | .nil, n, _ => ⟨fun h => absurd rfl h, fun e he => by simp [JElems.toList] at he⟩
  | .cons pre d post tl, 0, he => by
    have hwf := he.wf
    simp only [JElems.WFt] at hwf
    refine ⟨fun _ h => by simp at h, fun e h => ?_⟩
    simp only [JElems.toList, List.getElem?_cons_zero, Option.some.injEq] at h
    subst h
    exact ⟨_, rfl, arrAfter_after (tl := tl) (k := k) hwf.2.2.1 (Or.inl hw : IsTail false w), arrAfter_ne post tl w k⟩
  | .cons pre d post tl, n + 1, he => by
    obtain ⟨hd, htl⟩ := he.cons
    have hwf := he.wf
    simp only [JElems.WFt] at hwf
    have haf := arrAfter_after (tl := tl) (k := k) hwf.2.2.1 (Or.inl hw : IsTail false w)
    have hne := arrAfter_ne post tl w k
    obtain ⟨r, b, hs, hb, -⟩ := skipValue_stored (cfg := t.cfg) hd.wf hd.depth hd.size haf (arrAfter_nonsp _ _ _ _)
    have hE : arrRest w k (.cons pre d post tl) = d.text ++ arrAfter post tl w k := rfl
    have htb : trimChecked b = trimChecked (arrAfter post tl w k) := trimChecked_trimEq hb
    have hmn : moveNextChecked (trimChecked (arrAfter post tl w k)) = arrRest w k tl := by
      rw [moveNextChecked_trimEq (trimEq_trimChecked _), moveNext_arr hwf.2.2.1 hwf.2.2.2 (Or.inl hw)]
    have hrun : pathElems t (n + 1) (d.text ++ arrAfter post tl w k) =
        if 0 < n ∧ headIs (· != chComma) (trimChecked (arrAfter post tl w k)) = true then .ok none else pathElems t n (arrRest w k tl) := by
      conv => lhs; unfold pathElems
      simp only [hs, Res.ok_bind, htb, moveNext_ck hck, hmn]
    rw [hE, hrun]
    cases tl with
    | nil =>
      refine ⟨fun _ h => ?_, fun e h => by simp [JElems.toList] at h⟩
      have hn : 0 < n := by simp [JElems.toList] at h; omega
      rw [if_pos]
      refine ⟨hn, ?_⟩
      simp only [arrAfter, JElems.text, List.nil_append]
      rw [trimChecked_ws _ _ hwf.2.2.1, trimChecked_ws _ _ hw, trimChecked_cons_of_not _ (by decide)]
      simp [headIs]
    | cons pre' d' post' tl' =>
      obtain ⟨ih1, ih2⟩ := pathElems_arr hck hw (k := k) (.cons pre' d' post' tl') n htl
      have hcomma : headIs (· != chComma) (trimChecked (arrAfter post (.cons pre' d' post' tl') w k)) = false := by
        simp only [arrAfter, JElems.text, List.cons_append]
        rw [trimChecked_ws _ _ hwf.2.2.1, trimChecked_cons_of_not _ (by decide)]
        simp [headIs]
      rw [if_neg (by simp [hcomma])]
      refine ⟨fun _ h => ih1 (by simp) (by simp [JElems.toList] at h ⊢; omega), fun e h => ih2 e ?_⟩
      simpa [JElems.toList] using h

theorem trimUnchecked_tail {b : Bytes} {c : UInt8} {cs : Bytes} (h : trimChecked b = c :: cs) : trimUnchecked b = .ok (c :: cs) :=
  trimUnchecked_of_checked h

theorem arr_tail {w k : Bytes} {es : JElems} (hw : IsWs w) (hwf : es.WFt false) :
    ∃ c, (JVal.arr w es).text ++ k = chLBrack :: c ∧ trimUnchecked c = .ok (arrRest w k es) := by
  match es with
  | .nil =>
    refine ⟨w ++ chRBrack :: k, by simp [JVal.text], ?_⟩
    rw [trimUnchecked_ws _ _ hw, trimUnchecked_cons_of_not _ (by decide)]
    rfl
  | .cons pre v post tl =>
    simp only [JElems.WFt] at hwf
    refine ⟨_, arr_text .., ?_⟩
    obtain ⟨x, r, hx, hsp⟩ : ∃ x r, v.text ++ arrAfter post tl w k = x :: r ∧ isSpace x = false := by
      have h := trimChecked_text v hwf.2.1 (k := arrAfter post tl w k)
      have hg := text_good hwf.2.1 chLBrack (arrAfter post tl w k)
      cases he : v.text ++ arrAfter post tl w k with
      | nil => rw [he] at hg; simp [JIter.good] at hg
      | cons x r =>
        refine ⟨x, r, rfl, ?_⟩
        rw [he] at h
        cases hs : isSpace x with
        | false => rfl
        | true =>
          unfold trimChecked at h
          simp only [hs, if_true] at h
          have h2 := (trimEq_trimChecked r)
          obtain ⟨u, -, hu⟩ := h2
          have := congrArg List.length h
          have h3 := congrArg List.length hu
          simp at this h3
          omega
    rw [trimUnchecked_ws _ _ hwf.1]
    show trimUnchecked (v.text ++ arrAfter post tl w k) = .ok (v.text ++ arrAfter post tl w k)
    rw [hx, trimUnchecked_cons_of_not _ hsp]

theorem obj_tail {w k : Bytes} {ms : JMems} (hw : IsWs w) (hwf : ms.WFt false) :
    ∃ c, (JVal.obj w ms).text ++ k = chLBrace :: c ∧ trimUnchecked c = .ok (objRest w k ms) := by
  match ms with
  | .nil =>
    refine ⟨w ++ chRBrace :: k, by simp [JVal.text], ?_⟩
    rw [trimUnchecked_ws _ _ hw, trimUnchecked_cons_of_not _ (by decide)]
    rfl
  | .cons pre n pc qc v post tl =>
    simp only [JMems.WFt] at hwf
    refine ⟨_, obj_text .., ?_⟩
    rw [trimUnchecked_ws _ _ hwf.1]
    simp only [objRest]
    rw [trimUnchecked_cons_of_not _ (by decide)]

theorem stepArr_ok {esc : Bool} {d e : JVal} {s : Step} (hd : DOk false d) (hn : d.NamesOk esc) (h : d.stepArr s = some e) :
    DOk false e ∧ e.NamesOk esc := by
  refine DOk_get (s := s) hd hn ?_
  match s, d with
  | .name n, .obj w ms => exact h
  | .index ds, .arr w es => simpa [JVal.step, JVal.items, JVal.stepArr] using h
  | .name _, .null | .name _, .tru | .name _, .fls | .name _, .num _ | .name _, .str _ | .name _, .arr .. => simp [JVal.stepArr] at h
  | .index _, .null | .index _, .tru | .index _, .fls | .index _, .num _ | .index _, .str _ | .index _, .obj .. => simp [JVal.stepArr] at h

/-- The delimiter after a component and the component, as `find_range2` sees them. -/
def seg (s : Step) (r : Bytes) : Bytes × Option UInt8 :=
  match s with
  | .name n => (escName n, r.head?)
  | .index ds => (ds, some chRBrack)

/-- One component found. -/
theorem pathStep_found (hck : t.cfg.checked = true) {d e : JVal} {s : Step} (hd : DOk false d) (hn : d.NamesOk t.escNames)
    (hs : s.Ok) (hsh : s.Short) (h : d.stepArr s = some e) (k r : Bytes) (hr : NameEnd r) :
    ∃ k', pathStep t (seg s r).1 (seg s r).2 (d.text ++ k) = .ok (some (e.text ++ k')) ∧ AfterValue k' ∧ k' ≠ [] := by
  match s, d with
  | .name n, .obj w ms =>
    have hwf := hd.wf
    simp only [JVal.WFt] at hwf
    have hw : IsWs w := by rcases hwf.1 with h | h; exact h; simp at h
    obtain ⟨c, hc, htr⟩ := obj_tail (k := k) hw hwf.2
    have hne : ms ≠ .nil := by
      rintro rfl
      simp [JVal.stepArr, JMems.get?, JMems.toList] at h
    obtain ⟨k', h1, h2⟩ := (pathMembers_obj (k := k) hck hw hs.2 ms hne hd.mems
      (names_of_allNames (by simpa [JVal.NamesOk, JVal.allNames] using hn))).2 e h
    refine ⟨k', ?_, h2⟩
    have hf : ¬ (seg (.name n) r).2 = some chRBrack := by
      rcases hr with rfl | ⟨x, xs, rfl, hx⟩
      · simp [seg]
      · rcases hx with rfl | rfl <;> simp [seg]
    unfold pathStep
    rw [if_neg hf, hc]
    simp [whenChecked, hck, ensure, headIs, htr, h1, seg]
  | .index ds, .arr w es =>
    have hwf := hd.wf
    simp only [JVal.WFt] at hwf
    have hw : IsWs w := by rcases hwf.1 with h | h; exact h; simp at h
    obtain ⟨c, hc, htr⟩ := arr_tail (k := k) hw hwf.2
    obtain ⟨k', h1, h2⟩ := (pathElems_arr (k := k) hck hw es (decVal ds) hd.elems).2 e h
    refine ⟨k', ?_, h2⟩
    unfold pathStep
    rw [if_pos (show (seg (.index ds) r).2 = some chRBrack from rfl), hc]
    simp [whenChecked, hck, ensure, headIs, htr, h1, seg, pathIndex_digits hs.1 hsh hs.2]
  | .name _, .null | .name _, .tru | .name _, .fls | .name _, .num _ | .name _, .str _ | .name _, .arr .. => simp [JVal.stepArr] at h
  | .index _, .null | .index _, .tru | .index _, .fls | .index _, .num _ | .index _, .str _ | .index _, .obj .. => simp [JVal.stepArr] at h

/-- The value has members or elements, and the component is not one of them. -/
def MissingArr (d : JVal) : Step → Prop
  | .name n => ∃ w ms, d = .obj w ms ∧ ms ≠ .nil ∧ ms.get? n = none
  | .index ds => ∃ w es, d = .arr w es ∧ es ≠ .nil ∧ es.toList.length < decVal ds

/-- One component missing. -/
theorem pathStep_missing (hck : t.cfg.checked = true) {d : JVal} {s : Step} (hd : DOk false d) (hn : d.NamesOk t.escNames)
    (hs : s.Ok) (hsh : s.Short) (h : MissingArr d s) (k r : Bytes) (hr : NameEnd r) :
    pathStep t (seg s r).1 (seg s r).2 (d.text ++ k) = .ok none := by
  cases s with
  | name n =>
    obtain ⟨w, ms, rfl, hne, hg⟩ := h
    have hwf := hd.wf
    simp only [JVal.WFt] at hwf
    have hw : IsWs w := by rcases hwf.1 with h | h; exact h; simp at h
    obtain ⟨c, hc, htr⟩ := obj_tail (k := k) hw hwf.2
    have h1 := (pathMembers_obj (k := k) hck hw hs.2 ms hne hd.mems
      (names_of_allNames (by simpa [JVal.NamesOk, JVal.allNames] using hn))).1 hg
    have hf : ¬ (seg (.name n) r).2 = some chRBrack := by
      rcases hr with rfl | ⟨x, xs, rfl, hx⟩
      · simp [seg]
      · rcases hx with rfl | rfl <;> simp [seg]
    unfold pathStep
    rw [if_neg hf, hc]
    simp [whenChecked, hck, ensure, headIs, htr, h1, seg]
  | index ds =>
    obtain ⟨w, es, rfl, hne, hlt⟩ := h
    have hwf := hd.wf
    simp only [JVal.WFt] at hwf
    have hw : IsWs w := by rcases hwf.1 with h | h; exact h; simp at h
    obtain ⟨c, hc, htr⟩ := arr_tail (k := k) hw hwf.2
    have h1 := (pathElems_arr (k := k) hck hw es (decVal ds) hd.elems).1 hne hlt
    unfold pathStep
    rw [if_pos (show (seg (.index ds) r).2 = some chRBrack from rfl), hc]
    simp [whenChecked, hck, ensure, headIs, htr, h1, seg, pathIndex_digits hs.1 hsh hs.2]

/-- The text of the rest of the path as it is when `find_range2` gets there: after a name the delimiter is gone. -/
def restText : List Step → Bytes
  | [] => []
  | .name n :: ss => escName n ++ pathTail ss
  | .index ds :: ss => ds ++ chRBrack :: pathTail ss

theorem restText_eq (ss : List Step) : restText ss = (pathTail ss).tail := by
  match ss with
  | [] => rfl
  | .name n :: ss => rfl
  | .index ds :: ss => rfl

theorem dropDot_not {c : UInt8} {cs : Bytes} (h : c ≠ chDot) : dropDot (c :: cs) = c :: cs := by simp [dropDot, headIs, h]

theorem popPathItem_digits {ds r : Bytes} (hd : ∀ c ∈ ds, IsDig c) : popPathItem (ds ++ chRBrack :: r) = (ds, chRBrack :: r) := by
  induction ds with
  | nil => unfold popPathItem; simp
  | cons c cs ih =>
    have hc := hd c (by simp)
    have h1 : c ≠ chBslash ∧ c ≠ chDot ∧ c ≠ chLBrack ∧ c ≠ chRBrack := by
      refine ⟨?_, ?_, ?_, ?_⟩ <;> (rintro rfl; revert hc; unfold IsDig; decide)
    simp only [List.cons_append]
    unfold popPathItem
    rw [if_neg h1.1, if_neg (by simp [h1]), ih (fun x hx => hd x (by simp [hx]))]

theorem popJsonPath_name {n r : Bytes} (hn : (Step.name n).Ok) (hr : NameEnd r) :
    popJsonPath (escName n ++ r) = (escName n, r.head?, r.tail) ∧
    popJsonPath (chDot :: (escName n ++ r)) = (escName n, r.head?, r.tail) := by
  obtain ⟨c, cs, h1, h2, -⟩ := escName_head hn.1
  have hd : dropDot (escName n ++ r) = escName n ++ r := by rw [h1]; exact dropDot_not h2
  have hd2 : dropDot (chDot :: (escName n ++ r)) = escName n ++ r := by simp [dropDot, headIs]
  exact ⟨by simp only [popJsonPath, hd, popPathItem_name hn.2 hr], by simp only [popJsonPath, hd2, popPathItem_name hn.2 hr]⟩

theorem popJsonPath_index {ds r : Bytes} (hd : IsDigits ds) : popJsonPath (ds ++ chRBrack :: r) = (ds, some chRBrack, r) := by
  have hdd : dropDot (ds ++ chRBrack :: r) = ds ++ chRBrack :: r := by
    obtain ⟨c, cs, rfl⟩ := List.exists_cons_of_ne_nil hd.1
    refine dropDot_not ?_
    rintro rfl
    have := hd.2 chDot (by simp)
    revert this; unfold IsDig; decide
  simp [popJsonPath, hdd, popPathItem_digits hd.2]

/-- The path after a component has been taken off. -/
def nextText (s : Step) (ss : List Step) : Bytes :=
  match s with
  | .name _ => restText ss
  | .index _ => pathTail ss

/-- One step of the loop. -/
theorem findRange2_cons {s : Step} {ss : List Step} (hs : s.Ok) (b : Bytes) :
    findRange2 t (restText (s :: ss)) b =
      (pathStep t (seg s (pathTail ss)).1 (seg s (pathTail ss)).2 b >>= fun r =>
        match r with
        | none => .ok none
        | some b => findRange2 t (nextText s ss) b) := by
  cases s with
  | name n =>
    have h := (popJsonPath_name hs (pathTail_end ss)).1
    obtain ⟨c, cs, h1, -⟩ := escName_head hs.1
    have hne : ¬ escName n = [] := by rw [h1]; simp
    have hE : restText (.name n :: ss) = escName n ++ pathTail ss := rfl
    have hN : nextText (.name n) ss = (pathTail ss).tail := restText_eq ss
    rw [hE, hN]
    conv => lhs; unfold findRange2
    rw [dif_neg (by rw [h]; exact hne)]
    rw [h]
    rfl
  | index ds =>
    have h := popJsonPath_index (r := pathTail ss) hs.1
    have hE : restText (.index ds :: ss) = ds ++ chRBrack :: pathTail ss := rfl
    rw [hE]
    conv => lhs; unfold findRange2
    rw [dif_neg (by rw [h]; exact hs.1.1)]
    rw [h]
    rfl

/-- After an index a name follows, with its dot. -/
theorem findRange2_tail {ss : List Step} (hss : ∀ s ∈ ss, s.Ok) (hd : DottedPath ss) (b : Bytes) :
    findRange2 t (pathTail ss) b = findRange2 t (restText ss) b := by
  match ss with
  | [] => rfl
  | .index ds :: ss => simp [DottedPath] at hd
  | .name n :: ss =>
    have hn : (Step.name n).Ok := hss _ (by simp)
    have h := popJsonPath_name hn (pathTail_end ss)
    have he : popJsonPath (pathTail (.name n :: ss)) = popJsonPath (restText (.name n :: ss)) := by
      simp only [pathTail, restText]
      rw [h.1, h.2]
    unfold findRange2
    rw [he]

theorem findRange2_nil (b : Bytes) : findRange2 t [] b = .ok (some b) := by
  unfold findRange2
  rw [dif_pos (by simp [popJsonPath, dropDot, headIs, popPathItem])]

/-- A path that may come after a name. -/
def AfterName : List Step → Prop
  | .index _ :: ss => DottedPath ss
  | ss => DottedPath ss

theorem dotted_name {n : Bytes} {ss : List Step} (h : DottedPath (.name n :: ss)) : AfterName ss := by
  match ss with
  | [] => trivial
  | .index _ :: ss => exact h
  | .name _ :: ss => exact h

theorem afterName_of {ss : List Step} (h : DottedPath ss) : AfterName ss := by
  match ss with
  | [] => trivial
  | .index _ :: ss => simp [DottedPath] at h
  | .name _ :: ss => exact h

/-- After a component, the loop is at the rest of the path. -/
theorem findRange2_rest {s : Step} {ss : List Step} (hss : ∀ s' ∈ ss, s'.Ok) (hd : AfterName (s :: ss)) (b : Bytes) :
    AfterName ss ∧ findRange2 t (nextText s ss) b = findRange2 t (restText ss) b := by
  cases s with
  | name n => exact ⟨dotted_name hd, rfl⟩
  | index ds => exact ⟨afterName_of hd, findRange2_tail hss hd b⟩

theorem findRange2_follow (hck : t.cfg.checked = true) (ss : List Step) (hss : ∀ s ∈ ss, s.Ok ∧ s.Short) (hp : AfterName ss)
    {d e : JVal} (hd : DOk false d) (hn : d.NamesOk t.escNames) (k : Bytes) (hk : AfterValue k) (h : d.followArr ss = some e) :
    ∃ k', findRange2 t (restText ss) (d.text ++ k) = .ok (some (e.text ++ k')) ∧ AfterValue k' := by
  induction ss generalizing d k with
  | nil =>
    simp only [JVal.followArr, Option.some.injEq] at h
    subst h
    exact ⟨k, findRange2_nil _, hk⟩
  | cons s ss ih =>
    simp only [JVal.followArr] at h
    cases hs : d.stepArr s with
    | none => simp [hs] at h
    | some e' =>
      rw [hs] at h
      have hok := hss s (by simp)
      have hss' : ∀ s' ∈ ss, s'.Ok ∧ s'.Short := fun s' h' => hss s' (by simp [h'])
      obtain ⟨k', h1, h2, -⟩ := pathStep_found hck hd hn hok.1 hok.2 hs k _ (pathTail_end ss)
      obtain ⟨hd', hn'⟩ := stepArr_ok hd hn hs
      obtain ⟨ha, hr⟩ := findRange2_rest (t := t) (fun s' h' => (hss' s' h').1) hp (e'.text ++ k')
      rw [findRange2_cons hok.1, h1]
      simp only [Res.ok_bind, hr]
      exact ih hss' ha hd' hn' k' h2 h

theorem findRange2_missing (hck : t.cfg.checked = true) (pre : List Step) (s : Step) (post : List Step)
    (hss : ∀ s' ∈ pre ++ s :: post, s'.Ok ∧ s'.Short) (hp : AfterName (pre ++ s :: post))
    {d e : JVal} (hd : DOk false d) (hn : d.NamesOk t.escNames) (k : Bytes) (h : d.followArr pre = some e) (hm : MissingArr e s) :
    findRange2 t (restText (pre ++ s :: post)) (d.text ++ k) = .ok none := by
  induction pre generalizing d k with
  | nil =>
    simp only [JVal.followArr, Option.some.injEq] at h
    subst h
    have hok := hss s (by simp)
    rw [List.nil_append, findRange2_cons hok.1, pathStep_missing hck hd hn hok.1 hok.2 hm k _ (pathTail_end post)]
    rfl
  | cons s' pre ih =>
    simp only [JVal.followArr] at h
    cases hs : d.stepArr s' with
    | none => simp [hs] at h
    | some e' =>
      rw [hs] at h
      have hok := hss s' (by simp)
      have hss' : ∀ s'' ∈ pre ++ s :: post, s''.Ok ∧ s''.Short := fun s'' h' => hss s'' (List.mem_cons_of_mem _ h')
      obtain ⟨k', h1, h2, -⟩ := pathStep_found hck hd hn hok.1 hok.2 hs k _ (pathTail_end (pre ++ s :: post))
      obtain ⟨hd', hn'⟩ := stepArr_ok hd hn hs
      obtain ⟨ha, hr⟩ := findRange2_rest (t := t) (fun s'' h' => (hss' s'' h').1) hp (e'.text ++ k')
      rw [List.cons_append, findRange2_cons hok.1, h1]
      simp only [Res.ok_bind, hr]
      exact ih hss' ha hd' hn' k' h

theorem restText_dotted {ss : List Step} (h : DottedPath ss) : restText ss = pathText ss := by
  match ss with
  | [] => rfl
  | .index _ :: ss => simp [DottedPath] at h
  | .name n :: ss => rfl

end Verif
