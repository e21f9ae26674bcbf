import Verif.Proof.ZeroTermInt

/-!
# Zero terminated documents: arrays, maps, tuples and ordered classes
-/

namespace Verif

open Spec

/-- What may follow a value: something must, if it is a literal that may be a string and is none. -/
def FollowsZ (d : JVal) (v : Val) (k : Nat) (q : Bytes) : Prop :=
  AfterValue q ∧ (v.bareLit = true → d.closed = false → k < q.length)

/-- `p` reads `d` as `v`, whatever follows, as long as `last` is not inside of the value. -/
def SemUZ (p : Nat → Bytes → Res (Val × Bytes)) (d : JVal) (v : Val) : Prop :=
  ∀ k q, k ≤ q.length → (d.ends v = false → FollowsZ d v k q) → ∃ r, p k (d.text ++ q) = .ok (v, r) ∧ TrimEq r q

/-- `p` reads `d` as `v` from a stored range. -/
def SemKZ (p : ZRange → Res Val) (d : JVal) (v : Val) : Prop := ∀ r, StoredZ d r → p r = .ok v

/-- The elements are read as the values. -/
def ElemsSemZ (p : Nat → Bytes → Res (Val × Bytes)) : JElems → List Val → Prop
  | .nil, [] => True
  | .cons _ d _ tl, v :: vs => SemUZ p d v ∧ ElemsSemZ p tl vs
  | _, _ => False

/-- The members are read as the pairs. -/
def PairsSemZ (p : Nat → Bytes → Res (Val × Bytes)) : JMems → List (Bytes × Val) → Prop
  | .nil, [] => True
  | .cons _ n _ _ d _ tl, (k, v) :: kvs => Unesc n k ∧ n.length < 2 ^ 63 ∧ SemUZ p d v ∧ PairsSemZ p tl kvs
  | _, _ => False

/-! ## Lengths -/

theorem arrRest_gt (w q : Bytes) (tl : JElems) : q.length < (arrRest w q tl).length := by
  match tl with
  | .nil => simp [arrRest]
  | .cons .. => simp [arrRest, arrAfter]; omega

theorem objRest_gt (w q : Bytes) (tl : JMems) : q.length < (objRest w q tl).length := by
  match tl with
  | .nil => simp [objRest]
  | .cons .. => simp [objRest, objAfter]; omega

theorem arrAfter_gt (post : Bytes) (tl : JElems) (w q : Bytes) : q.length < (arrAfter post tl w q).length := by
  simp [arrAfter]; omega

theorem objAfter_gt (post : Bytes) (tl : JMems) (w q : Bytes) : q.length < (objAfter post tl w q).length := by
  simp [objAfter]; omega

theorem moveNext_le (b : Bytes) : (moveNextChecked b).length ≤ b.length := (moveNextChecked_suffix b).length_le

theorem text_front {tc : Bool} {d : JVal} (hd : d.WFt tc) (q : Bytes) : frontZ (d.text ++ q) ≠ chRBrack := by
  obtain ⟨c, cs, h, -, h2, -⟩ := text_head d hd
  have hf : frontZ (d.text ++ q) = c := by rw [h]; rfl
  rw [hf]
  rintro rfl
  simp [isTokenAfterValue] at h2

/-! ## Arrays -/

theorem arrLoopZ_sem {p : Nat → Bytes → Res (Val × Bytes)} {tc : Bool} {w q : Bytes} {k : Nat} (hk : k ≤ q.length)
    (hw : IsTail tc w) :
    ∀ (tl : JElems) (pre : Bytes) (d : JVal) (post : Bytes) (v : Val) (vs : List Val),
      (JElems.cons pre d post tl).WFt tc → ElemsSemZ p (.cons pre d post tl) (v :: vs) →
      ∃ r, arrLoopZ p k (d.text ++ arrAfter post tl w q) = .ok (v :: vs, r) ∧ TrimEq r q
  | tl, pre, d, post, v, vs, hwf, hs => by
    obtain ⟨-, hd, hpost, htl⟩ := (by simpa only [JElems.WFt] using hwf : IsWs pre ∧ d.WFt tc ∧ IsWs post ∧ tl.WFt tc)
    obtain ⟨hs1, hs2⟩ := (by simpa only [ElemsSemZ] using hs : SemUZ p d v ∧ ElemsSemZ p tl vs)
    have hka : k < (arrAfter post tl w q).length := Nat.lt_of_le_of_lt hk (arrAfter_gt _ _ _ _)
    obtain ⟨r, hr, htr⟩ := hs1 k _ (Nat.le_of_lt hka) (fun _ => ⟨arrAfter_after (tl := tl) (k := q) hpost hw, fun _ _ => hka⟩)
    obtain ⟨c, cs, hc, hcc⟩ := arrAfter_trim (tl := tl) (k := q) hpost hw
    have hm1 : moreZ k (d.text ++ arrAfter post tl w q) = true := by
      apply moreZ_of_lt; rw [List.length_append]; omega
    have htrim : trimChecked r = c :: cs := by rw [trimChecked_trimEq htr, hc]
    have hmv : moveNextChecked (c :: cs) = arrRest w q tl := by
      rw [← hc, moveNextChecked_trim, moveNext_arr hpost htl hw]
    have hgt := arrRest_gt w q tl
    have hm2 : moreZ k (c :: cs) = true := by
      apply moreZ_of_lt
      have := moveNext_le (c :: cs)
      rw [hmv] at this
      omega
    have hm3 : moreZ k (arrRest w q tl) = true := moreZ_of_lt (by omega)
    have hh : (frontZ (c :: cs) == chComma || frontZ (c :: cs) == chRBrack) = true := by
      rcases hcc with rfl | rfl <;> rfl
    rw [arrLoopZ.eq_def]
    simp only [hm1, ensure_true, Res.ok_bind, hr, htrim, hm2, hh, Bool.and_self, hmv, hm3]
    match tl, vs, hs2 with
    | .nil, [], _ =>
      rw [if_pos (show frontZ (arrRest w q .nil) = chRBrack from rfl)]
      exact ⟨_, rfl, trimChecked_te (TrimEq.refl q)⟩
    | .cons pre' d' post' tl', v' :: vs', hs2 =>
      have hd' : d'.WFt tc := by simp only [JElems.WFt] at htl; exact htl.2.1
      have hx : ¬ frontZ (arrRest w q (.cons pre' d' post' tl')) = chRBrack := text_front hd' _
      have hl := arrRest_length w q post (.cons pre' d' post' tl')
      have hp := text_length_pos hd
      obtain ⟨r', hr', ht'⟩ := arrLoopZ_sem hk hw tl' pre' d' post' v' vs' htl hs2
      have hlt : (arrRest w q (.cons pre' d' post' tl')).length
          < (d.text ++ arrAfter post (.cons pre' d' post' tl') w q).length := by
        rw [List.length_append]; omega
      rw [if_neg hx, dif_pos hlt]
      have : arrLoopZ p k (arrRest w q (.cons pre' d' post' tl')) = .ok (v' :: vs', r') := hr'
      rw [this]
      exact ⟨r', rfl, ht'⟩
    | .nil, _ :: _, h => simp [ElemsSemZ] at h
    | .cons .., [], h => simp [ElemsSemZ] at h

/-- Arrays. -/
theorem parseArrZ_sem {p : Nat → Bytes → Res (Val × Bytes)} {tc : Bool} {w : Bytes}
    {es : JElems} {vs : List Val} (hwf : (JVal.arr w es).WFt tc) (he : es = .nil → IsWs w)
    (hs : ElemsSemZ p es vs) :
    SemUZ (parseArrZ p) (.arr w es) (.arr vs) := by
  intro k q hk _
  simp only [JVal.WFt] at hwf
  unfold parseArrZ
  match es, vs, hs with
  | .nil, [], _ =>
    have hw := he rfl
    have h1 : trimChecked ((JVal.arr w .nil).text ++ q) = chLBrack :: (w ++ chRBrack :: q) := by
      simp only [JVal.text, List.cons_append, List.append_assoc, List.nil_append]
      exact trimChecked_cons_of_not _ (by decide)
    have h2 : trimChecked (w ++ chRBrack :: q) = chRBrack :: q := by
      rw [trimChecked_ws _ _ hw, trimChecked_cons_of_not _ (by decide)]
    have h3 : atZ chLBrack k (chLBrack :: (w ++ chRBrack :: q)) = true :=
      atZ_cons (by rw [List.length_append, List.length_cons]; omega)
    simp only [h1, h3, ensure_true, Res.ok_bind, List.tail_cons, h2]
    rw [if_pos (show frontZ (chRBrack :: q) = chRBrack from rfl)]
    exact ⟨_, rfl, trimChecked_te (TrimEq.refl q)⟩
  | .cons pre d post tl, v :: vs, hs =>
    have htl := hwf.2
    simp only [JElems.WFt] at htl
    rw [arr_text]
    have h1 : trimChecked (chLBrack :: (pre ++ (d.text ++ arrAfter post tl w q)))
        = chLBrack :: (pre ++ (d.text ++ arrAfter post tl w q)) := trimChecked_cons_of_not _ (by decide)
    have h2 : trimChecked (pre ++ (d.text ++ arrAfter post tl w q)) = d.text ++ arrAfter post tl w q := by
      rw [trimChecked_ws _ _ htl.1, trimChecked_text d htl.2.1]
    have hgt := arrAfter_gt post tl w q
    have h3 : atZ chLBrack k (chLBrack :: (pre ++ (d.text ++ arrAfter post tl w q))) = true :=
      atZ_cons (by simp only [List.length_append]; omega)
    obtain ⟨r, hr, ht⟩ := arrLoopZ_sem hk hwf.1 tl pre d post v vs hwf.2 hs
    simp only [h1, h3, ensure_true, Res.ok_bind, List.tail_cons, h2]
    rw [if_neg (text_front htl.2.1 _), hr]
    exact ⟨r, rfl, ht⟩
  | .nil, _ :: _, h => simp [ElemsSemZ] at h
  | .cons .., [], h => simp [ElemsSemZ] at h

/-! ## Maps -/

theorem trimEndOfNameZ_ok {pc qc s : Bytes} {k : Nat} (hk : k ≤ s.length) (hpc : IsWs pc) (hqc : IsWs qc) :
    trimEndOfNameZ k (pc ++ chColon :: (qc ++ s)) = .ok (trimChecked s) := by
  have h1 : trimChecked (pc ++ chColon :: (qc ++ s)) = chColon :: (qc ++ s) := by
    rw [trimChecked_ws _ _ hpc, trimChecked_cons_of_not _ (by decide)]
  have h2 : moreZ k (chColon :: (qc ++ s)) = true := moreZ_cons (by rw [List.length_append]; omega)
  unfold trimEndOfNameZ
  simp only [h1, h2, ensure_true, Res.ok_bind, frontZ_cons, beq_self_eq_true, List.tail_cons]
  rw [trimChecked_ws _ _ hqc]

theorem mapLoopZ_sem {cfg : Cfg} (hck : cfg.checked = true) {p : Nat → Bytes → Res (Val × Bytes)} {tc : Bool}
    {w q : Bytes} {k : Nat} (hk : k ≤ q.length) (hw : IsTail tc w) :
    ∀ (tl : JMems) (pre n pc qc : Bytes) (d : JVal) (post : Bytes) (kv : Bytes × Val) (kvs : List (Bytes × Val)),
      (JMems.cons pre n pc qc d post tl).WFt tc → PairsSemZ p (.cons pre n pc qc d post tl) (kv :: kvs) →
      ∃ r, mapLoopZ cfg p k (objRest w q (.cons pre n pc qc d post tl)) = .ok (kv :: kvs, r) ∧ TrimEq r q
  | tl, pre, n, pc, qc, d, post, (ky, v), kvs, hwf, hs => by
    obtain ⟨-, hn, hpc, hqc, hd, hpost, htl⟩ := (by simpa only [JMems.WFt] using hwf :
      IsWs pre ∧ IsStrBody n ∧ IsWs pc ∧ IsWs qc ∧ d.WFt tc ∧ IsWs post ∧ tl.WFt tc)
    obtain ⟨hs0, hsl, hs1, hs2⟩ := (by simpa only [PairsSemZ] using hs :
      Unesc n ky ∧ n.length < 2 ^ 63 ∧ SemUZ p d v ∧ PairsSemZ p tl kvs)
    have hka : k < (objAfter post tl w q).length := Nat.lt_of_le_of_lt hk (objAfter_gt _ _ _ _)
    obtain ⟨r, hr, htr⟩ := hs1 k _ (Nat.le_of_lt hka) (fun _ => ⟨objAfter_after (tl := tl) (k := q) hpost hw, fun _ _ => hka⟩)
    have hstr := parseStrZ_body cfg hck true hs0 hsl (k := k)
      (c := pc ++ chColon :: (qc ++ (d.text ++ objAfter post tl w q)))
      (by simp only [List.length_append, List.length_cons]; omega)
    have hmv : moveNextChecked r = objRest w q tl := by
      rw [moveNextChecked_trimEq htr, moveNext_obj hpost htl hw]
    have hnm := trimEndOfNameZ_ok (s := d.text ++ objAfter post tl w q) (k := k)
      (by rw [List.length_append]; omega) hpc hqc
    rw [trimChecked_text d hd] at hnm
    have hm1 : moreZ k (objRest w q (.cons pre n pc qc d post tl)) = true :=
      moreZ_of_lt (Nat.lt_of_le_of_lt hk (objRest_gt _ _ _))
    have hm2 : moreZ k (objRest w q tl) = true := moreZ_of_lt (Nat.lt_of_le_of_lt hk (objRest_gt _ _ _))
    rw [mapLoopZ.eq_def, hm1]
    have hob : objRest w q (.cons pre n pc qc d post tl)
        = chQuote :: (n ++ chQuote :: (pc ++ chColon :: (qc ++ (d.text ++ objAfter post tl w q)))) := rfl
    rw [hob]
    simp only [ensure_true, Res.ok_bind, hstr, hnm, hr, hmv, hm2]
    match tl, kvs, hs2 with
    | .nil, [], _ =>
      rw [if_pos (show frontZ (objRest w q .nil) = chRBrace from rfl)]
      exact ⟨_, rfl, trimChecked_te (TrimEq.refl q)⟩
    | .cons pre' n' pc' qc' d' post' tl', kv' :: kvs', hs2 =>
      have hl := objRest_length w q post (.cons pre' n' pc' qc' d' post' tl')
      obtain ⟨r', hr', ht'⟩ := mapLoopZ_sem hck hk hw tl' pre' n' pc' qc' d' post' kv' kvs' htl hs2
      have hlt : (objRest w q (.cons pre' n' pc' qc' d' post' tl')).length
          < (chQuote :: (n ++ chQuote :: (pc ++ chColon :: (qc ++ (d.text ++
              objAfter post (.cons pre' n' pc' qc' d' post' tl') w q))))).length := by
        simp only [List.length_append, List.length_cons]; omega
      have hf : ¬ frontZ (objRest w q (.cons pre' n' pc' qc' d' post' tl')) = chRBrace :=
        (by decide : ¬ ((0x22 : UInt8) = 0x7D))
      rw [if_neg hf, dif_pos hlt, hr']
      exact ⟨r', rfl, ht'⟩
    | .nil, _ :: _, h => simp [PairsSemZ] at h
    | .cons .., [], h => simp [PairsSemZ] at h

/-- Maps. -/
theorem parseMapZ_sem {cfg : Cfg} (hck : cfg.checked = true) {p : Nat → Bytes → Res (Val × Bytes)} {tc : Bool}
    {w : Bytes} {ms : JMems} {kvs : List (Bytes × Val)} (hwf : (JVal.obj w ms).WFt tc) (he : ms = .nil → IsWs w)
    (hs : PairsSemZ p ms kvs) : SemUZ (parseMapZ cfg p) (.obj w ms) (.map kvs) := by
  intro k q hk _
  simp only [JVal.WFt] at hwf
  unfold parseMapZ
  match ms, kvs, hs with
  | .nil, [], _ =>
    have hw := he rfl
    have h1 : (JVal.obj w .nil).text ++ q = chLBrace :: (w ++ chRBrace :: q) := by simp [JVal.text]
    have h2 : trimChecked (w ++ chRBrace :: q) = chRBrace :: q := by
      rw [trimChecked_ws _ _ hw, trimChecked_cons_of_not _ (by decide)]
    have h3 : atZ chLBrace k (chLBrace :: (w ++ chRBrace :: q)) = true :=
      atZ_cons (by rw [List.length_append, List.length_cons]; omega)
    simp only [h1, h3, ensure_true, Res.ok_bind, List.tail_cons, h2, emptyZ_cons hk (show chRBrace ≠ 0 by decide),
      Bool.not_false]
    rw [if_pos (show frontZ (chRBrace :: q) = chRBrace from rfl)]
    exact ⟨_, rfl, trimChecked_te (TrimEq.refl q)⟩
  | .cons pre n pc qc d post tl, kv :: kvs, hs =>
    have htl := hwf.2
    simp only [JMems.WFt] at htl
    have h2 : trimChecked (pre ++ objRest w q (.cons pre n pc qc d post tl))
        = objRest w q (.cons pre n pc qc d post tl) := by
      rw [trimChecked_ws _ _ htl.1]
      exact trimChecked_cons_of_not _ (by decide)
    have hgt := objRest_gt w q (.cons pre n pc qc d post tl)
    have h3 : atZ chLBrace k (chLBrace :: (pre ++ objRest w q (.cons pre n pc qc d post tl))) = true :=
      atZ_cons (by rw [List.length_append]; omega)
    have h4 : emptyZ k (objRest w q (.cons pre n pc qc d post tl)) = false :=
      emptyZ_cons (by simp only [objRest, List.length_cons] at hgt; omega) (by decide)
    obtain ⟨r, hr, ht⟩ := mapLoopZ_sem hck hk hwf.1 tl pre n pc qc d post kv kvs hwf.2 hs
    have hf : ¬ frontZ (objRest w q (.cons pre n pc qc d post tl)) = chRBrace :=
      (by decide : ¬ ((0x22 : UInt8) = 0x7D))
    rw [obj_text]
    simp only [h3, ensure_true, Res.ok_bind, List.tail_cons, h2, h4, Bool.not_false]
    rw [if_neg hf, hr]
    exact ⟨r, rfl, ht⟩
  | .nil, _ :: _, h => simp [PairsSemZ] at h
  | .cons .., [], h => simp [PairsSemZ] at h

/-! ## Tuples -/

/-- The components are read as the values; `rest` are the elements left. -/
def TupSemZ (pU : Ty → Nat → Bytes → Res (Val × Bytes)) (rest : JElems) : List Ty → JElems → List Val → Prop
  | [], es, [] => es = rest
  | ty :: ts, .cons _ d _ tl, v :: vs => SemUZ (pU ty) d v ∧ TupSemZ pU rest ts tl vs
  | _, _, _ => False

theorem tupMembersZ_sem {pU : Ty → Nat → Bytes → Res (Val × Bytes)} {tc : Bool}
    {w q : Bytes} {k : Nat} (hk : k ≤ q.length) (hw : IsTail tc w) {rest : JElems} :
    ∀ (ts : List Ty) (es : JElems) (vs : List Val), es.WFt tc → TupSemZ pU rest ts es vs →
      tupMembersZ pU k ts (arrRest w q es) = .ok (vs, arrRest w q rest)
  | [], _, [], _, h => by cases h; rfl
  | ty :: ts, .cons pre d post tl, v :: vs, hwf, hs => by
    obtain ⟨-, hd, hpost, htl⟩ := (by simpa only [JElems.WFt] using hwf : IsWs pre ∧ d.WFt tc ∧ IsWs post ∧ tl.WFt tc)
    obtain ⟨hs1, hs2⟩ := (by simpa only [TupSemZ] using hs : SemUZ (pU ty) d v ∧ TupSemZ pU rest ts tl vs)
    have hka : k < (arrAfter post tl w q).length := Nat.lt_of_le_of_lt hk (arrAfter_gt _ _ _ _)
    obtain ⟨r, hr, htr⟩ := hs1 k _ (Nat.le_of_lt hka) (fun _ => ⟨arrAfter_after (tl := tl) (k := q) hpost hw, fun _ _ => hka⟩)
    have hmv : moveNextChecked r = arrRest w q tl := by
      rw [moveNextChecked_trimEq htr, moveNext_arr hpost htl hw]
    have hm1 : moreZ k (arrRest w q (.cons pre d post tl)) = true :=
      moreZ_of_lt (Nat.lt_of_le_of_lt hk (arrRest_gt _ _ _))
    have hr' : pU ty k (arrRest w q (.cons pre d post tl)) = .ok (v, r) := hr
    have ih := tupMembersZ_sem hk hw ts tl vs htl hs2
    unfold tupMembersZ
    simp only [hm1, ensure_true, Res.ok_bind, hr', hmv, ih]
  | [], _, _ :: _, _, h => by simp [TupSemZ] at h
  | _ :: _, .nil, _, _, h => by simp [TupSemZ] at h
  | _ :: _, .cons .., [], _, h => by simp [TupSemZ] at h

theorem TupSemZ.wf {pU : Ty → Nat → Bytes → Res (Val × Bytes)} {tc : Bool} {rest : JElems} :
    ∀ {ts : List Ty} {es : JElems} {vs : List Val}, TupSemZ pU rest ts es vs → es.WFt tc → es.depth < 4294967295 →
      rest.WFt tc ∧ rest.depth < 4294967295
  | [], _, [], h, hwf, hd => by cases h; exact ⟨hwf, hd⟩
  | _ :: _, .cons pre d post tl, _ :: _, h, hwf, hd => by
    simp only [JElems.WFt] at hwf
    simp only [JElems.depth] at hd
    simp only [TupSemZ] at h
    exact TupSemZ.wf h.2 hwf.2.2.2 (by omega)
  | [], _, _ :: _, h, _, _ => by simp [TupSemZ] at h
  | _ :: _, .nil, _, h, _, _ => by simp [TupSemZ] at h
  | _ :: _, .cons .., [], h, _, _ => by simp [TupSemZ] at h

theorem skipBracketedZ_close {k : Nat} {q : Bytes} (hk : k ≤ q.length) :
    ∃ r, skipBracketedZ arrBr k (chRBrack :: q) = .ok (r, q) :=
  skipBracketedZ_rest [chRBrack] q 0 hk (by simp) (by decide) (fun c' => by
    have := brLoop_primR (Or.inl rfl : IsBr arrBr) 1 0 0 c'
    simpa [arrBr, dec32] using this)

/-- Tuples. -/
theorem parseTupZ_sem {tc exact : Bool} {pU : Ty → Nat → Bytes → Res (Val × Bytes)}
    {ts : List Ty} {w : Bytes} {es rest : JElems} {vs : List Val} (hwf : (JVal.arr w es).WFt tc)
    (hd : es.depth < 4294967295) (hs : TupSemZ pU rest ts es vs) (hre : TupRest exact rest) : SemUZ (parseTupZ exact ts pU) (.arr w es) (.cls vs) := by
  intro k q hk _
  obtain ⟨b, h1, h2, h3, -⟩ := arr_open (k := q) hwf
  simp only [JVal.WFt] at hwf
  have hm := tupMembersZ_sem hk hwf.1 ts es vs hwf.2 hs
  obtain ⟨hr1, hr2⟩ := hs.wf hwf.2 hd
  have hgt := arrRest_gt w q es
  have hle := moveNext_le b
  rw [h2] at hle
  have h4 : atZ chLBrack k (chLBrack :: b) = true := atZ_cons (by omega)
  unfold parseTupZ
  simp only [h1, h4, Res.ok_bind, ensure_true, List.tail_cons, h2, h3, hm]
  unfold arrCleanupZ
  cases exact with
  | true =>
    obtain rfl := hre.1 rfl
    have : trimChecked (chRBrack :: q) = chRBrack :: q := trimChecked_cons_of_not _ (by decide)
    simp only [if_true, arrRest, this, frontZ_cons, beq_self_eq_true, ensure_true, Res.ok_bind, List.tail_cons]
    exact ⟨_, rfl, trimChecked_te (TrimEq.refl q)⟩
  | false =>
    obtain ⟨body, n, he, hne, hhd, hl⟩ := arrRest_body hwf.1 rest hr1 hr2 hre.2
    obtain ⟨r, hr⟩ := skipBracketedZ_rest (br := arrBr) body q n hk hne hhd hl
    rw [← he] at hr
    simp only [Bool.false_eq_true, if_false, hr, Res.ok_bind]
    exact ⟨_, rfl, TrimEq.refl q⟩

/-! ## Ordered classes -/

/-- The members are read as the values from the elements left, the first of which has index `idx`. -/
inductive OrdSemZ (pU : Ty → Nat → Bytes → Res (Val × Bytes)) (exact : Bool) :
    Nat → List (Option Nat × Ty) → JElems → List Val → Prop
  | nil {idx es} : (exact = true → es = .nil) → OrdSemZ pU exact idx [] es []
  | skip {idx want ty ms pre d post tl vs} : idx < want →
      OrdSemZ pU exact (idx + 1) ((some want, ty) :: ms) tl vs →
      OrdSemZ pU exact idx ((some want, ty) :: ms) (.cons pre d post tl) vs
  | read {idx want ty ms pre d post tl v vs} : (want = none ∨ want = some idx) → SemUZ (pU ty) d v →
      OrdSemZ pU exact (idx + 1) ms tl vs → OrdSemZ pU exact idx ((want, ty) :: ms) (.cons pre d post tl) (v :: vs)
  | gone {idx want ty ms vs} : (∀ w, want = some w → idx ≤ w) → ty.isOpt = true →
      OrdSemZ pU exact ((want.getD idx) + 1) ms .nil vs →
      OrdSemZ pU exact idx ((want, ty) :: ms) .nil (.none :: vs)

theorem skipMembersZ_nil (cfg : Cfg) (k n : Nat) (q : Bytes) :
    skipMembersZ cfg k n (chRBrack :: q) = .ok (n, chRBrack :: q) := by
  cases n with
  | zero => rfl
  | succ n => unfold skipMembersZ; rw [if_pos (show frontZ (chRBrack :: q) = chRBrack from rfl)]

theorem maybeSkipZ_nil (cfg : Cfg) (k : Nat) {cur want : Nat} (h : cur ≤ want) (q : Bytes) :
    maybeSkipZ cfg k cur want (chRBrack :: q) = .ok (cur, chRBrack :: q) := by
  unfold maybeSkipZ
  simp only [h, decide_true, ensure_true, Res.ok_bind, skipMembersZ_nil]
  congr 2
  rw [Nat.max_eq_left h]
  omega

/-- No more elements: the remaining members are empty. -/
theorem ordMembersZ_gone {cfg : Cfg} {pU : Ty → Nat → Bytes → Res (Val × Bytes)} {exact : Bool}
    {idx : Nat} {ms : List (Option Nat × Ty)} {es : JElems} {vs : List Val} (h : OrdSemZ pU exact idx ms es vs)
    (hes : es = .nil) (cur : Nat) (hcur : cur ≤ idx) (b q : Bytes) (hb : moveNextChecked b = chRBrack :: q)
    {k : Nat} (hk : k ≤ q.length) :
    ∃ b', ordMembersZ cfg pU k cur ms b = .ok (vs, b') ∧ (ms = [] ∧ b' = b ∨ b' = chRBrack :: q) := by
  induction h generalizing cur b with
  | nil => exact ⟨b, rfl, Or.inl ⟨rfl, rfl⟩⟩
  | skip => simp at hes
  | read => simp at hes
  | @gone idx want ty ms vs h1 h2 h3 ih =>
    have hmv : moveNextChecked (chRBrack :: q) = chRBrack :: q := by
      unfold moveNextChecked
      rw [trimChecked_cons_of_not _ (by decide)]
      simp
    have key : ∀ cur', cur' ≤ want.getD idx → ∃ b', ordMembersZ cfg pU k (cur' + 1) ms (chRBrack :: q) = .ok (vs, b') ∧
        b' = chRBrack :: q := by
      intro cur' hc
      obtain ⟨b', hb', h'⟩ := ih rfl (cur' + 1) (by omega) (chRBrack :: q) hmv
      exact ⟨b', hb', by rcases h' with ⟨-, h⟩ | h <;> exact h⟩
    unfold ordMembersZ
    cases want with
    | none =>
      obtain ⟨b', hb', rfl⟩ := key cur hcur
      simp only [hb, moreZ_cons hk, Res.ok_bind, ensure_true]
      rw [if_pos (show frontZ (chRBrack :: q) = chRBrack from rfl), if_pos h2]
      simp only [Res.ok_bind, hb']
      exact ⟨_, rfl, Or.inr rfl⟩
    | some wn =>
      have hle : cur ≤ wn := by have := h1 wn rfl; omega
      obtain ⟨b', hb', rfl⟩ := key cur (by simpa using hle)
      simp only [hb, Res.ok_bind, maybeSkipZ_nil cfg k hle]
      rw [if_pos (show frontZ (chRBrack :: q) = chRBrack from rfl), if_pos h2]
      simp only [Res.ok_bind, hb']
      exact ⟨_, rfl, Or.inr rfl⟩

theorem skipMembersZ_step (cfg : Cfg) (n : Nat) {tc : Bool} {w q : Bytes} {k : Nat} (hk : k ≤ q.length)
    (hw : IsTail tc w) {pre : Bytes} {d : JVal} {post : Bytes} {tl : JElems}
    (hwf : (JElems.cons pre d post tl).WFt tc) (hdep : d.depth < 4294967296) (hlen : d.text.length < 2 ^ 63) :
    skipMembersZ cfg k (n + 1) (arrRest w q (.cons pre d post tl))
      = skipMembersZ cfg k n (arrRest w q tl) := by
  obtain ⟨-, hd, hpost, htl⟩ := (by simpa only [JElems.WFt] using hwf : IsWs pre ∧ d.WFt tc ∧ IsWs post ∧ tl.WFt tc)
  obtain ⟨r, b, h1, htr, -⟩ := skipValueZ_stored (cfg := cfg) (k := k) hd hdep hlen
    (arrAfter_after (tl := tl) (k := q) hpost hw) (Nat.lt_of_le_of_lt hk (arrAfter_gt _ _ _ _))
  have h1' : skipValueZ cfg k (arrRest w q (.cons pre d post tl)) = .ok (r, b) := h1
  have hmv : moveNextChecked b = arrRest w q tl := by
    rw [moveNextChecked_trimEq htr, moveNext_arr (k := q) hpost htl hw]
  have hf : ¬ frontZ (arrRest w q (.cons pre d post tl)) = chRBrack := text_front hd _
  rw [skipMembersZ, if_neg hf]
  simp only [h1', Res.ok_bind, hmv, moreZ_of_lt (Nat.lt_of_le_of_lt hk (arrRest_gt w q tl)), ensure_true]

theorem maybeSkipZ_step (cfg : Cfg) {cur want : Nat} (h : cur < want) {tc : Bool} {w q : Bytes} {k : Nat}
    (hk : k ≤ q.length) (hw : IsTail tc w) {pre : Bytes} {d : JVal} {post : Bytes} {tl : JElems}
    (hwf : (JElems.cons pre d post tl).WFt tc) (hdep : d.depth < 4294967296) (hlen : d.text.length < 2 ^ 63) :
    maybeSkipZ cfg k cur want (arrRest w q (.cons pre d post tl))
      = maybeSkipZ cfg k (cur + 1) want (arrRest w q tl) := by
  unfold maybeSkipZ
  have e : want - cur = (want - (cur + 1)) + 1 := by omega
  have h1 : decide (cur ≤ want) = true := by simp; omega
  have h2 : decide (cur + 1 ≤ want) = true := by simp; omega
  rw [e, skipMembersZ_step cfg _ hk hw hwf hdep hlen, h1, h2, Nat.max_eq_left (by omega), Nat.max_eq_left (by omega)]

theorem maybeSkipZ_here (cfg : Cfg) (k cur : Nat) (s : Bytes) : maybeSkipZ cfg k cur cur s = .ok (cur, s) := by
  simp [maybeSkipZ, skipMembersZ]

theorem OrdSemZ.le {pU : Ty → Nat → Bytes → Res (Val × Bytes)} {exact : Bool} {idx : Nat} {ms : List (Option Nat × Ty)}
    {es : JElems} {vs : List Val} (h : OrdSemZ pU exact idx ms es vs) : idx ≤ ordEnd idx ms := by
  induction h with
  | nil _ => exact Nat.le_refl _
  | skip hlt _ ih => simp only [ordEnd, Option.getD_some] at ih ⊢; omega
  | read hw _ _ ih => rcases hw with rfl | rfl <;> simp only [ordEnd, Option.getD_some, Option.getD_none] <;> omega
  | @gone idx want ty ms vs h1 _ _ ih =>
    cases want with
    | none => simp only [ordEnd, Option.getD_none] at ih ⊢; omega
    | some w => have := h1 w rfl; simp only [ordEnd, Option.getD_some] at ih ⊢; omega

/-- The members of an ordered class. -/
theorem ordMembersZ_sem (cfg : Cfg) {pU : Ty → Nat → Bytes → Res (Val × Bytes)} {exact tc : Bool}
    {w q : Bytes} {k : Nat} (hk : k ≤ q.length) (hw : IsTail tc w) {idx : Nat} {ms : List (Option Nat × Ty)}
    {es : JElems} {vs : List Val} (h : OrdSemZ pU exact idx ms es vs) (hwf : es.WFt tc)
    (hdep : es.depth < 4294967295) (hlen : es.text.length < 2 ^ 63) (b : Bytes)
    (hb : moveNextChecked b = arrRest w q es) :
    ∃ b' es', ordMembersZ cfg pU k idx ms b = .ok (vs, b') ∧ es'.WFt tc ∧ es'.depth < 4294967295 ∧
      (exact = true → es' = .nil) ∧ (ordEnd idx ms < idx + es.length → es' ≠ .nil) ∧ (ms = [] ∧ b' = b ∧ es' = es ∨ EndAt w q b' es') := by
  induction h generalizing b with
  | nil hex => exact ⟨b, _, rfl, hwf, hdep, hex, by
      rintro h rfl; simp [ordEnd, JElems.length] at h, Or.inl ⟨rfl, rfl, rfl⟩⟩
  | @skip idx want ty ms pre d post tl vs hlt h3 ih =>
    simp only [JElems.depth] at hdep
    simp only [JElems.text, List.length_cons, List.length_append] at hlen
    have htl : tl.WFt tc := by simp only [JElems.WFt] at hwf; exact hwf.2.2.2
    obtain ⟨b', es', h1, h2, h4, h5, h7, h6⟩ := ih htl (by omega) (by omega) (arrRest w q tl) (moveNext_arrRest tl htl)
    refine ⟨b', es', ?_, h2, h4, h5, fun h => h7 (by simp only [ordEnd, JElems.length, Option.getD_some] at h ⊢; omega), ?_⟩
    · rw [← h1]
      conv => lhs; unfold ordMembersZ
      conv => rhs; unfold ordMembersZ
      simp only [hb, moveNext_arrRest tl htl, maybeSkipZ_step cfg hlt hk hw hwf (by omega) (by omega)]
    · rcases h6 with ⟨h, -⟩ | h
      · simp at h
      · exact Or.inr h
  | @read idx want ty ms pre d post tl v vs hwant hsem h3 ih =>
    simp only [JElems.depth] at hdep
    simp only [JElems.text, List.length_cons, List.length_append] at hlen
    obtain ⟨-, hd, hpost, htl⟩ := (by simpa only [JElems.WFt] using hwf : IsWs pre ∧ d.WFt tc ∧ IsWs post ∧ tl.WFt tc)
    have hka : k < (arrAfter post tl w q).length := Nat.lt_of_le_of_lt hk (arrAfter_gt _ _ _ _)
    obtain ⟨r, hr, htr⟩ := hsem k _ (Nat.le_of_lt hka) (fun _ => ⟨arrAfter_after (tl := tl) (k := q) hpost hw, fun _ _ => hka⟩)
    have hmv : moveNextChecked r = arrRest w q tl := by
      rw [moveNextChecked_trimEq htr, moveNext_arr hpost htl hw]
    obtain ⟨b', es', h1, h2, h4, h5, h7, h6⟩ := ih htl (by omega) (by omega) r hmv
    refine ⟨b', es', ?_, h2, h4, h5, fun h => h7 (by
      rcases hwant with rfl | rfl <;> simp only [ordEnd, JElems.length, Option.getD_some, Option.getD_none] at h <;> omega), ?_⟩
    · have hf : ¬ frontZ (arrRest w q (.cons pre d post tl)) = chRBrack := text_front hd _
      have hr' : pU ty k (arrRest w q (.cons pre d post tl)) = .ok (v, r) := hr
      unfold ordMembersZ
      rcases hwant with rfl | rfl
      · simp only [hb, moreZ_of_lt (Nat.lt_of_le_of_lt hk (arrRest_gt w q _)), ensure_true, Res.ok_bind]
        rw [if_neg hf, hr']
        simp only [Res.ok_bind, h1]
      · simp only [hb, Res.ok_bind, maybeSkipZ_here]
        rw [if_neg hf, hr']
        simp only [Res.ok_bind, h1]
    · rcases h6 with ⟨-, rfl, rfl⟩ | h
      · exact Or.inr (Or.inl ⟨post, hpost, htr⟩)
      · exact Or.inr h
  | @gone idx want ty ms vs h1 h2 h3 ih =>
    obtain ⟨b', hb', h'⟩ := ordMembersZ_gone (cfg := cfg) (.gone (exact := exact) h1 h2 h3) rfl idx (Nat.le_refl _)
      b q hb hk
    refine ⟨b', .nil, hb', hwf, hdep, fun _ => rfl, fun h => ?_, ?_⟩
    · exfalso
      have := (OrdSemZ.gone (pU := pU) (exact := exact) h1 h2 h3).le
      simp only [JElems.length] at h
      omega
    rcases h' with ⟨h, -⟩ | rfl
    · simp at h
    · exact Or.inr (Or.inr ⟨rfl, rfl⟩)

/-- Skipping to the end of the array after the last member. -/
theorem skipBracketedZ_end {tc : Bool} {w q b : Bytes} {k : Nat} (hk : k ≤ q.length) (hw : IsTail tc w)
    {es : JElems} (hr : es.WFt tc) (hd : es.depth < 4294967295) (hb : EndAt w q b es) :
    ∃ r, skipBracketedZ arrBr k b = .ok (r, q) := by
  rcases hb with ⟨post, hpost, u, hu, he⟩ | ⟨-, rfl⟩
  · -- what is left is a piece of the array followed by `q`
    obtain ⟨a, ha⟩ : ∃ a, b = a ++ q := by
      have h1 : arrAfter post es w q = arrAfter post es w [] ++ q := by simp [arrAfter]
      have h3 : u.length ≤ (arrAfter post es w []).length := by
        refine Nat.le_of_not_lt fun hcon => ?_
        -- the closing bracket would be whitespace
        have hm : chRBrack ∈ u := by
          have h4 : arrAfter post es w q = (post ++ (es.text ++ w)) ++ chRBrack :: q := by simp [arrAfter]
          have h5 : (post ++ (es.text ++ w)).length < u.length := by
            simp only [arrAfter, List.length_append, List.length_cons, List.length_nil] at hcon ⊢; omega
          rw [h4] at he
          have h6 := congrArg (List.take u.length) he
          rw [List.take_left] at h6
          rw [← h6, List.take_append]
          obtain ⟨j, hj⟩ : ∃ j, u.length - (post ++ (es.text ++ w)).length = j + 1 :=
            ⟨u.length - (post ++ (es.text ++ w)).length - 1, by omega⟩
          rw [hj]; simp
        have := hu _ hm
        revert this; decide
      refine ⟨(arrAfter post es w []).drop u.length, ?_⟩
      have h2 : b = (arrAfter post es w q).drop u.length := by rw [he]; simp
      rw [h2, h1, List.drop_append_of_le_length h3]
    subst ha
    have hloop : ∀ c', ∃ n, brLoop arrBr 1 0 0 (a ++ c') = .ok (n, c') := by
      intro c'
      obtain ⟨n, hn⟩ := brLoop_arrAfter (k := c') hw hpost es hr hd
      have he' : arrAfter post es w c' = u ++ (a ++ c') := by
        have h1 : arrAfter post es w q = arrAfter post es w [] ++ q := by simp [arrAfter]
        have h2 : arrAfter post es w c' = arrAfter post es w [] ++ c' := by simp [arrAfter]
        rw [h1, ← List.append_assoc] at he
        rw [h2, List.append_cancel_right he, List.append_assoc]
      rw [he', brLoop_neutral (Or.inl rfl) _ _ _ _ _ (sp_neutral hu)] at hn
      exact ⟨n, hn⟩
    have hne : a ≠ [] := by
      rintro rfl
      obtain ⟨n, hn⟩ := hloop []
      simp [brLoop, ensure] at hn
    have hhead : a.head? ≠ some chLBrack := by
      intro h
      obtain ⟨t, rfl⟩ : ∃ t, a = chLBrack :: t := by
        cases a with
        | nil => simp at h
        | cons x t => simp only [List.head?_cons, Option.some.injEq] at h; exact ⟨t, by rw [h]⟩
      have ha : AfterValue (chLBrack :: (t ++ q)) :=
        TrimEq.after ⟨u, hu, he⟩ (arrAfter_after (tl := es) (k := q) hpost hw)
      obtain ⟨w', t', hw', ht', h⟩ := ha
      cases w' with
      | nil =>
        simp only [List.nil_append] at ht'
        subst ht'
        rcases h with h | ⟨x, t'', h, hx⟩
        · simp at h
        · simp only [List.cons.injEq] at h
          obtain ⟨rfl, -⟩ := h
          revert hx; decide
      | cons y w' =>
        simp only [List.cons_append, List.cons.injEq] at ht'
        obtain ⟨rfl, -⟩ := ht'
        have := hw' 0x5B (by simp)
        unfold isWsByte at this
        revert this; decide
    unfold skipBracketedZ
    rw [moreZ_append hk hne, if_pos rfl, beforeZ_append _ _ hk, behindZ_append _ _ hk]
    have hf : ¬ frontZ (a ++ q) = arrBr.primLeft := by
      cases a with
      | nil => exact absurd rfl hne
      | cons x t => intro h; exact hhead (congrArg some h)
    rw [if_neg hf]
    obtain ⟨n, hn⟩ := hloop (beforeZ k q)
    dsimp only
    rw [hn]
    simp only [Res.ok_bind, before_behind]
    exact ⟨_, rfl⟩
  · exact skipBracketedZ_close hk

/-- Ordered classes. -/
theorem parseOrdZ_sem (cfg : Cfg) {tc exact : Bool} {pU : Ty → Nat → Bytes → Res (Val × Bytes)}
    {ms : List (Option Nat × Ty)} {w : Bytes} {es : JElems} {vs : List Val} (hwf : (JVal.arr w es).WFt tc)
    (hd : es.depth < 4294967295) (hlen : es.text.length < 2 ^ 63) (hms : ms = [] → es = .nil)
    (hex : exact = true → IsWs w) (hs : OrdSemZ pU exact 0 ms es vs) :
    SemUZ (parseOrdZ cfg exact ms pU) (.arr w es) (.cls vs) := by
  intro k q hk _
  obtain ⟨b, h1, h2, h3, -, h9⟩ := arr_open (k := q) hwf
  simp only [JVal.WFt] at hwf
  obtain ⟨b', es', h4, h5, h6, h7, -, h8⟩ := ordMembersZ_sem cfg hk hwf.1 hs hwf.2 hd hlen (trimChecked b)
    (by rw [moveNextChecked_trim]; exact h2)
  have hend : EndAt w q b' es' := by
    rcases h8 with ⟨h, rfl, rfl⟩ | h
    · obtain rfl := hms h
      obtain rfl := h9 rfl
      refine Or.inl ⟨[], by simp [IsWs], ?_⟩
      exact trimChecked_te (TrimEq.refl _)
    · exact h
  have hgt := arrRest_gt w q es
  have hle := moveNext_le b
  rw [h2] at hle
  have hat : atZ chLBrack k (chLBrack :: b) = true := atZ_cons (by omega)
  unfold parseOrdZ
  simp only [h1, hat, Res.ok_bind, ensure_true, List.tail_cons, h4]
  unfold arrCleanupZ
  cases exact with
  | true =>
    obtain rfl := h7 rfl
    have : trimChecked b' = chRBrack :: q := by
      rcases hend with ⟨post, hpost, ht⟩ | ⟨-, rfl⟩
      · rw [trimChecked_trimEq ht, arrAfter, trimChecked_ws _ _ hpost]
        simp only [JElems.text, List.nil_append]
        rw [trimChecked_ws _ _ (hex rfl), trimChecked_cons_of_not _ (by decide)]
      · exact trimChecked_cons_of_not _ (by decide)
    simp only [if_true, this, frontZ_cons, Res.ok_bind, beq_self_eq_true, ensure_true, List.tail_cons]
    exact ⟨_, rfl, trimChecked_te (TrimEq.refl q)⟩
  | false =>
    obtain ⟨r, hr⟩ := skipBracketedZ_end hk hwf.1 h5 h6 hend
    simp only [Bool.false_eq_true, if_false, hr, Res.ok_bind]
    exact ⟨_, rfl, TrimEq.refl q⟩

end Verif
