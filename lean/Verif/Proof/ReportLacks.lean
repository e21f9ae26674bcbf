import Verif.Proof.ReportIn
import Verif.Spec.Lacks

/-!
# A document that lacks a member: the exception names it
-/

namespace Verif

open Spec

/-- `q` names `n` for `d`, whatever follows. -/
def LU (q : Bytes → Option Bytes) (d : JVal) (n : Bytes) : Prop := ∀ k, q (d.text ++ k) = some n

/-- `q` names `n` for `d` from a stored range. -/
def LK (q : Range → Bytes → Option Bytes) (d : JVal) (n : Bytes) : Prop := ∀ r a, Stored d r a → q r a = some n

section
variable {t : TCfg} {tc exact : Bool} {N : List Bytes} {pU : Ty → Bytes → Res (Val × Bytes)} {pK : Ty → Range → Bytes → Res Val}
  {qU : Ty → Bytes → Option Bytes} {qK : Ty → Range → Bytes → Option Bytes}

/-- Members that are there are passed. -/
theorem missMembers_prefix (hnd : N.Nodup) {full : JMems} {w k : Bytes} (hw : IsTail tc w) (ms₂ : List Member) :
    ∀ (ms : List Member) (vs : List Val) (pos : Nat) (rest : JMems) (locs : Locs) (bs : Bytes),
      N.drop pos = (ms ++ ms₂).map Member.name → CInv t tc exact N pos full rest locs →
      moveNextChecked bs = objRest w k rest → MemSem t.cfg.checked pU pK full ms vs →
      ∃ b rest' locs', missMembers t exact N pU pK qU qK pos (ms ++ ms₂) locs bs =
          missMembers t exact N pU pK qU qK (pos + ms.length) ms₂ locs' b ∧
        moveNextChecked b = objRest w k rest' ∧ CInv t tc exact N (pos + ms.length) full rest' locs'
  | [], [], pos, rest, locs, bs, hN, hi, hb, _ => ⟨bs, rest, locs, rfl, hb, hi⟩
  | m :: ms, v :: vs, pos, rest, locs, bs, hN, hi, hb, hs => by
    have hpos : N[pos]? = some m.name := by
      have := congrArg (·[0]?) hN
      simpa [List.getElem?_drop] using this
    have hN' : N.drop (pos + 1) = (ms ++ ms₂).map Member.name := by
      rw [← List.drop_drop, hN]; rfl
    have hlen : pos + (m :: ms).length = pos + 1 + ms.length := by simp only [List.length_cons]; omega
    obtain ⟨b, rest', locs', h1, h2, h3⟩ := classMember_sem hnd hw hpos hi hb hs
    obtain ⟨b', rest'', locs'', h4, h5⟩ := missMembers_prefix hnd hw ms₂ ms vs (pos + 1) rest' locs' b hN' h3 h2 hs.2
    refine ⟨b', rest'', locs'', ?_, by rw [hlen]; exact h5⟩
    rw [hlen, ← h4]
    conv => lhs; rw [List.cons_append]; unfold missMembers
    have hmm : memberMissing t exact N pos m locs bs ≠ true := by
      intro hm
      rw [classMember_missing hm] at h1
      simp at h1
    rw [if_neg hmm, h1]
  | [], _ :: _, _, _, _, _, _, _, _, h => by simp [MemSem] at h
  | _ :: _, [], _, _, _, _, _, _, _, h => by simp [MemSem] at h

/-- The member at fault. -/
def Fault (qU : Ty → Bytes → Option Bytes) (qK : Ty → Range → Bytes → Option Bytes) (jm : JMems) (m : Member) (n : Bytes) : Prop :=
  (jm.get? m.name = none ∧ m.ty.isOpt = false ∧ n = m.name) ∨ ∃ d, jm.get? m.name = some d ∧ d ≠ .null ∧ LU (qU m.ty) d n ∧ LK (qK m.ty) d n

theorem missMembers_fault (hck : t.cfg.checked = true) (hU : ∀ ty b n, qU ty b = some n → pU ty b = .err .missingMember)
    (hK : ∀ ty r a n, qK ty r a = some n → pK ty r a = .err .missingMember) (hnd : N.Nodup) {full : JMems} {w k : Bytes} (hw : IsTail tc w)
    {pos : Nat} {m : Member} {ms : List Member} {rest : JMems} {locs : Locs} {bs n : Bytes} (hpos : N[pos]? = some m.name)
    (hi : CInv t tc exact N pos full rest locs) (hb : moveNextChecked bs = objRest w k rest) (hf : Fault qU qK full m n) :
    missMembers t exact N pU pK qU qK pos (m :: ms) locs bs = some n := by
  obtain ⟨hf1, hf2⟩ := findLoop_sem hnd hpos (k := k) hw rest locs hi
  rcases hf with ⟨hmg, ho, rfl⟩ | ⟨d, hmg, hd0, hqU, hqK⟩
  · have hgr : rest.get? m.name = none ∧ (locs[pos]?) = some none := by
      cases hr : rest.get? m.name with
      | some d => have := (hi.ahead _ _ d (Nat.le_refl _) hpos hr).1; rw [hmg] at this; simp at this
      | none =>
        refine ⟨rfl, ?_⟩
        rcases hi.behind _ _ (Nat.le_refl _) hpos hr with ⟨-, h⟩ | ⟨d, h, -⟩ | ⟨d, _, _, h, -⟩
        · exact h
        · rw [hmg] at h; simp at h
        · rw [hmg] at h; simp at h
    obtain ⟨locs'', hfl', -⟩ := hf2 hck hgr.1
    have hmm : memberMissing t exact N pos m locs bs = true := by
      unfold memberMissing
      simp only [moveNext_ck hck, hb, hck, Bool.not_true, Bool.false_or, objRest_head, Bool.true_and]
      simp only [findMember, hgr.2, ho, hck, assertWeak_checked, Option.join, Option.bind,
        Bool.false_or, trimUnchecked_objRest]
      match rest with
      | .nil => simp [objRest, headIs, ensure, notFound]
      | .cons .. =>
        simp [objRest, headIs] at hfl' ⊢
        simp [hfl', notFound]
    unfold missMembers
    rw [if_pos hmm]
  · have key : memberMiss t exact N qU qK pos m locs bs = some n ∧ ¬ memberMissing t exact N pos m locs bs = true := by
      unfold memberMiss memberMissing
      simp only [moveNext_ck hck, hb, hck, Bool.not_true, Bool.false_or, objRest_head, if_true, Bool.true_and]
      cases hg : rest.get? m.name with
      | some d' =>
        obtain ⟨hfull, hloc⟩ := hi.ahead pos m.name d' (Nat.le_refl _) hpos hg
        obtain rfl : d' = d := by rw [hmg] at hfull; simpa using hfull.symm
        obtain ⟨locs', post, tl, hfl, -, -, -⟩ := hf1 d' hg
        have hhead : headIs (fun c => c == chRBrace) (objRest w k rest) = false := by
          match rest, hg with
          | .nil, hg => simp [JMems.get?, JMems.toList] at hg
          | .cons .., _ => rfl
        have : findMember t exact N pos m.ty.isOpt locs (objRest w k rest) = .ok (.here, locs', d'.text ++ objAfter post tl w k) := by
          simp only [findMember, hhead, hloc, Bool.not_false, Bool.or_true, assertWeak_tt,
            Res.ok_bind, trimUnchecked_objRest, Option.join, Option.bind, hfl, id]
        rw [this]
        exact ⟨hqU _, by simp [notFound]⟩
      | none =>
        rcases hi.behind pos m.name (Nat.le_refl _) hpos hg with ⟨hfull, -⟩ | ⟨d', hfull, rfl, -⟩ | ⟨d', r, a, hfull, hloc, hst⟩
        · rw [hmg] at hfull; simp at hfull
        · rw [hmg] at hfull; exact absurd (by simpa using hfull) hd0
        · obtain rfl : d' = d := by rw [hmg] at hfull; simpa using hfull.symm
          have : findMember t exact N pos m.ty.isOpt locs (objRest w k rest) = .ok (.known r a, locs, objRest w k rest) := by
            simp only [findMember, hloc, Option.join, Option.bind, Option.isSome_some, Bool.or_true, Bool.true_or,
              assertWeak_tt, Res.ok_bind, trimUnchecked_objRest, id]
          rw [this]
          exact ⟨hqK _ _ hst, by simp [notFound]⟩
    unfold missMembers
    rw [if_neg key.2, memberMiss_sound hU hK key.1]
    exact key.1

theorem missObj_sem (hck : t.cfg.checked = true) (hU : ∀ ty b n, qU ty b = some n → pU ty b = .err .missingMember)
    (hK : ∀ ty r a n, qK ty r a = some n → pK ty r a = .err .missingMember) {a b : List Member} {m : Member}
    (hnd : ((a ++ m :: b).map Member.name).Nodup) {w : Bytes} {jm : JMems} {vs : List Val} (hd : DOk tc (.obj w jm))
    (hok : ∀ n ∈ jm.names, NameOk t ((a ++ m :: b).map Member.name) n ∧ (PlainName n ∨ t.escNames = true))
    (honce : ∀ m' ∈ a ++ m :: b, jm.names.count m'.name ≤ 1)
    (hex : exact = true → ∀ n ∈ jm.names, ∃ m' ∈ a ++ m :: b, m'.name = n) (hs : MemSem t.cfg.checked pU pK jm a vs) {n : Bytes}
    (hf : Fault qU qK jm m n) : LU (missObj t exact (a ++ m :: b) pU pK qU qK) (.obj w jm) n := by
  intro k
  obtain ⟨b₀, hb, hmv⟩ := obj_open (k := k) hd.wf
  have hwf := hd.wf
  simp only [JVal.WFt] at hwf
  have hlocs : ∀ (k : Nat) (n : Bytes), ((a ++ m :: b).map Member.name)[k]? = some n →
      ((a ++ m :: b).map fun _ => (none : Option (Range × Bytes)))[k]? = some none := by
    intro k n hn
    rw [List.getElem?_map] at hn ⊢
    cases h : (a ++ m :: b)[k]? with
    | none => rw [h] at hn; simp at hn
    | some m => rfl
  have hinv : CInv t tc exact ((a ++ m :: b).map Member.name) 0 jm jm ((a ++ m :: b).map fun _ => none) := by
    refine ⟨by simp, hwf.2, hd.mems.depth, hd.mems.size, hok, ?_, ?_, ?_, ?_⟩
    · intro n hn
      obtain ⟨m, hm, rfl⟩ := List.mem_map.1 hn
      exact honce m hm
    · intro he n hn
      obtain ⟨m, hm, rfl⟩ := hex he n hn
      exact List.mem_map_of_mem hm
    · exact fun k n d _ hn hg => ⟨hg, hlocs k n hn⟩
    · exact fun k n _ hn hg => Or.inl ⟨hg, hlocs k n hn⟩
  obtain ⟨b', rest', locs', h1, h2, h3⟩ := missMembers_prefix (qU := qU) (qK := qK) hnd (k := k) hwf.1 (m :: b) a vs 0 jm _
    (trimChecked b₀) rfl hinv hmv hs
  have hpos : ((a ++ m :: b).map Member.name)[0 + a.length]? = some m.name := by simp
  unfold missObj
  simp only [trim_ck hck, hb, headIs, beq_self_eq_true, Bool.or_true, if_true, List.tail_cons]
  rw [h1]
  exact missMembers_fault hck hU hK hnd hwf.1 hpos h3 h2 hf
end

section
variable {cfg : Cfg} {p : Bytes → Res (Val × Bytes)} {q : Bytes → Option Bytes}
  (hq : ∀ b n, q b = some n → p b = .err .missingMember)

/-- The elements: the ones in front are read, the next one is at fault. -/
inductive FaultElems (ck : Bool) (p : Bytes → Res (Val × Bytes)) (q : Bytes → Option Bytes) (n : Bytes) : JElems → Prop
  | first {pre d post tl} : LU q d n → FaultElems ck p q n (.cons pre d post tl)
  | next {pre d post tl v} : SemU ck p d v → FaultElems ck p q n tl → FaultElems ck p q n (.cons pre d post tl)

/-- The same for the pairs of a map. -/
inductive FaultPairs (ck : Bool) (p : Bytes → Res (Val × Bytes)) (q : Bytes → Option Bytes) (n : Bytes) : JMems → Prop
  | first {pre k pc qc d post tl u} : Unesc k u → k.length < 2 ^ 63 → LU q d n → FaultPairs ck p q n (.cons pre k pc qc d post tl)
  | next {pre k pc qc d post tl u v} : Unesc k u → k.length < 2 ^ 63 → SemU ck p d v → FaultPairs ck p q n tl →
      FaultPairs ck p q n (.cons pre k pc qc d post tl)

include hq

theorem missArrLoop_sem {tc : Bool} {w k n : Bytes} (hw : IsTail tc w) :
    ∀ (tl : JElems) (pre : Bytes) (d : JVal) (post : Bytes), (JElems.cons pre d post tl).WFt tc → FaultElems cfg.checked p q n (.cons pre d post tl) →
      missArrLoop cfg p q (d.text ++ arrAfter post tl w k) = some n
  | tl, pre, d, post, hwf, hs => by
    obtain ⟨-, hd, hpost, htl⟩ := (by simpa only [JElems.WFt] using hwf : IsWs pre ∧ d.WFt tc ∧ IsWs post ∧ tl.WFt tc)
    have hne : (d.text ++ arrAfter post tl w k).isEmpty = false := text_ne_empty hd _
    unfold missArrLoop
    rw [if_neg (by simp only [hne, Bool.and_false, Bool.false_eq_true, not_false_eq_true])]
    cases hs with
    | first h =>
      have h1 := h (arrAfter post tl w k)
      rw [hq _ _ h1]
      exact h1
    | @next _ _ _ _ v h1 h2 =>
      obtain ⟨r, hr, htr⟩ := h1 _ (fun _ => arrAfter_follows (tl := tl) (k := k) _ _ hpost hw) (fun _ => arrAfter_nonsp _ _ _ _)
      obtain ⟨c, cs, hc, hcc⟩ := arrAfter_trim (tl := tl) (k := k) hpost hw
      have htrim : trimChecked r = c :: cs := by rw [trimChecked_trimEq htr, hc]
      have hmv : moveNextChecked (c :: cs) = arrRest w k tl := by
        rw [← hc, moveNextChecked_trim, moveNext_arr hpost htl hw]
      have hh : headIs (fun c => c == chComma || c == chRBrack) (c :: cs) = true := by
        rcases hcc with rfl | rfl <;> rfl
      simp only [hr, trim_of htrim (by simp), Res.ok_bind, hh, assertWeak_tt, moveNext_of hmv (arrRest_ne w k htl)]
      match tl, h2 with
      | .nil, h2 => cases h2
      | .cons pre' d' post' tl', h2 =>
        have hd' : d'.WFt tc := by simp only [JElems.WFt] at htl; exact htl.2.1
        obtain ⟨x, xs, hx, hxn⟩ := arrRest_cons_head (w := w) (k := k) (pre := pre') (post := post') (tl := tl') hd'
        have hl := arrRest_length w k post (.cons pre' d' post' tl')
        have hp := text_length_pos hd
        have hlt : (arrRest w k (.cons pre' d' post' tl')).length
            < (d.text ++ arrAfter post (.cons pre' d' post' tl') w k).length := by
          rw [List.length_append]; omega
        have hde : deref (arrRest w k (.cons pre' d' post' tl')) = .ok x := by rw [hx]; rfl
        have hem : (arrRest w k (.cons pre' d' post' tl')).isEmpty = false := by rw [hx]; rfl
        simp only [hem, Bool.not_false, assertWeak_tt, Res.ok_bind, hde, if_neg hxn]
        rw [dif_pos hlt]
        exact missArrLoop_sem hw tl' pre' d' post' htl h2

theorem missArr_sem {tc : Bool} {w n : Bytes} {es : JElems} (hwf : (JVal.arr w es).WFt tc) (hs : FaultElems cfg.checked p q n es) :
    LU (missArr cfg p q) (.arr w es) n := by
  intro k
  simp only [JVal.WFt] at hwf
  unfold missArr
  match es, hs with
  | .nil, hs => cases hs
  | .cons pre d post tl, hs =>
    have htl := hwf.2
    simp only [JElems.WFt] at htl
    rw [arr_text]
    have h1 : trimChecked (chLBrack :: (pre ++ (d.text ++ arrAfter post tl w k)))
        = chLBrack :: (pre ++ (d.text ++ arrAfter post tl w k)) := trimChecked_cons_of_not _ (by decide)
    obtain ⟨c, cs, h, hsp, htok, -⟩ := text_head d htl.2.1
    have h2 : trimUncheckedEnd cfg (pre ++ (d.text ++ arrAfter post tl w k)) = .ok (d.text ++ arrAfter post tl w k) := trimUncheckedEnd_of_ok <| by
      rw [trimUnchecked_ws _ _ htl.1, h, List.cons_append, trimUnchecked_cons_of_not _ hsp]
    have h3 : derefEnd cfg (d.text ++ arrAfter post tl w k) = .ok c := by rw [h]; rfl
    have h4 : c ≠ chRBrack := by rintro rfl; simp [isTokenAfterValue] at htok
    simp only [trim_of h1 (by simp), Res.ok_bind, assertWeak_tt, headIs, beq_self_eq_true,
      List.tail_cons, h2, h3, if_neg h4]
    exact missArrLoop_sem hq hwf.1 tl pre d post hwf.2 hs

theorem missMapLoop_sem {tc : Bool} {w k n : Bytes} (hw : IsTail tc w) :
    ∀ (tl : JMems) (pre ky pc qc : Bytes) (d : JVal) (post : Bytes), (JMems.cons pre ky pc qc d post tl).WFt tc →
      FaultPairs cfg.checked p q n (.cons pre ky pc qc d post tl) → missMapLoop cfg p q (objRest w k (.cons pre ky pc qc d post tl)) = some n
  | tl, pre, ky, pc, qc, d, post, hwf, hs => by
    obtain ⟨-, hn, hpc, hqc, hd, hpost, htl⟩ := (by simpa only [JMems.WFt] using hwf :
      IsWs pre ∧ IsStrBody ky ∧ IsWs pc ∧ IsWs qc ∧ d.WFt tc ∧ IsWs post ∧ tl.WFt tc)
    obtain ⟨u, hu, hul⟩ : ∃ u, Unesc ky u ∧ ky.length < 2 ^ 63 := by
      cases hs with
      | first h1 h2 => exact ⟨_, h1, h2⟩
      | next h1 h2 => exact ⟨_, h1, h2⟩
    have hstr := parseStr_body cfg true hu hul (pc ++ chColon :: (qc ++ (d.text ++ objAfter post tl w k))) (Or.inl rfl)
    have hnm := trimEndOfName_ck (cfg := cfg) (text_nonsp hd (objAfter post tl w k)) hpc hqc
    rw [trimChecked_text d hd] at hnm
    have hobj : objRest w k (.cons pre ky pc qc d post tl)
        = chQuote :: (ky ++ chQuote :: (pc ++ chColon :: (qc ++ (d.text ++ objAfter post tl w k)))) := rfl
    rw [hobj]
    unfold missMapLoop
    simp only [assertWeak_tt, List.isEmpty_cons, Bool.not_false, Res.ok_bind, hstr, hnm]
    cases hs with
    | first _ _ h =>
      have h1 := h (objAfter post tl w k)
      rw [hq _ _ h1]
      exact h1
    | @next _ _ _ _ _ _ _ _ v _ _ h1 h2 =>
      obtain ⟨r, hr, htr⟩ := h1 _ (fun _ => objAfter_follows (tl := tl) (k := k) _ _ hpost hw) (fun _ => objAfter_nonsp _ _ _ _)
      have hmv : moveNextChecked r = objRest w k tl := by
        rw [moveNextChecked_trimEq htr, moveNext_obj hpost htl hw]
      have hmv' : moveNext cfg r = .ok (objRest w k tl) := moveNext_of hmv (objRest_ne _ _ _)
      simp only [hr, hmv', Res.ok_bind]
      match tl, h2 with
      | .nil, h2 => cases h2
      | .cons pre' n' pc' qc' d' post' tl', h2 =>
        have hl := objRest_length w k post (.cons pre' n' pc' qc' d' post' tl')
        have hlt : (objRest w k (.cons pre' n' pc' qc' d' post' tl')).length
            < (chQuote :: (ky ++ chQuote :: (pc ++ chColon :: (qc ++ (d.text ++
                objAfter post (.cons pre' n' pc' qc' d' post' tl') w k))))).length := by
          simp only [List.length_append, List.length_cons]; omega
        have hde : deref (objRest w k (.cons pre' n' pc' qc' d' post' tl')) = .ok chQuote := rfl
        have hem : (objRest w k (.cons pre' n' pc' qc' d' post' tl')).isEmpty = false := rfl
        simp only [hem, hde, Bool.not_false, assertWeak_tt, Res.ok_bind]
        rw [if_neg (by decide), dif_pos hlt]
        exact missMapLoop_sem hw tl' pre' n' pc' qc' d' post' htl h2

theorem missMap_sem {tc : Bool} {w n : Bytes} {ms : JMems} (hwf : (JVal.obj w ms).WFt tc) (hs : FaultPairs cfg.checked p q n ms) :
    LU (missMap cfg p q) (.obj w ms) n := by
  intro k
  simp only [JVal.WFt] at hwf
  unfold missMap
  match ms, hs with
  | .nil, hs => cases hs
  | .cons pre ky pc qc d post tl, hs =>
    have htl := hwf.2
    simp only [JMems.WFt] at htl
    have h2 : trimChecked (pre ++ objRest w k (.cons pre ky pc qc d post tl))
        = objRest w k (.cons pre ky pc qc d post tl) := by
      rw [trimChecked_ws _ _ htl.1]
      exact trimChecked_cons_of_not _ (by decide)
    have hde : deref (objRest w k (.cons pre ky pc qc d post tl)) = .ok chQuote := rfl
    have hem : (objRest w k (.cons pre ky pc qc d post tl)).isEmpty = false := rfl
    simp only [obj_text, assertWeak_tt, headIs, beq_self_eq_true, ensure_true, Res.ok_bind, trim_of h2 (objRest_ne _ _ _),
      List.tail_cons, hde, hem, Bool.not_false]
    rw [if_neg (by decide)]
    exact missMapLoop_sem hq hwf.1 tl pre ky pc qc d post hwf.2 hs
end

section
variable {cfg : Cfg} {pU : Ty → Bytes → Res (Val × Bytes)} {qU : Ty → Bytes → Option Bytes}
  (hU : ∀ ty b n, qU ty b = some n → pU ty b = .err .missingMember)

/-- The components of a tuple: the ones in front are read, the next one is at fault. -/
inductive FaultTuple (ck : Bool) (pU : Ty → Bytes → Res (Val × Bytes)) (qU : Ty → Bytes → Option Bytes) (n : Bytes) : List Ty → JElems → Prop
  | first {ty ts pre d post tl} : LU (qU ty) d n → FaultTuple ck pU qU n (ty :: ts) (.cons pre d post tl)
  | next {ty ts pre d post tl v} : SemU ck (pU ty) d v → FaultTuple ck pU qU n ts tl → FaultTuple ck pU qU n (ty :: ts) (.cons pre d post tl)

/-- The same for a class stored in an array. -/
inductive FaultOrd (ck : Bool) (pU : Ty → Bytes → Res (Val × Bytes)) (qU : Ty → Bytes → Option Bytes) :
    Bytes → Nat → List (Option Nat × Ty) → JElems → Prop
  | skip {n idx want ty ms pre d post tl} : idx < want → FaultOrd ck pU qU n (idx + 1) ((some want, ty) :: ms) tl →
      FaultOrd ck pU qU n idx ((some want, ty) :: ms) (.cons pre d post tl)
  | first {n idx want ty ms pre d post tl} : (want = none ∨ want = some idx) → LU (qU ty) d n →
      FaultOrd ck pU qU n idx ((want, ty) :: ms) (.cons pre d post tl)
  | next {n idx want ty ms pre d post tl v} : (want = none ∨ want = some idx) → SemU ck (pU ty) d v → FaultOrd ck pU qU n (idx + 1) ms tl →
      FaultOrd ck pU qU n idx ((want, ty) :: ms) (.cons pre d post tl)
  | gone {n idx want ty ms} : (∀ w, want = some w → idx ≤ w) → ty.isOpt = true → FaultOrd ck pU qU n ((want.getD idx) + 1) ms .nil →
      FaultOrd ck pU qU n idx ((want, ty) :: ms) .nil
  | absent {idx want ty ms} : (∀ w, want = some w → idx ≤ w) → ty.isOpt = false →
      FaultOrd ck pU qU asc! "ordered_class_member" idx ((want, ty) :: ms) .nil

include hU

theorem missTupMembers_sem {tc : Bool} {w k n : Bytes} (hw : IsTail tc w) : ∀ (ts : List Ty) (es : JElems), es.WFt tc →
    FaultTuple cfg.checked pU qU n ts es → missTupMembers cfg pU qU ts (arrRest w k es) = some n
  | [], _, _, h => by cases h
  | _ :: _, .nil, _, h => by cases h
  | ty :: ts, .cons pre d post tl, hwf, hs => by
    obtain ⟨-, hd, hpost, htl⟩ := (by simpa only [JElems.WFt] using hwf : IsWs pre ∧ d.WFt tc ∧ IsWs post ∧ tl.WFt tc)
    have hne : (arrRest w k (.cons pre d post tl)).isEmpty = false := text_ne_empty hd _
    unfold missTupMembers
    rw [if_neg (by simp only [hne, Bool.and_false, Bool.false_eq_true, not_false_eq_true])]
    cases hs with
    | first h =>
      have h1 : qU ty (arrRest w k (.cons pre d post tl)) = some n := h (arrAfter post tl w k)
      rw [hU _ _ _ h1]
      exact h1
    | next h1 h2 =>
      obtain ⟨r, hr, htr⟩ := h1 _ (fun _ => arrAfter_follows (tl := tl) (k := k) _ _ hpost hw) (fun _ => arrAfter_nonsp _ _ _ _)
      have hmv : moveNextChecked r = arrRest w k tl := by
        rw [moveNextChecked_trimEq htr, moveNext_arr hpost htl hw]
      have hr' : pU ty (arrRest w k (.cons pre d post tl)) = .ok (_, r) := hr
      simp only [hr', moveNext_of hmv (arrRest_ne w k htl)]
      exact missTupMembers_sem hw ts tl htl h2

theorem missTup_sem {tc : Bool} {w n : Bytes} {ts : List Ty} {es : JElems} (hwf : (JVal.arr w es).WFt tc) (hs : FaultTuple cfg.checked pU qU n ts es) :
    LU (missTup cfg ts pU qU) (.arr w es) n := by
  intro k
  obtain ⟨b, h1, h2, h3, -⟩ := arr_open (k := k) hwf
  simp only [JVal.WFt] at hwf
  have hne' := arrRest_ne w k hwf.2
  unfold missTup
  simp only [trim_of h1 (by simp), Res.ok_bind, assertWeak_tt, headIs, beq_self_eq_true,
    List.tail_cons, moveNext_of h2 hne', trim_of h3 hne']
  exact missTupMembers_sem hU hwf.1 ts es hwf.2 hs

omit hU in
/-- No more elements. -/
theorem missOrdMembers_gone (hck : cfg.checked = true) {n : Bytes} {idx : Nat} {ms : List (Option Nat × Ty)} {es : JElems}
    (h : FaultOrd cfg.checked pU qU n idx ms es) (hes : es = .nil) (cur : Nat) (hcur : cur ≤ idx) (b k : Bytes) (hb : moveNextChecked b = chRBrack :: k) :
    missOrdMembers cfg pU qU cur ms b = some n := by
  induction h generalizing cur b with
  | skip => simp at hes
  | first => simp at hes
  | next => simp at hes
  | @gone n idx want ty ms h1 h2 h3 ih =>
    unfold missOrdMembers
    have hnext : moveNextChecked (chRBrack :: k) = chRBrack :: k := by
      unfold moveNextChecked
      rw [trimChecked_cons_of_not _ (by decide)]
      simp
    cases want with
    | none =>
      have := ih rfl (cur + 1) (by simp; omega) (chRBrack :: k) hnext
      simp only [moveNext_ck hck, hb, Res.ok_bind, assertWeak_tt, List.isEmpty_cons, Bool.not_false, derefEnd_cons, if_true, h2, this]
    | some w =>
      have hw := h1 w rfl
      have := ih rfl (cur + 1) (by simp; omega) (chRBrack :: k) hnext
      simp only [moveNext_ck hck, hb, Res.ok_bind, maybeSkip_nil hck _ (show cur ≤ w by omega), derefEnd_cons, if_true, h2, this]
  | @absent idx want ty ms h1 h2 =>
    unfold missOrdMembers
    cases want with
    | none => simp only [moveNext_ck hck, hb, Res.ok_bind, assertWeak_tt, List.isEmpty_cons, Bool.not_false, derefEnd_cons, if_true, h2,
        Bool.false_eq_true, if_false]
    | some w =>
      have hw := h1 w rfl
      simp only [moveNext_ck hck, hb, Res.ok_bind, maybeSkip_nil hck _ (show cur ≤ w by omega), derefEnd_cons, if_true, h2,
        Bool.false_eq_true, if_false]

theorem missOrdMembers_sem (hck : cfg.checked = true) {tc : Bool} {w k n : Bytes} (hw : IsTail tc w) {idx : Nat} {ms : List (Option Nat × Ty)} {es : JElems}
    (h : FaultOrd cfg.checked pU qU n idx ms es) (hwf : es.WFt tc) (hdep : es.depth < 4294967295) (b : Bytes)
    (hb : moveNextChecked b = arrRest w k es) : missOrdMembers cfg pU qU idx ms b = some n := by
  induction h generalizing b with
  | @skip n idx want ty ms pre d post tl hlt h3 ih =>
    simp only [JElems.depth] at hdep
    have htl : tl.WFt tc := by simp only [JElems.WFt] at hwf; exact hwf.2.2.2
    rw [← ih htl (by omega) (arrRest w k tl) (moveNext_arrRest tl htl)]
    conv => lhs; unfold missOrdMembers
    conv => rhs; unfold missOrdMembers
    simp only [moveNext_of hb (arrRest_ne w k hwf), moveNext_of (moveNext_arrRest tl htl) (arrRest_ne w k htl), Res.ok_bind,
      maybeSkip_step ty.isOpt hlt (k := k) hw hwf (by omega)]
  | @first n idx want ty ms pre d post tl hwant h1 =>
    obtain ⟨-, hd, hpost, htl⟩ := (by simpa only [JElems.WFt] using hwf : IsWs pre ∧ d.WFt tc ∧ IsWs post ∧ tl.WFt tc)
    obtain ⟨c, cs, hc, hcn⟩ := arrRest_cons_head (w := w) (k := k) (pre := pre) (post := post) (tl := tl) hd
    have hde : derefEnd cfg (arrRest w k (.cons pre d post tl)) = .ok c := by rw [hc]; rfl
    have hne : (arrRest w k (.cons pre d post tl)).isEmpty = false := by rw [hc]; rfl
    have hq : qU ty (arrRest w k (.cons pre d post tl)) = some n := h1 (arrAfter post tl w k)
    have hp := hU _ _ _ hq
    unfold missOrdMembers
    rcases hwant with rfl | rfl
    · simp only [moveNext_of hb (arrRest_ne w k hwf), Res.ok_bind, assertWeak_tt, hne, Bool.not_false, hde, if_neg hcn, hp, hq]
    · simp only [moveNext_of hb (arrRest_ne w k hwf), Res.ok_bind, maybeSkip_here _ _ hwf, hde, if_neg hcn, hp, hq]
  | @next n idx want ty ms pre d post tl v hwant hsem h3 ih =>
    simp only [JElems.depth] at hdep
    obtain ⟨-, hd, hpost, htl⟩ := (by simpa only [JElems.WFt] using hwf : IsWs pre ∧ d.WFt tc ∧ IsWs post ∧ tl.WFt tc)
    obtain ⟨r, hr, htr⟩ := hsem _ (fun _ => arrAfter_follows (tl := tl) (k := k) _ _ hpost hw) (fun _ => arrAfter_nonsp _ _ _ _)
    have hmv : moveNextChecked r = arrRest w k tl := by
      rw [moveNextChecked_trimEq htr, moveNext_arr hpost htl hw]
    have ih' := ih htl (by omega) r hmv
    obtain ⟨c, cs, hc, hcn⟩ := arrRest_cons_head (w := w) (k := k) (pre := pre) (post := post) (tl := tl) hd
    have hde : derefEnd cfg (arrRest w k (.cons pre d post tl)) = .ok c := by rw [hc]; rfl
    have hne : (arrRest w k (.cons pre d post tl)).isEmpty = false := by rw [hc]; rfl
    have hr' : pU ty (arrRest w k (.cons pre d post tl)) = .ok (v, r) := hr
    unfold missOrdMembers
    rcases hwant with rfl | rfl
    · simp only [moveNext_of hb (arrRest_ne w k hwf), Res.ok_bind, assertWeak_tt, hne, Bool.not_false, hde, if_neg hcn, hr', ih']
    · simp only [moveNext_of hb (arrRest_ne w k hwf), Res.ok_bind, maybeSkip_here _ _ hwf, hde, if_neg hcn, hr', ih']
  | @gone n idx want ty ms h1 h2 h3 _ => exact missOrdMembers_gone hck (.gone h1 h2 h3) rfl idx (Nat.le_refl _) b k hb
  | @absent idx want ty ms h1 h2 => exact missOrdMembers_gone hck (.absent h1 h2) rfl idx (Nat.le_refl _) b k hb

theorem missOrd_sem (hck : cfg.checked = true) {tc : Bool} {w n : Bytes} {ms : List (Option Nat × Ty)} {es : JElems} (hwf : (JVal.arr w es).WFt tc)
    (hd : es.depth < 4294967295) (hs : FaultOrd cfg.checked pU qU n 0 ms es) : LU (missOrd cfg ms pU qU) (.arr w es) n := by
  intro k
  obtain ⟨b, h1, h2, h3, -⟩ := arr_open (k := k) hwf
  simp only [JVal.WFt] at hwf
  unfold missOrd
  simp only [trim_ck hck, h1, Res.ok_bind, assertWeak_tt, headIs, beq_self_eq_true, List.tail_cons]
  exact missOrdMembers_sem hU hck hwf.1 hs hwf.2 hd (trimChecked b) (by rw [moveNextChecked_trim]; exact h2)
end

/-- A document that lacks a member is an array or an object. -/
theorem lacks_container {Δ : Env} {nm : List Bytes → Bytes → Prop} {ea : Bool} {ty : Ty} {d : JVal} {n : Bytes} :
    Lacks Δ nm ea ty d n → (∃ w es, d = .arr w es) ∨ ∃ w ms, d = .obj w ms
  | .here .. | .inside .. | .map .. | .tag .. | .ivar .. => Or.inr ⟨_, _, rfl⟩
  | .arr .. | .tup .. | .ord .. => Or.inl ⟨_, _, rfl⟩
  | .some h => lacks_container h
  | .var _ _ h => lacks_container h

theorem lacks_jkind {Δ : Env} {nm : List Bytes → Bytes → Prop} {ea : Bool} {ty : Ty} {d : JVal} {n : Bytes} (h : Lacks Δ nm ea ty d n) {κ : JKind}
    (hκ : ty.kind Δ = some κ) : d.jkind = κ := by
  cases h with
  | here hi => simpa [Ty.kind, hi, JVal.jkind] using hκ
  | inside hi => simpa [Ty.kind, hi, JVal.jkind] using hκ
  | some => simp [Ty.kind] at hκ
  | arr => simpa [Ty.kind, JVal.jkind] using hκ
  | map => simpa [Ty.kind, JVal.jkind] using hκ
  | var hi => simp [Ty.kind, hi] at hκ
  | tag hi => simp [Ty.kind, hi] at hκ
  | tup hi => simpa [Ty.kind, hi, JVal.jkind] using hκ
  | ord hi => simpa [Ty.kind, hi, JVal.jkind] using hκ
  | ivar hi => simp [Ty.kind, hi] at hκ

theorem findAlt_kind {Δ : Env} (henv : EnvOk Δ) {i k : Nat} {alts : List Ty}
    {ty : Ty} {d : JVal} {b : BaseTy} (hi : Δ i = .var alts) (hty : alts[k]? = some ty) (h : ∀ κ, ty.kind Δ = some κ → d.jkind = κ)
    (hb : baseOf d.jkind = some b) : findAlt Δ b 0 alts = some (k, ty) := by
  obtain ⟨hs, ho⟩ := henv.kind i alts hi ty (List.mem_of_getElem? hty)
  obtain ⟨κ, hκ⟩ := Option.isSome_iff_exists.1 hs
  have hd := h _ hκ
  subst hd
  have := findAlt_get (Δ := Δ) (b := b) alts 0 k ty hty (by rw [underlying_eq hκ ho, hb]) ?_
  · rwa [Nat.zero_add] at this
  · intro j ty' hj hty' hu
    obtain ⟨hs', ho'⟩ := henv.kind i alts hi ty' (List.mem_of_getElem? hty')
    obtain ⟨κ', hκ'⟩ := Option.isSome_iff_exists.1 hs'
    rw [underlying_eq hκ' ho', ← hb] at hu
    have heq := baseOf_inj hu
    subst heq
    have hnd := henv.kinds i alts hi
    have h1 : (alts.map (Ty.kind Δ))[j]? = some (some d.jkind) := by rw [List.getElem?_map, hty', ← hκ']; rfl
    have h2 : (alts.map (Ty.kind Δ))[k]? = some (some d.jkind) := by rw [List.getElem?_map, hty, ← hκ]; rfl
    have := nodup_get_inj hnd h1 h2
    omega

variable {tc : Bool} {t : TCfg} {Δ : Env}

theorem LU.seen {q : Bytes → Option Bytes} {d : JVal} {n : Bytes} (h : LU q d n) (hs : ∀ b, d ≠ .str b) {cfg : Cfg} {r : Range} {a : Bytes}
    (hst : Stored d r a) : q (r.seen cfg a) = some n := by
  unfold Range.seen
  rw [stored_text hst hs]
  split
  · have := h []
    rwa [List.append_nil] at this
  · exact h a

set_option linter.unusedSectionVars false

section
variable (hck : t.cfg.checked = true) (henv : EnvOk Δ) {nm : List Bytes → Bytes → Prop} {ea : Bool}
  (hnm : ∀ N n, nm N n → NameOk t N n ∧ (PlainName n ∨ t.escNames = true)) (hea : ea = t.exactAll)
include hck henv hnm hea

/-- Both kinds of bounds. -/
def LSem (t : TCfg) (Δ : Env) (f : Nat) (ty : Ty) (d : JVal) (n : Bytes) : Prop := LU (missU t Δ f ty) d n ∧ LK (missK t Δ f ty) d n

/-- A class, with the member at fault. -/
theorem class_fault {i : Nat} {ex : Bool} {w : Bytes} {jm : JMems} {a b : List Member} {m : Member} {vs : List Val} {n : Bytes} {f : Nat}
    (hi : Δ i = .obj (a ++ m :: b) ex) (hpl : ∀ n ∈ jm.names, nm ((a ++ m :: b).map Member.name) n)
    (honce : ∀ m' ∈ a ++ m :: b, jm.names.count m'.name ≤ 1)
    (hex : (ex || ea) = true → ∀ n ∈ jm.names, ∃ m' ∈ a ++ m :: b, m'.name = n) (hd : DOk tc (.obj w jm))
    (hs : MemSem t.cfg.checked (parseU t Δ f) (parseK t Δ f) jm a vs) (hf : Fault (missU t Δ f) (missK t Δ f) jm m n) :
    LSem t Δ (f + 1) (.ref i) (.obj w jm) n := by
  have h := missObj_sem (t := t) (exact := ex || t.exactAll) hck (fun ty => (miss_sound Δ f t ty).1) (fun ty => (miss_sound Δ f t ty).2)
    (henv.nodup i _ ex hi) hd (fun n hn => hnm _ n (hpl n hn)) honce (hea ▸ hex) hs hf
  refine ⟨fun k => ?_, fun r a' hst => ?_⟩
  · simp only [missU, hi, text_ne_empty hd.wf, Bool.and_false, Bool.false_eq_true, if_false]
    exact h k
  · have hne := text_ne_empty hd.wf []
    rw [List.append_nil] at hne
    simp only [missK, inside_stored t hst (by simp) (by simp), hi, stored_text hst (by simp), hne, Bool.and_false, Bool.false_eq_true, if_false]
    exact h.seen (by simp) hst

mutual
theorem lacks_sem : ∀ {ty d n}, Lacks Δ nm ea ty d n → DOk tc d → ∃ f0, ∀ f, f0 ≤ f → LSem t Δ f ty d n
  | _, _, _, @Lacks.here _ _ _ i ex w jm vs a m b hi hpl honce hex hr hg ho, hd => by
    obtain ⟨f0, hf0⟩ := members_sem hck henv hnm hea hr hd.mems
    refine ⟨f0 + 1, fun f hf => ?_⟩
    obtain ⟨f, rfl⟩ : ∃ g, f = g + 1 := ⟨f - 1, by omega⟩
    exact class_fault hck henv hnm hea hi hpl honce hex hd (hf0 f (by omega)) (Or.inl ⟨hg, ho, rfl⟩)
  | _, _, _, @Lacks.inside _ _ _ i ex w jm vs a m b d n hi hpl honce hex hr hg h, hd => by
    obtain ⟨f0, hf0⟩ := members_sem hck henv hnm hea hr hd.mems
    obtain ⟨f1, hf1⟩ := lacks_sem h (hd.mems.get hg)
    refine ⟨max f0 f1 + 1, fun f hf => ?_⟩
    obtain ⟨f, rfl⟩ : ∃ g, f = g + 1 := ⟨f - 1, by omega⟩
    have hne : d ≠ .null := by
      rcases lacks_container h with ⟨_, _, rfl⟩ | ⟨_, _, rfl⟩ <;> simp
    obtain ⟨h1, h2⟩ := hf1 f (by omega)
    exact class_fault hck henv hnm hea hi hpl honce hex hd (hf0 f (by omega)) (Or.inr ⟨d, hg, hne, h1, h2⟩)
  | _, _, _, @Lacks.some _ _ _ ty d n h, hd => by
    obtain ⟨f0, hf0⟩ := lacks_sem h hd
    refine ⟨f0 + 1, fun f hf => ?_⟩
    obtain ⟨f, rfl⟩ : ∃ g, f = g + 1 := ⟨f - 1, by omega⟩
    have hne : d ≠ .null := by
      rcases lacks_container h with ⟨_, _, rfl⟩ | ⟨_, _, rfl⟩ <;> simp
    obtain ⟨h1, h2⟩ := hf0 f (by omega)
    refine ⟨fun k => ?_, fun r a hst => ?_⟩
    · simp only [missU, eatNull_value hd.wf hne]
      exact h1 k
    · simp only [missK, hst.2.2.1, Bool.false_eq_true, if_false]
      exact h2 r a hst
  | _, _, _, @Lacks.arr _ _ _ ty w es n h, hd => by
    obtain ⟨f0, hf0⟩ := lacksElems_sem h hd.elems
    refine ⟨f0 + 1, fun f hf => ?_⟩
    obtain ⟨f, rfl⟩ : ∃ g, f = g + 1 := ⟨f - 1, by omega⟩
    have hs := missArr_sem (cfg := t.cfg) (miss_sound Δ f t ty).1 hd.wf (hf0 f (by omega))
    refine ⟨fun k => ?_, fun r a hst => ?_⟩
    · simp only [missU]
      exact hs k
    · simp only [missK, inside_stored t hst (by simp) (by simp)]
      exact hs.seen (by simp) hst
  | _, _, _, @Lacks.map _ _ _ ty w es n h, hd => by
    obtain ⟨f0, hf0⟩ := lacksPairs_sem h hd.mems
    refine ⟨f0 + 1, fun f hf => ?_⟩
    obtain ⟨f, rfl⟩ : ∃ g, f = g + 1 := ⟨f - 1, by omega⟩
    have hs := missMap_sem (cfg := t.cfg) (miss_sound Δ f t ty).1 hd.wf (hf0 f (by omega))
    refine ⟨fun k => ?_, fun r a hst => ?_⟩
    · simp only [missU]
      exact hs k
    · simp only [missK, inside_stored t hst (by simp) (by simp)]
      exact hs.seen (by simp) hst
  | _, d, _, @Lacks.var _ _ _ i alts ty _ n j hi hty h, hd => by
    obtain ⟨f0, hf0⟩ := lacks_sem h hd
    refine ⟨f0 + 1, fun f hf => ?_⟩
    obtain ⟨f, rfl⟩ : ∃ g, f = g + 1 := ⟨f - 1, by omega⟩
    obtain ⟨h1, h2⟩ := hf0 f (by omega)
    have hcont := lacks_container h
    have hne : d ≠ .null := by
      rcases hcont with ⟨_, _, rfl⟩ | ⟨_, _, rfl⟩ <;> simp
    obtain ⟨c, cs, b, hc, hb1, hb2⟩ := baseOfChar_text hd.wf hne
    have halt : altOfChar t.cfg Δ alts c = .ok (j, ty) := by
      simp only [altOfChar, hb1, altOfBase, findAlt_kind henv hi hty (fun κ => lacks_jkind h) hb2]
    refine ⟨fun k => ?_, fun r a hst => ?_⟩
    · have hdr : derefEnd t.cfg (d.text ++ k) = .ok c := by rw [hc]; rfl
      simp only [missU, hi, hdr, Res.ok_bind, halt]
      exact h1 k
    · have hs : ∀ b, d ≠ .str b := by
        rcases hcont with ⟨_, _, rfl⟩ | ⟨_, _, rfl⟩ <;> simp
      have hq : r.quoted = false := by
        rw [hst.2.2.2.2.1, Bool.eq_false_iff]
        intro hh
        have := (headIs_quote hd.wf hne).1 hh
        rcases hcont with ⟨_, _, rfl⟩ | ⟨_, _, rfl⟩ <;> simp [JVal.jkind] at this
      have hdr : deref r.text = .ok c := by rw [stored_text hst hs, hc]; rfl
      simp only [missK, hi, altOfRange, hq, Bool.false_eq_true, if_false, hdr, Res.ok_bind, halt]
      exact h2 r a hst
  | _, _, _, @Lacks.tag _ _ _ i tag sw alts w jm hi hpl hex hg ho, hd => by
    refine ⟨1, fun f hf => ?_⟩
    obtain ⟨f, rfl⟩ : ∃ g, f = g + 1 := ⟨f - 1, by omega⟩
    have h := missObj_sem (t := t) (exact := t.exactAll) (a := []) (b := []) (m := tag) (vs := []) hck (fun ty => (miss_sound Δ f t ty).1)
      (fun ty => (miss_sound Δ f t ty).2) (by simp) hd (fun n hn => hnm _ n (hpl n hn))
      (by
        intro m' hm'
        obtain rfl : m' = tag := by simpa using hm'
        rw [List.count_eq_zero_of_not_mem (JMems_get?_none.1 hg)]; omega)
      (fun he n hn => ⟨tag, by simp, (hex (hea.trans he) n hn).symm⟩) (pU := parseU t Δ f) (pK := parseK t Δ f) trivial
      (Or.inl ⟨hg, ho, rfl⟩)
    have hp := fun k => missObj_sound (fun ty => (miss_sound Δ f t ty).1) (fun ty => (miss_sound Δ f t ty).2) (h k)
    simp only [List.nil_append] at h hp
    refine ⟨fun k => ?_, fun r a hst => ?_⟩
    · simp only [missU, hi, text_ne_empty hd.wf, Bool.and_false, Bool.false_eq_true, if_false, hp k]
      exact h k
    · have hne := text_ne_empty hd.wf []
      rw [List.append_nil] at hne
      have h' := h.seen (by simp) (cfg := t.cfg) hst
      have hp' := missObj_sound (fun ty => (miss_sound Δ f t ty).1) (fun ty => (miss_sound Δ f t ty).2) h'
      simp only [missK, inside_stored t hst (by simp) (by simp), hi, stored_text hst (by simp), hne, Bool.and_false, Bool.false_eq_true, if_false, hp']
      exact h'
  | _, _, _, @Lacks.ivar _ _ _ i tag sw alts ty w jm x n hi hpl honce hex hx hty h, hd => by
    obtain ⟨f0, hf0⟩ := members_sem hck henv hnm hea hx hd.mems
    obtain ⟨f1, hf1⟩ := lacks_sem h hd
    refine ⟨max f0 f1 + 1, fun f hf => ?_⟩
    obtain ⟨f, rfl⟩ : ∃ g, f = g + 1 := ⟨f - 1, by omega⟩
    obtain ⟨h1, -⟩ := hf1 f (by omega)
    have hs := parseObj_sem (t := t) (exact := t.exactAll) (ms := [tag]) (by simp) hd.wf hd.mems.depth hd.size
      (fun n hn => hnm _ n (hpl n hn)) (by simpa using honce)
      (fun he n hn => ⟨tag, by simp, (hex (hea.trans he) n hn).symm⟩) (hf0 f (by omega))
    have halt : altOfTag t.cfg sw alts (.cls [x]) = .ok (sw x, ty) := by simp only [altOfTag, hty]
    refine ⟨fun k => ?_, fun r a hst => ?_⟩
    · obtain ⟨r', hr', -⟩ := hs k (by simp [JVal.ends, JVal.closed, Val.bareLit]) (by simp [hck])
      simp only [missU, hi, text_ne_empty hd.wf, Bool.and_false, Bool.false_eq_true, if_false, hr', halt]
      exact h1 k
    · obtain ⟨r', hr'⟩ := hs.seen rfl (by simp) hst
      have hne := text_ne_empty hd.wf []
      rw [List.append_nil] at hne
      simp only [missK, inside_stored t hst (by simp) (by simp), hi, stored_text hst (by simp), hne, Bool.and_false, Bool.false_eq_true, if_false,
        hr', halt]
      exact h1.seen (by simp) hst
  | _, _, _, @Lacks.tup _ _ _ i ts ex w es n hi h, hd => by
    obtain ⟨f0, hf0⟩ := lacksTuple_sem h hd.elems
    refine ⟨f0 + 1, fun f hf => ?_⟩
    obtain ⟨f, rfl⟩ : ∃ g, f = g + 1 := ⟨f - 1, by omega⟩
    have hs := missTup_sem (cfg := t.cfg) (fun ty => (miss_sound Δ f t ty).1) hd.wf (hf0 f (by omega))
    refine ⟨fun k => ?_, fun r a hst => ?_⟩
    · simp only [missU, hi]
      exact hs k
    · simp only [missK, inside_stored t hst (by simp) (by simp), hi]
      exact hs.seen (by simp) hst
  | _, _, _, @Lacks.ord _ _ _ i ms ex w es n hi h, hd => by
    obtain ⟨f0, hf0⟩ := lacksOrdered_sem h hd.elems
    refine ⟨f0 + 1, fun f hf => ?_⟩
    obtain ⟨f, rfl⟩ : ∃ g, f = g + 1 := ⟨f - 1, by omega⟩
    have hs := missOrd_sem (cfg := t.cfg) (fun ty => (miss_sound Δ f t ty).1) hck hd.wf hd.elems.depth (hf0 f (by omega))
    refine ⟨fun k => ?_, fun r a hst => ?_⟩
    · simp only [missU, hi, text_ne_empty hd.wf, Bool.and_false, Bool.false_eq_true, if_false]
      exact hs k
    · have hne := text_ne_empty hd.wf []
      rw [List.append_nil] at hne
      simp only [missK, inside_stored t hst (by simp) (by simp), hi, stored_text hst (by simp), hne, Bool.and_false, Bool.false_eq_true, if_false]
      exact hs.seen (by simp) hst
theorem lacksTuple_sem : ∀ {ts es n}, LacksTuple Δ nm ea ts es n → EOk tc es →
    ∃ f0, ∀ f, f0 ≤ f → FaultTuple t.cfg.checked (parseU t Δ f) (missU t Δ f) n ts es
  | _, _, _, .first h, hd => by
    obtain ⟨a, ha⟩ := lacks_sem h hd.cons.1
    exact ⟨a, fun f hf => .first (ha f hf).1⟩
  | _, _, _, .next h1 h2, hd => by
    obtain ⟨a, ha⟩ := reads_sem hck henv hnm hea h1 hd.cons.1
    obtain ⟨b, hb⟩ := lacksTuple_sem h2 hd.cons.2
    exact ⟨max a b, fun f hf => .next (ha f (by omega)).1 (hb f (by omega))⟩
theorem lacksOrdered_sem : ∀ {idx ms es n}, LacksOrdered Δ nm ea idx ms es n → EOk tc es →
    ∃ f0, ∀ f, f0 ≤ f → FaultOrd t.cfg.checked (parseU t Δ f) (missU t Δ f) n idx ms es
  | _, _, _, _, .skip hlt h, hd => by
    obtain ⟨b, hb⟩ := lacksOrdered_sem h hd.cons.2
    exact ⟨b, fun f hf => .skip hlt (hb f hf)⟩
  | _, _, _, _, .first hw h, hd => by
    obtain ⟨a, ha⟩ := lacks_sem h hd.cons.1
    exact ⟨a, fun f hf => .first hw (ha f hf).1⟩
  | _, _, _, _, .next hw h1 h2, hd => by
    obtain ⟨a, ha⟩ := reads_sem hck henv hnm hea h1 hd.cons.1
    obtain ⟨b, hb⟩ := lacksOrdered_sem h2 hd.cons.2
    exact ⟨max a b, fun f hf => .next hw (ha f (by omega)).1 (hb f (by omega))⟩
  | _, _, _, _, .gone hw ho h, hd => by
    obtain ⟨b, hb⟩ := lacksOrdered_sem h hd
    exact ⟨b, fun f hf => .gone hw ho (hb f hf)⟩
  | _, _, _, _, .absent hw ho, _ => ⟨0, fun _ _ => .absent hw ho⟩
theorem lacksElems_sem : ∀ {ty es n}, LacksElems Δ nm ea ty es n → EOk tc es →
    ∃ f0, ∀ f, f0 ≤ f → FaultElems t.cfg.checked (parseU t Δ f ty) (missU t Δ f ty) n es
  | _, _, _, .first h, hd => by
    obtain ⟨a, ha⟩ := lacks_sem h hd.cons.1
    exact ⟨a, fun f hf => .first (ha f hf).1⟩
  | _, _, _, .next h1 h2, hd => by
    obtain ⟨a, ha⟩ := reads_sem hck henv hnm hea h1 hd.cons.1
    obtain ⟨b, hb⟩ := lacksElems_sem h2 hd.cons.2
    exact ⟨max a b, fun f hf => .next (ha f (by omega)).1 (hb f (by omega))⟩
theorem lacksPairs_sem : ∀ {ty ms n}, LacksPairs Δ nm ea ty ms n → MOk tc ms →
    ∃ f0, ∀ f, f0 ≤ f → FaultPairs t.cfg.checked (parseU t Δ f ty) (missU t Δ f ty) n ms
  | _, _, _, .first hu h, hd => by
    obtain ⟨a, ha⟩ := lacks_sem h hd.cons.1
    exact ⟨a, fun f hf => .first hu hd.cons.2.2 (ha f hf).1⟩
  | _, _, _, .next hu h1 h2, hd => by
    obtain ⟨a, ha⟩ := reads_sem hck henv hnm hea h1 hd.cons.1
    obtain ⟨b, hb⟩ := lacksPairs_sem h2 hd.cons.2.1
    exact ⟨max a b, fun f hf => .next hu hd.cons.2.2 (ha f (by omega)).1 (hb f (by omega))⟩
end

end

end Verif
