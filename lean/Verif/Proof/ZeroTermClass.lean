import Verif.Proof.ZeroTermArr
import Verif.Proof.TypedTuple

/-!
# Zero terminated documents: classes
-/

namespace Verif

open Spec

/-! ## Names -/

theorem parseNameZ_ok {t : TCfg} {tc : Bool} {n pc qc q : Bytes} {d : JVal} {k : Nat} (hk : k ≤ q.length)
    (hn : IsStrBody n) (hl : n.length < 2 ^ 63) (hp : PlainName n ∨ t.escNames = true) (hpc : IsWs pc) (hqc : IsWs qc)
    (hd : d.WFt tc) :
    parseNameZ t k (chQuote :: (n ++ chQuote :: (pc ++ chColon :: (qc ++ (d.text ++ q))))) = .ok (n, d.text ++ q) := by
  have hnm := trimEndOfNameZ_ok (s := d.text ++ q) (k := k) (by rw [List.length_append]; omega) hpc hqc
  rw [trimChecked_text d hd] at hnm
  have hnp : (2 : Nat) ^ 63 < npos := by decide
  have hc : k ≤ (pc ++ chColon :: (qc ++ (d.text ++ q))).length := by
    simp only [List.length_append, List.length_cons]; omega
  have hat : atZ chQuote k (chQuote :: (n ++ chQuote :: (pc ++ chColon :: (qc ++ (d.text ++ q))))) = true :=
    atZ_cons (by rw [List.length_append, List.length_cons]; omega)
  unfold parseNameZ
  simp only [hat, ensure_true, Res.ok_bind, List.tail_cons]
  cases he : t.escNames with
  | true =>
    rw [if_pos rfl, skipStringNqZ_body t.cfg hn (by omega) hc]
    simp only [Res.ok_bind, hnm, ZRange.text]
    congr 2
    unfold beforeZ
    simp
  | false =>
    have hp : PlainName n := by rcases hp with h | h; exact h; rw [he] at h; simp at h
    have hlast : (n.getLast? != some chBslash) = true := by
      simp only [bne_iff_ne, ne_eq]
      intro h
      exact hp (List.mem_of_getLast? h)
    have e : n ++ chQuote :: (pc ++ chColon :: (qc ++ (d.text ++ q)))
        = (n ++ [chQuote]) ++ (pc ++ chColon :: (qc ++ (d.text ++ q))) := by simp
    have h1 : beforeZ k (n ++ chQuote :: (pc ++ chColon :: (qc ++ (d.text ++ q))))
        = n ++ chQuote :: beforeZ k (pc ++ chColon :: (qc ++ (d.text ++ q))) := by
      rw [e, beforeZ_append _ _ hc]; simp
    have h2 : behindZ k (n ++ chQuote :: (pc ++ chColon :: (qc ++ (d.text ++ q))))
        = behindZ k (pc ++ chColon :: (qc ++ (d.text ++ q))) := by
      rw [e, behindZ_append _ _ hc]
    rw [if_neg (by simp), h1, h2, toQuote_plain (strBody_no_quote hn hp)]
    simp only [List.isEmpty_cons, Bool.not_false, hlast, Bool.and_self, ensure_true, Res.ok_bind, List.tail_cons,
      before_behind, hnm]

/-! ## The search for a member -/

/-- The state of the search: `full` are all members of the object, `rest` those not passed yet. -/
structure CInvZ (t : TCfg) (tc exact : Bool) (N : List Bytes) (pos : Nat) (full rest : JMems) (locs : LocsZ) : Prop where
  len : locs.length = N.length
  wf : rest.WFt tc
  depth : rest.depth < 4294967295
  size : rest.text.length < 2 ^ 63
  ok : ∀ n ∈ rest.names, NameOk t N n ∧ (PlainName n ∨ t.escNames = true)
  once : ∀ n ∈ N, rest.names.count n ≤ 1
  left : exact = true → ∀ n ∈ rest.names, n ∈ N.drop pos
  ahead : ∀ k n d, pos ≤ k → N[k]? = some n → rest.get? n = some d → full.get? n = some d ∧ locs[k]? = some none
  behind : ∀ k n, pos ≤ k → N[k]? = some n → rest.get? n = none →
    (full.get? n = none ∧ locs[k]? = some none) ∨
    (∃ d, full.get? n = some d ∧ d = .null ∧ locs[k]? = some none) ∨
    (∃ d r, full.get? n = some d ∧ locs[k]? = some (some r) ∧ StoredZ d r)

theorem CInvZ.mono {t : TCfg} {tc exact : Bool} {N : List Bytes} {pos : Nat} {full rest : JMems} {locs : LocsZ}
    (h : CInvZ t tc exact N pos full rest locs) (hl : exact = true → ∀ n ∈ rest.names, n ∈ N.drop (pos + 1)) :
    CInvZ t tc exact N (pos + 1) full rest locs :=
  { h with
    left := hl
    ahead := fun k n d hk => h.ahead k n d (by omega)
    behind := fun k n hk => h.behind k n (by omega) }

/-- Passing a member of the object. -/
theorem CInvZ.step {t : TCfg} {tc exact : Bool} {N : List Bytes} {pos : Nat} {full tl : JMems} {locs : LocsZ}
    {pre n pc qc : Bytes} {d : JVal} {post : Bytes}
    (h : CInvZ t tc exact N pos full (.cons pre n pc qc d post tl) locs) (locs' : LocsZ) (hlen : locs'.length = N.length)
    (hl : ∀ k m, pos ≤ k → N[k]? = some m → m ≠ n → locs'[k]? = locs[k]?)
    (hn : ∀ k, pos ≤ k → N[k]? = some n →
      (d = .null ∧ locs'[k]? = some none) ∨ ∃ r, locs'[k]? = some (some r) ∧ StoredZ d r) :
    CInvZ t tc exact N pos full tl locs' := by
  have hnn : n ∈ N → n ∉ tl.names := by
    intro hN hm
    have := h.once n hN
    rw [JMems_names_cons, List.count_cons_self] at this
    have := List.count_pos_iff.2 hm
    omega
  have hwf := h.wf
  have hdep := h.depth
  have hsz := h.size
  simp only [JMems.WFt] at hwf
  simp only [JMems.depth] at hdep
  simp only [JMems.text, List.length_cons, List.length_append] at hsz
  refine ⟨hlen, hwf.2.2.2.2.2.2, by omega, by omega, ?_, ?_, ?_, ?_, ?_⟩
  · intro m hm
    exact h.ok m (by rw [JMems_names_cons]; exact List.mem_cons_of_mem _ hm)
  · intro m hm
    have := h.once m hm
    rw [JMems_names_cons, List.count_cons] at this
    omega
  · intro he m hm
    exact h.left he m (by rw [JMems_names_cons]; exact List.mem_cons_of_mem _ hm)
  · intro k m d' hk hm hg
    have hmn : m ≠ n := by
      rintro rfl
      have := JMems_get?_none.2 (hnn (List.mem_of_getElem? hm))
      rw [this] at hg
      simp at hg
    have := h.ahead k m d' hk hm (by rw [JMems_get?_cons, if_neg hmn]; exact hg)
    rw [hl k m hk hm hmn]
    exact this
  · intro k m hk hm hg
    by_cases hmn : m = n
    · subst hmn
      have := h.ahead k m d hk hm (by rw [JMems_get?_cons, if_pos rfl])
      rcases hn k hk hm with ⟨h1, h2⟩ | ⟨r, h1, h2⟩
      · exact Or.inr (Or.inl ⟨d, this.1, h1, h2⟩)
      · exact Or.inr (Or.inr ⟨d, r, this.1, h1, h2⟩)
    · rw [hl k m hk hm hmn]
      exact h.behind k m hk hm (by rw [JMems_get?_cons, if_neg hmn]; exact hg)

theorem setLocZ_get_ne {locs : LocsZ} {n k : Nat} {r : ZRange} (h : n ≠ k) :
    (setLocZ locs n r)[k]? = locs[k]? := by
  unfold setLocZ
  rw [List.getElem?_set_ne h]

theorem setLocZ_get {locs : LocsZ} {n : Nat} {r : ZRange} (h : n < locs.length) :
    (setLocZ locs n r)[n]? = some (if r.null then none else some r) := by
  unfold setLocZ
  rw [List.getElem?_set_self h]

/-- What the search for `nm` at `pos` gives. -/
theorem findLoopZ_sem {t : TCfg} {tc exact : Bool} {N : List Bytes} (hnd : N.Nodup)
    {pos : Nat} {nm : Bytes} (hpos : N[pos]? = some nm) {full : JMems} {w q : Bytes} {k : Nat} (hk : k ≤ q.length) (hw : IsTail tc w) :
    ∀ (rest : JMems) (locs : LocsZ), CInvZ t tc exact N pos full rest locs →
      (∀ d, rest.get? nm = some d → ∃ locs' post tl,
        findLoopZ t exact N pos k locs (objRest w q rest) = .ok (.here, locs', d.text ++ objAfter post tl w q) ∧
        IsWs post ∧ d.WFt tc ∧ CInvZ t tc exact N (pos + 1) full tl locs') ∧
      (rest.get? nm = none → ∃ locs',
        findLoopZ t exact N pos k locs (objRest w q rest) = .ok (.absent, locs', chRBrace :: q) ∧
        CInvZ t tc exact N (pos + 1) full .nil locs')
  | .nil, locs, hi => by
    refine ⟨by simp [JMems.get?, JMems.toList], fun _ => ⟨locs, ?_, hi.mono (by simp [JMems.names, JMems.toList])⟩⟩
    rw [findLoopZ.eq_def, if_pos (by simp [objRest, frontZ])]
    rfl
  | .cons pre n pc qc d post tl, locs, hi => by
    have hwf := hi.wf
    have hdep := hi.depth
    have hsz := hi.size
    simp only [JMems.WFt] at hwf
    obtain ⟨-, hn, hpc, hqc, hd, hpost, htl⟩ := hwf
    simp only [JMems.depth] at hdep
    simp only [JMems.text, List.length_cons, List.length_append] at hsz
    obtain ⟨hok, hpl⟩ := hi.ok n (by simp [JMems_names_cons])
    have hplt : pos < N.length := (List.getElem?_eq_some_iff.1 hpos).1
    have hka : k < (objAfter post tl w q).length := Nat.lt_of_le_of_lt hk (objAfter_gt _ _ _ _)
    have hname := parseNameZ_ok (t := t) (Nat.le_of_lt hka) hn (by omega) hpl hpc hqc hd
    have hobj : objRest w q (.cons pre n pc qc d post tl)
        = chQuote :: (n ++ chQuote :: (pc ++ chColon :: (qc ++ (d.text ++ objAfter post tl w q)))) := rfl
    obtain ⟨r, b, hsk, htr, hst⟩ := skipValueZ_stored (cfg := t.cfg) hd (by omega) (by omega)
      (objAfter_after (tl := tl) (k := q) hpost hw) hka
    have hmv : moveNextChecked b = objRest w q tl := by
      rw [moveNextChecked_trimEq htr, moveNext_obj hpost htl hw]
    have hlt : (objRest w q tl).length < (objRest w q (.cons pre n pc qc d post tl)).length := by
      have := objRest_length w q post tl
      rw [hobj]
      simp only [List.length_append, List.length_cons]
      omega
    have hne : emptyZ k (chQuote :: (n ++ chQuote :: (pc ++ chColon :: (qc ++ (d.text ++ objAfter post tl w q))))) = false :=
      emptyZ_cons (by simp only [List.length_append, List.length_cons]; omega) (by decide)
    rw [JMems_get?_cons]
    by_cases hmem : n ∈ N.drop pos
    · obtain ⟨j, hj⟩ := List.getElem?_of_mem hmem
      rw [List.getElem?_drop] at hj
      have hfn := findName_present hok hnd hj (by omega : pos ≤ pos + j)
      have hjlt : pos + j < N.length := (List.getElem?_eq_some_iff.1 hj).1
      by_cases hnm : nm = n
      · -- found
        subst hnm
        have hj0 := nodup_getElem?_inj hnd hj hpos
        have hnN : nm ∉ tl.names := by
          intro hm
          have := hi.once nm (List.mem_of_getElem? hpos)
          rw [JMems_names_cons, List.count_cons_self] at this
          have := List.count_pos_iff.2 hm
          omega
        rw [if_pos rfl]
        refine ⟨?_, by simp⟩
        rintro d' hdd
        obtain rfl : d = d' := by simpa using hdd
        refine ⟨locs, post, tl, ?_, hpost, hd, ?_⟩
        · rw [findLoopZ.eq_def, hobj]
          simp only [hname, Res.ok_bind]
          rw [if_neg (by rw [hne]; exact (by decide : ¬ (false || (0x22 : UInt8) == 0x7D) = true)), hfn, hj0]
          rw [if_neg (by omega), if_neg (by omega), if_pos rfl]
        · -- the search state without the member at `pos`
          have hwf' := hi.wf
          simp only [JMems.WFt] at hwf'
          refine ⟨hi.len, htl, by omega, by omega, ?_, ?_, ?_, ?_, ?_⟩
          · exact fun m hm => hi.ok m (by rw [JMems_names_cons]; exact List.mem_cons_of_mem _ hm)
          · intro m hm
            have := hi.once m hm
            rw [JMems_names_cons, List.count_cons] at this
            omega
          · intro he m hm
            refine mem_drop_succ (hi.left he m (by rw [JMems_names_cons]; exact List.mem_cons_of_mem _ hm)) hpos ?_
            rintro rfl
            exact hnN hm
          · intro i m d' hik hm hg
            have : m ≠ nm := by rintro rfl; rw [JMems_get?_none.2 hnN] at hg; simp at hg
            exact hi.ahead i m d' (by omega) hm (by rw [JMems_get?_cons, if_neg this]; exact hg)
          · intro i m hik hm hg
            have : m ≠ nm := by rintro rfl; have := nodup_getElem?_inj hnd hm hpos; omega
            exact hi.behind i m (by omega) hm (by rw [JMems_get?_cons, if_neg this]; exact hg)
      · -- a member to be remembered
        rw [if_neg hnm]
        have hjne : pos + j ≠ pos := by
          intro h
          rw [h, hpos] at hj
          exact hnm (by simpa using hj)
        have hstep := hi.step (setLocZ locs (pos + j) (markRangeZ (d.text ++ objAfter post tl w q) r))
          (by rw [setLocZ, List.length_set]; exact hi.len)
          (fun i m hik hm hmn => setLocZ_get_ne (by
            rintro rfl
            rw [hj] at hm
            exact hmn (by simpa using hm.symm)))
          (fun i hik hm => by
            obtain rfl := nodup_getElem?_inj hnd hm hj
            rw [setLocZ_get (by rw [hi.len]; exact hjlt)]
            rcases hst with ⟨h1, h2⟩ | h
            · exact Or.inl ⟨h1, by simp [markRangeZ, h2]⟩
            · exact Or.inr ⟨_, by simp [h.2.1], h⟩)
        have ih := findLoopZ_sem hnd hpos hk hw tl _ hstep
        have hred : findLoopZ t exact N pos k locs (objRest w q (.cons pre n pc qc d post tl))
            = findLoopZ t exact N pos k
                (setLocZ locs (pos + j) (markRangeZ (d.text ++ objAfter post tl w q) r))
                (objRest w q tl) := by
          rw [hobj] at hlt ⊢
          rw [findLoopZ.eq_def]
          simp only [hname, Res.ok_bind]
          rw [if_neg (by rw [hne]; exact (by decide : ¬ (false || (0x22 : UInt8) == 0x7D) = true)), hfn]
          rw [if_neg (by omega), if_neg (by omega), if_neg hjne]
          simp only [hsk, Res.ok_bind, hmv]
          rw [dif_pos hlt]
        rw [hred]
        exact ih
    · -- an unmapped member
      have hfn := findName_absent hok hmem (by omega)
      have hnm : nm ≠ n := by
        rintro rfl
        refine hmem ?_
        rw [List.drop_eq_getElem_cons hplt]
        have := (List.getElem?_eq_some_iff.1 hpos).2
        simp [this]
      rw [if_neg hnm]
      have hex : ¬ (exact = true) := fun he => hmem (hi.left he n (by simp [JMems_names_cons]))
      have hstep := hi.step locs hi.len (fun _ _ _ _ _ => rfl) (fun i hik hm => by
        exfalso
        refine hmem ?_
        have : (N.drop pos)[i - pos]? = some n := by
          rw [List.getElem?_drop, show pos + (i - pos) = i by omega, hm]
        exact List.mem_of_getElem? this)
      have ih := findLoopZ_sem hnd hpos hk hw tl _ hstep
      have hred : findLoopZ t exact N pos k locs (objRest w q (.cons pre n pc qc d post tl))
          = findLoopZ t exact N pos k locs (objRest w q tl) := by
        rw [hobj] at hlt ⊢
        rw [findLoopZ.eq_def]
        simp only [hname, Res.ok_bind]
        rw [if_neg (by rw [hne]; exact (by decide : ¬ (false || (0x22 : UInt8) == 0x7D) = true)), hfn]
        rw [if_neg (fun h => hex h.1), if_pos (Nat.le_refl _)]
        simp only [hsk, Res.ok_bind, hmv]
        rw [dif_pos hlt]
      rw [hred]
      exact ih

/-! ## The members of a class -/

/-- The mapped members are read as the values from an object with members `full`. -/
def MemSemZ (pU : Ty → Nat → Bytes → Res (Val × Bytes)) (pK : Ty → ZRange → Res Val) (full : JMems) :
    List Member → List Val → Prop
  | [], [] => True
  | m :: ms, v :: vs =>
    ((∃ d, full.get? m.name = some d ∧ SemUZ (pU m.ty) d v ∧ SemKZ (pK m.ty) d v ∧
        (d = .null → m.ty.isOpt = true ∧ v = .none)) ∨
      (full.get? m.name = none ∧ m.ty.isOpt = true ∧ v = .none)) ∧ MemSemZ pU pK full ms vs
  | _, _ => False

theorem objRest_okZ {w q : Bytes} {k : Nat} (hk : k ≤ q.length) {rest : JMems} :
    (!emptyZ k (objRest w q rest) && (frontZ (objRest w q rest) == chQuote || frontZ (objRest w q rest) == chRBrace))
      = true := by
  have hgt := objRest_gt w q rest
  match rest with
  | .nil =>
    simp only [objRest, List.length_cons] at hgt ⊢
    rw [emptyZ_cons (by omega) (by decide)]; rfl
  | .cons .. =>
    simp only [objRest, List.length_cons] at hgt ⊢
    rw [emptyZ_cons (by omega) (by decide)]; rfl

theorem trimChecked_objRest (w q : Bytes) (rest : JMems) : trimChecked (objRest w q rest) = objRest w q rest := by
  match rest with
  | .nil => exact trimChecked_cons_of_not _ (by decide)
  | .cons .. => exact trimChecked_cons_of_not _ (by decide)

/-- `classMembersZ` on the members `ms`, which can be read, and more. -/
theorem classMembersZ_prefix {t : TCfg} {tc exact : Bool} {N : List Bytes} (hnd : N.Nodup)
    {pU : Ty → Nat → Bytes → Res (Val × Bytes)} {pK : Ty → ZRange → Res Val} {full : JMems} {w q : Bytes} {k : Nat}
    (hk : k ≤ q.length) (hw : IsTail tc w) (ms₂ : List Member) :
    ∀ (ms : List Member) (vs : List Val) (pos : Nat) (rest : JMems) (locs : LocsZ) (bs : Bytes),
      N.drop pos = (ms ++ ms₂).map Member.name → CInvZ t tc exact N pos full rest locs →
      moveNextChecked bs = objRest w q rest → MemSemZ pU pK full ms vs →
      ∃ b rest' locs', classMembersZ t exact N pU pK k pos (ms ++ ms₂) locs bs
          = (classMembersZ t exact N pU pK k (pos + ms.length) ms₂ locs' b >>= fun p => .ok (vs ++ p.1, p.2)) ∧
        moveNextChecked b = objRest w q rest' ∧ CInvZ t tc exact N (pos + ms.length) full rest' locs'
  | [], [], pos, rest, locs, bs, hN, hi, hb, _ => by
    refine ⟨bs, rest, locs, ?_, hb, hi⟩
    simp only [List.nil_append, List.length_nil, Nat.add_zero]
    cases classMembersZ t exact N pU pK k pos ms₂ locs bs <;> rfl
  | m :: ms, v :: vs, pos, rest, locs, bs, hN, hi, hb, hs => by
    obtain ⟨hm, hs⟩ := hs
    have hpos : N[pos]? = some m.name := by
      have := congrArg (·[0]?) hN
      simpa [List.getElem?_drop] using this
    have hN' : N.drop (pos + 1) = (ms ++ ms₂).map Member.name := by
      rw [← List.drop_drop, hN]; rfl
    obtain ⟨hf1, hf2⟩ := findLoopZ_sem hnd hpos hk hw rest locs hi
    have hlen : pos + (m :: ms).length = pos + 1 + ms.length := by simp only [List.length_cons]; omega
    rw [hlen]
    conv in classMembersZ t exact N pU pK k pos _ _ _ => unfold classMembersZ
    simp only [List.cons_append]
    simp only [hb, objRest_okZ hk, Res.ok_bind, ensure_true]
    cases hg : rest.get? m.name with
    | some d =>
      -- the value is at the cursor
      obtain ⟨hfull, hloc⟩ := hi.ahead pos m.name d (Nat.le_refl _) hpos hg
      obtain ⟨locs', post, tl, hfl, hpost, hd, hi'⟩ := hf1 d hg
      have hhead : atZ chRBrace k (objRest w q rest) = false := by
        match rest, hg with
        | .nil, hg => simp [JMems.get?, JMems.toList] at hg
        | .cons .., _ => simp [atZ, objRest, frontZ]
      have hsem : SemUZ (pU m.ty) d v := by
        rcases hm with ⟨d', h1, h2, -⟩ | ⟨h1, -⟩
        · rw [hfull] at h1
          obtain rfl : d = d' := by simpa using h1
          exact h2
        · rw [hfull] at h1; simp at h1
      obtain ⟨r, hr, htr⟩ := hsem k _ (Nat.le_of_lt (Nat.lt_of_le_of_lt hk (objAfter_gt _ _ _ _))) (fun _ => ⟨objAfter_after (tl := tl) (k := q) hpost hw, fun _ _ => Nat.lt_of_le_of_lt hk (objAfter_gt _ _ _ _)⟩)
      have hmv : moveNextChecked r = objRest w q tl := by
        rw [moveNextChecked_trimEq htr, moveNext_obj hpost hi'.wf hw]
      obtain ⟨b, rest', locs'', h1, h2⟩ := classMembersZ_prefix hnd hk hw ms₂ ms vs (pos + 1) tl locs' r hN' hi' hmv hs
      refine ⟨b, rest', locs'', ?_, h2⟩
      simp only [findMemberZ, hhead, hloc, Bool.not_false, Bool.or_true, ensure_true,
        Res.ok_bind, trimChecked_objRest, Option.join, Option.bind, hfl, hr, h1, id]
      cases classMembersZ t exact N pU pK k (pos + 1 + ms.length) ms₂ locs'' b <;> rfl
    | none =>
      rcases hi.behind pos m.name (Nat.le_refl _) hpos hg with ⟨hfull, hloc⟩ | ⟨d, hfull, rfl, hloc⟩ |
        ⟨d, r, hfull, hloc, hst⟩
      · -- no such member
        obtain ⟨locs', hfl, hi'⟩ := hf2 hg
        obtain ⟨hopt, rfl⟩ : m.ty.isOpt = true ∧ v = .none := by
          rcases hm with ⟨d', h1, -⟩ | ⟨-, h⟩
          · rw [hfull] at h1; simp at h1
          · exact h
        obtain ⟨b, rest', locs'', h1, h2⟩ := classMembersZ_prefix hnd hk hw ms₂ ms vs (pos + 1) .nil locs' (chRBrace :: q) hN' hi'
          (moveNext_objRest (w := w) (k := q) .nil) hs
        refine ⟨b, rest', locs'', ?_, h2⟩
        simp only [findMemberZ, hloc, hopt, Bool.true_or, ensure_true,
          Res.ok_bind, trimChecked_objRest, Option.join, Option.bind, hfl, if_true, h1, id]
        cases classMembersZ t exact N pU pK k (pos + 1 + ms.length) ms₂ locs'' b <;> rfl
      · -- the member was `null`
        obtain ⟨locs', hfl, hi'⟩ := hf2 hg
        obtain ⟨hopt, rfl⟩ : m.ty.isOpt = true ∧ v = .none := by
          rcases hm with ⟨d', h1, -, -, h⟩ | ⟨h1, -⟩
          · rw [hfull] at h1
            exact h (by simpa using h1.symm)
          · rw [hfull] at h1; simp at h1
        obtain ⟨b, rest', locs'', h1, h2⟩ := classMembersZ_prefix hnd hk hw ms₂ ms vs (pos + 1) .nil locs' (chRBrace :: q) hN' hi'
          (moveNext_objRest (w := w) (k := q) .nil) hs
        refine ⟨b, rest', locs'', ?_, h2⟩
        simp only [findMemberZ, hloc, hopt, Bool.true_or, ensure_true,
          Res.ok_bind, trimChecked_objRest, Option.join, Option.bind, hfl, if_true, h1, id]
        cases classMembersZ t exact N pU pK k (pos + 1 + ms.length) ms₂ locs'' b <;> rfl
      · -- the member was passed before
        have hsem : SemKZ (pK m.ty) d v := by
          rcases hm with ⟨d', h1, -, h2, -⟩ | ⟨h1, -⟩
          · rw [hfull] at h1
            obtain rfl : d = d' := by simpa using h1
            exact h2
          · rw [hfull] at h1; simp at h1
        have hi' : CInvZ t tc exact N (pos + 1) full rest locs := hi.mono fun he n hn => by
          refine mem_drop_succ (hi.left he n hn) hpos ?_
          rintro rfl
          exact (JMems_get?_none.1 hg) hn
        obtain ⟨b, rest', locs'', h1, h2⟩ := classMembersZ_prefix hnd hk hw ms₂ ms vs (pos + 1) rest locs (objRest w q rest) hN' hi'
          (moveNext_objRest rest) hs
        refine ⟨b, rest', locs'', ?_, h2⟩
        simp only [findMemberZ, hloc, Option.join, Option.bind, Option.isSome_some, Bool.or_true, Bool.true_or,
          ensure_true, Res.ok_bind, trimChecked_objRest, hsem r hst, h1, id]
        cases classMembersZ t exact N pU pK k (pos + 1 + ms.length) ms₂ locs'' b <;> rfl
  | [], _ :: _, _, _, _, _, _, _, _, h => by simp [MemSemZ] at h
  | _ :: _, [], _, _, _, _, _, _, _, h => by simp [MemSemZ] at h


theorem classMembersZ_sem {t : TCfg} {tc exact : Bool} {N : List Bytes} (hnd : N.Nodup)
    {pU : Ty → Nat → Bytes → Res (Val × Bytes)} {pK : Ty → ZRange → Res Val} {full : JMems} {w q : Bytes} {k : Nat}
    (hk : k ≤ q.length) (hw : IsTail tc w) (ms : List Member) (vs : List Val) (pos : Nat) (rest : JMems) (locs : LocsZ) (bs : Bytes)
    (hN : N.drop pos = ms.map Member.name) (hi : CInvZ t tc exact N pos full rest locs)
    (hb : moveNextChecked bs = objRest w q rest) (hs : MemSemZ pU pK full ms vs) :
    ∃ b rest', classMembersZ t exact N pU pK k pos ms locs bs = .ok (vs, b) ∧ moveNextChecked b = objRest w q rest' ∧
      rest'.WFt tc ∧ rest'.depth < 4294967295 ∧ (exact = true → rest' = .nil) := by
  obtain ⟨b, rest', locs', h1, h2, h3⟩ := classMembersZ_prefix hnd (pU := pU) (pK := pK) hk hw [] ms vs pos rest locs bs
    (by simpa using hN) hi hb hs
  refine ⟨b, rest', by simpa [classMembersZ] using h1, h2, h3.wf, h3.depth, fun he => ?_⟩
  match rest' with
  | .nil => rfl
  | .cons _ n _ _ _ _ _ =>
    have := h3.left he n (by simp [JMems_names_cons])
    rw [← List.drop_drop, hN, ← List.length_map (f := Member.name), List.drop_length] at this
    simp at this

/-! ## The end of a class -/

theorem toNextMemberZ_objRest (w q : Bytes) (rest : JMems) : toNextMemberZ (objRest w q rest) = .ok (objRest w q rest) := by
  match rest with
  | .nil => simp [objRest, toNextMemberZ]
  | .cons .. => simp [objRest, toNextMemberZ]

theorem objRest_append (w q : Bytes) (rest : JMems) : objRest w q rest = objRest w [] rest ++ q := by
  match rest with
  | .nil => simp [objRest]
  | .cons .. => simp [objRest, objAfter]

theorem brLoop_objRest_nil {tc : Bool} {w : Bytes} (hw : IsTail tc w) (rest : JMems) (hr : rest.WFt tc)
    (hd : rest.depth < 4294967295) : ∃ n, ∀ c', brLoop objBr 1 0 0 (objRest w c' rest) = .ok (n, c') := by
  have hk : IsBr objBr := Or.inr rfl
  have hend : ∀ n c', brLoop objBr 1 0 n (chRBrace :: c') = .ok (n, c') := by
    intro n c'
    have := brLoop_primR hk 1 0 n c'
    simpa [objBr, dec32] using this
  match rest with
  | .nil => exact ⟨0, hend 0⟩
  | .cons pre n pc qc x post tl =>
    simp only [JMems.WFt] at hr
    obtain ⟨hpre, hn', hpc, hqc, hx, hpost, htl⟩ := hr
    simp only [JMems.depth] at hd
    refine ⟨tl.length + w.count chComma, fun c' => ?_⟩
    simp only [objRest, objAfter]
    rw [brLoop_string _ _ _ hn',
      brLoop_neutral hk _ _ _ _ _ (ws_neutral hpc),
      brLoop_neutral1 hk _ _ _ _ (by simp [Neutral]),
      brLoop_neutral hk _ _ _ _ _ (ws_neutral hqc),
      brLoop_val hk x hx _ _ _ _ (by omega) (by omega) (by omega),
      brLoop_neutral hk _ _ _ _ _ (ws_neutral hpost),
      brLoop_mems hk tl htl _ _ _ _ (by omega) (by omega) (by omega), brLoop_tail hk hw, hend]
    simp

theorem classCleanupZ_sem {tc exact : Bool} {w q b : Bytes} {k : Nat} (hk : k ≤ q.length) (hw : IsTail tc w)
    (rest : JMems) (hr : rest.WFt tc) (hd : rest.depth < 4294967295) (he : exact = true → rest = .nil)
    (hb : moveNextChecked b = objRest w q rest) : classCleanupZ exact k b = .ok (trimChecked q) := by
  have hgt := objRest_gt w q rest
  have hle := moveNext_le b
  rw [hb] at hle
  have hm1 : moreZ k b = true := moreZ_of_lt (by omega)
  have hm2 : moreZ k (objRest w q rest) = true := moreZ_of_lt (by omega)
  have hm3 : (frontZ (objRest w q rest) != 0) = true := by
    match rest with
    | .nil => rfl
    | .cons .. => rfl
  unfold classCleanupZ moveToNextClassMemberZ
  simp only [hm1, hm2, hm3, hb, ensure_true, Res.ok_bind, Bool.and_self, toNextMemberZ_objRest]
  cases exact with
  | true =>
    obtain rfl := he rfl
    simp [objRest, frontZ]
  | false =>
    have hl := brLoop_objRest_nil hw rest hr hd
    obtain ⟨n, hn⟩ := hl
    have hne : objRest w [] rest ≠ [] ∧ (objRest w [] rest).head? ≠ some objBr.primLeft := by
      match rest with
      | .nil => exact ⟨by simp [objRest], by simp [objRest, objBr]⟩
      | .cons .. => exact ⟨by simp [objRest], by simp [objRest, objBr]⟩
    obtain ⟨r, hr⟩ := skipBracketedZ_rest (br := objBr) (objRest w [] rest) q n hk hne.1 hne.2
      (fun c' => by rw [← objRest_append]; exact hn c')
    rw [← objRest_append] at hr
    simp [hr]

/-- Classes. -/
theorem parseObjZ_sem {t : TCfg} {tc exact : Bool} {ms : List Member}
    (hnd : (ms.map Member.name).Nodup) {pU : Ty → Nat → Bytes → Res (Val × Bytes)} {pK : Ty → ZRange → Res Val}
    {w : Bytes} {jm : JMems} {vs : List Val} (hwf : (JVal.obj w jm).WFt tc) (hd : jm.depth < 4294967295)
    (hsz : (JVal.obj w jm).text.length < 2 ^ 63)
    (hok : ∀ n ∈ jm.names, NameOk t (ms.map Member.name) n ∧ (PlainName n ∨ t.escNames = true))
    (honce : ∀ m ∈ ms, jm.names.count m.name ≤ 1)
    (hex : exact = true → ∀ n ∈ jm.names, ∃ m ∈ ms, m.name = n) (hs : MemSemZ pU pK jm ms vs) :
    SemUZ (parseObjZ t exact ms pU pK) (.obj w jm) (.cls vs) := by
  intro k q hk _
  obtain ⟨b, hb, hmv⟩ := obj_open (k := q) hwf
  simp only [JVal.WFt] at hwf
  have hlen : jm.text.length < 2 ^ 63 := by
    match jm with
    | .nil => simp [JMems.text]
    | .cons .. =>
      simp only [JVal.text, JMems.text, List.length_cons, List.length_append, List.length_nil] at hsz ⊢
      omega
  have hlocs : ∀ (k : Nat) (n : Bytes), (ms.map Member.name)[k]? = some n →
      (ms.map fun _ => (none : Option ZRange))[k]? = some none := by
    intro k n hn
    rw [List.getElem?_map] at hn ⊢
    cases h : ms[k]? with
    | none => rw [h] at hn; simp at hn
    | some m => rfl
  have hinv : CInvZ t tc exact (ms.map Member.name) 0 jm jm (ms.map fun _ => none) := by
    refine ⟨by simp, hwf.2, by omega, hlen, hok, ?_, ?_, ?_, ?_⟩
    · intro n hn
      obtain ⟨m, hm, rfl⟩ := List.mem_map.1 hn
      exact honce m hm
    · intro he n hn
      obtain ⟨m, hm, rfl⟩ := hex he n hn
      exact List.mem_map_of_mem hm
    · exact fun k n d _ hn hg => ⟨hg, hlocs k n hn⟩
    · exact fun k n _ hn hg => Or.inl ⟨hg, hlocs k n hn⟩
  obtain ⟨b', rest', h1, h2, h3, h4, h5⟩ := classMembersZ_sem hnd hk hwf.1 ms vs 0 jm _ (trimChecked b)
    (by simp) hinv hmv hs
  have hcl := classCleanupZ_sem hk hwf.1 rest' h3 h4 h5 h2
  have hle : (objRest w q jm).length ≤ b.length := by
    rw [← hmv]
    exact Nat.le_trans (moveNext_le _) (trimChecked_suffix b).length_le
  have hat : atZ chLBrace k (chLBrace :: b) = true :=
    atZ_cons (by have := objRest_gt w q jm; omega)
  unfold parseObjZ
  simp only [hb, hat, Res.ok_bind, ensure_true, List.tail_cons, h1, hcl]
  exact ⟨_, rfl, trimChecked_te (TrimEq.refl q)⟩

end Verif
