import Verif.Proof.TypedTop
import Verif.Proof.ZeroTermMain

/-!
# Typed parsing: members that are not mapped, in a class that must not have any
-/

namespace Verif

open Spec

/-- The search for `nm` at `pos` with a member that is not mapped ahead: it is hit, or `nm` comes first. -/
theorem findLoop_unknown {t : TCfg} (hck : t.cfg.checked = true) {tc : Bool} {N : List Bytes} (hnd : N.Nodup)
    {pos : Nat} {nm : Bytes} (hpos : N[pos]? = some nm) {full : JMems} {w k : Bytes} (hw : IsTail tc w) :
    ∀ (rest : JMems) (locs : Locs), CInv t tc false N pos full rest locs → (∃ n ∈ rest.names, n ∉ N) →
      findLoop t true N pos locs (objRest w k rest) = .err .unknownMember ∨
      ∃ d locs' post tl, rest.get? nm = some d ∧
        findLoop t true N pos locs (objRest w k rest) = .ok (.here, locs', d.text ++ objAfter post tl w k) ∧
        IsWs post ∧ CInv t tc false N (pos + 1) full tl locs' ∧ ∃ n ∈ tl.names, n ∉ N
  | .nil, locs, hi, h => by simp [JMems.names, JMems.toList] at h
  | .cons pre n pc qc d post tl, locs, hi, hun => by
    have hwf := hi.wf
    have hdep := hi.depth
    have hsz := hi.size
    simp only [JMems.WFt] at hwf
    obtain ⟨-, hn, hpc, hqc, hd, hpost, htl⟩ := hwf
    simp only [JMems.depth] at hdep
    simp only [JMems.text, List.length_cons, List.length_append] at hsz
    obtain ⟨hok, hpl⟩ := hi.ok n (by simp [JMems_names_cons])
    have hplt : pos < N.length := (List.getElem?_eq_some_iff.1 hpos).1
    have hname := parseName_ck (t := t) (k := objAfter post tl w k) hn (by omega) hpl hpc hqc hd
    have hobj : objRest w k (.cons pre n pc qc d post tl)
        = chQuote :: (n ++ chQuote :: (pc ++ chColon :: (qc ++ (d.text ++ objAfter post tl w k)))) := rfl
    obtain ⟨r, b, hsk, htr, hst⟩ := skipValue_stored (cfg := t.cfg) hd (by omega) (by omega)
      (objAfter_after (tl := tl) (k := k) hpost hw) (objAfter_nonsp _ _ _ _)
    have hmv : moveNextChecked b = objRest w k tl := by
      rw [moveNextChecked_trimEq htr, moveNext_obj hpost htl hw]
    have hlt : (objRest w k tl).length < (objRest w k (.cons pre n pc qc d post tl)).length := by
      have := objRest_length w k post tl
      rw [hobj]
      simp only [List.length_append, List.length_cons]
      omega
    by_cases hmem : n ∈ N.drop pos
    · have hun' : ∃ n ∈ tl.names, n ∉ N := by
        obtain ⟨m, hm, hmN⟩ := hun
        rw [JMems_names_cons] at hm
        rcases List.mem_cons.1 hm with rfl | hm
        · exact absurd (List.mem_of_mem_drop hmem) hmN
        · exact ⟨m, hm, hmN⟩
      obtain ⟨j, hj⟩ := List.getElem?_of_mem hmem
      rw [List.getElem?_drop] at hj
      have hfn := findName_present hok hnd hj (by omega : pos ≤ pos + j)
      have hjlt : pos + j < N.length := (List.getElem?_eq_some_iff.1 hj).1
      by_cases hnm : nm = n
      · -- found
        subst hnm
        have hj0 := nodup_getElem?_inj hnd hj hpos
        obtain ⟨locs', post', tl', h1, h2, -, h3⟩ := (findLoop_sem hnd hpos (k := k) hw _ locs hi).1 d
          (by rw [JMems_get?_cons, if_pos rfl])
        have hred : ∀ e, findLoop t e N pos locs (objRest w k (.cons pre nm pc qc d post tl))
            = .ok (.here, locs, d.text ++ objAfter post tl w k) := by
          intro e
          rw [findLoop.eq_def, hobj]
          simp only [hname, Res.ok_bind]
          rw [if_neg (by decide), hfn, hj0]
          rw [if_neg (by omega), if_neg (by omega), if_pos rfl]
        have hnN : nm ∉ tl.names := by
          intro hm
          have := hi.once nm (List.mem_of_getElem? hpos)
          rw [JMems_names_cons, List.count_cons_self] at this
          have := List.count_pos_iff.2 hm
          omega
        refine Or.inr ⟨d, locs, post, tl, by rw [JMems_get?_cons, if_pos rfl], hred true, hpost, ?_, hun'⟩
        refine ⟨hi.len, htl, by omega, by omega, ?_, ?_, by simp, ?_, ?_⟩
        · exact fun m hm => hi.ok m (by rw [JMems_names_cons]; exact List.mem_cons_of_mem _ hm)
        · intro m hm
          have := hi.once m hm
          rw [JMems_names_cons, List.count_cons] at this
          omega
        · intro i m d' hk hm hg
          have : m ≠ nm := by rintro rfl; rw [JMems_get?_none.2 hnN] at hg; simp at hg
          exact hi.ahead i m d' (by omega) hm (by rw [JMems_get?_cons, if_neg this]; exact hg)
        · intro i m hk hm hg
          have : m ≠ nm := by rintro rfl; have := nodup_getElem?_inj hnd hm hpos; omega
          exact hi.behind i m (by omega) hm (by rw [JMems_get?_cons, if_neg this]; exact hg)
      · -- a member to be remembered
        rw [JMems_get?_cons, if_neg hnm]
        have hjne : pos + j ≠ pos := by
          intro h
          rw [h, hpos] at hj
          exact hnm (by simpa using hj)
        have hstep := hi.step (setLoc locs (pos + j) (markRange (d.text ++ objAfter post tl w k) r)
            (afterRange (d.text ++ objAfter post tl w k) r))
          (by rw [setLoc, List.length_set]; exact hi.len)
          (fun i m hk hm hmn => setLoc_get_ne (by
            rintro rfl
            rw [hj] at hm
            exact hmn (by simpa using hm.symm)))
          (fun i hk hm => by
            obtain rfl := nodup_getElem?_inj hnd hm hj
            rw [setLoc_get (by rw [hi.len]; exact hjlt)]
            rcases hst with ⟨h1, h2⟩ | h
            · exact Or.inl ⟨h1, by simp [markRange, h2]⟩
            · exact Or.inr ⟨_, _, by simp [h.2.2.1], h⟩)
        have ih := findLoop_unknown hck hnd hpos (k := k) hw tl _ hstep hun'
        have hred : findLoop t true N pos locs (objRest w k (.cons pre n pc qc d post tl))
            = findLoop t true N pos
                (setLoc locs (pos + j) (markRange (d.text ++ objAfter post tl w k) r)
            (afterRange (d.text ++ objAfter post tl w k) r))
                (objRest w k tl) := by
          rw [hobj] at hlt ⊢
          rw [findLoop.eq_def]
          simp only [hname, Res.ok_bind]
          rw [if_neg (by decide), hfn]
          rw [if_neg (by omega), if_neg (by omega), if_neg hjne]
          simp only [hsk, Res.ok_bind, hck, Bool.true_eq_false, false_and, if_false, moveNext_ck hck, hmv]
          rw [dif_pos hlt]
        rw [hred]
        exact ih
    · -- an unmapped member
      have hfn := findName_absent hok hmem (by omega)
      left
      rw [findLoop.eq_def, hobj]
      simp only [hname, Res.ok_bind]
      rw [if_neg (by decide), hfn, if_pos ⟨trivial, Nat.le_refl _⟩, if_pos hck]

/-- Mapped members that are there can be read. -/
def MemReads (ck : Bool) (pU : Ty → Bytes → Res (Val × Bytes)) (pK : Ty → Range → Bytes → Res Val) (full : JMems) (ms : List Member) : Prop :=
  ∀ m ∈ ms, ∀ d, full.get? m.name = some d → ∃ v, SemU ck (pU m.ty) d v ∧ SemK (pK m.ty) d v

theorem classMembers_unknown {t : TCfg} (hck : t.cfg.checked = true) {tc : Bool} {N : List Bytes} (hnd : N.Nodup)
    {pU : Ty → Bytes → Res (Val × Bytes)} {pK : Ty → Range → Bytes → Res Val} {full : JMems} {w k : Bytes}
    (hw : IsTail tc w) :
    ∀ (ms : List Member) (pos : Nat) (rest : JMems) (locs : Locs) (bs : Bytes),
      N.drop pos = ms.map Member.name → CInv t tc false N pos full rest locs → (∃ n ∈ rest.names, n ∉ N) →
      moveNextChecked bs = objRest w k rest → MemReads t.cfg.checked pU pK full ms →
      classMembers t true N pU pK pos ms locs bs = .err .unknownMember ∨
      ∃ vs b rest', classMembers t true N pU pK pos ms locs bs = .ok (vs, b) ∧ moveNextChecked b = objRest w k rest' ∧
        ∃ n ∈ rest'.names, n ∉ N
  | [], pos, rest, locs, bs, hN, hi, hun, hb, _ => Or.inr ⟨[], bs, rest, rfl, hb, hun⟩
  | m :: ms, pos, rest, locs, bs, hN, hi, hun, hb, hs => by
    have hpos : N[pos]? = some m.name := by
      have := congrArg (·[0]?) hN
      simpa [List.getElem?_drop] using this
    have hN' : N.drop (pos + 1) = ms.map Member.name := by
      rw [← List.drop_drop, hN]; rfl
    have hhead : headIs (fun c => c == chRBrace) (objRest w k rest) = false := by
      match rest, hun with
      | .nil, h => simp [JMems.names, JMems.toList] at h
      | .cons .., _ => rfl
    have hs' : MemReads t.cfg.checked pU pK full ms := fun x hx => hs x (List.mem_cons_of_mem _ hx)
    unfold classMembers
    simp only [moveNext_ck hck, hb, Res.ok_bind, hck, assertWeak_checked, objRest_head, ensure_true, findMember, hhead,
      Bool.not_false, Bool.or_true, trimUnchecked_objRest]
    -- the search
    have hsearch : (locs[pos]?).join = none →
        (findLoop t true N pos locs (objRest w k rest) = .err .unknownMember ∨
        ∃ d locs' post tl, rest.get? m.name = some d ∧
        findLoop t true N pos locs (objRest w k rest) = .ok (.here, locs', d.text ++ objAfter post tl w k) ∧
        IsWs post ∧ CInv t tc false N (pos + 1) full tl locs' ∧ ∃ n ∈ tl.names, n ∉ N) :=
      fun _ => findLoop_unknown hck hnd hpos hw rest locs hi hun
    cases hl : (locs[pos]?).join with
    | none =>
      rcases hsearch hl with h | ⟨d, locs', post, tl, hg, hfl, hpost, hi', hun'⟩
      · left
        simp only [h, Res.err_bind]
      · obtain ⟨hfull, -⟩ := hi.ahead pos m.name d (Nat.le_refl _) hpos hg
        obtain ⟨v, hv, -⟩ := hs m (by simp) d hfull
        obtain ⟨r, hr, htr⟩ := hv _ (fun _ => objAfter_follows _ _ hpost hw) (fun _ => objAfter_nonsp _ _ _ _)
        have hmv : moveNextChecked r = objRest w k tl := by
          rw [moveNextChecked_trimEq htr, moveNext_obj hpost hi'.wf hw]
        simp only [hfl, Res.ok_bind, hr]
        rcases classMembers_unknown hck hnd (pU := pU) (pK := pK) hw ms (pos + 1) tl locs' r hN' hi' hun' hmv hs' with h | ⟨vs, b, rest', h, h'⟩
        · left; simp only [h, Res.err_bind]
        · exact Or.inr ⟨v :: vs, b, rest', by simp only [h, Res.ok_bind], h'⟩
    | some ra =>
      obtain ⟨r, a⟩ := ra
      have hloc : locs[pos]? = some (some (r, a)) := by
        cases h : locs[pos]? with
        | none => rw [h] at hl; cases hl
        | some x => rw [h] at hl; simp only [Option.join, Option.bind, id] at hl; rw [hl]
      have hg : rest.get? m.name = none := by
        cases hg : rest.get? m.name with
        | none => rfl
        | some d =>
          have := (hi.ahead pos m.name d (Nat.le_refl _) hpos hg).2
          rw [hloc] at this
          simp at this
      obtain ⟨v, hv⟩ : ∃ v, pK m.ty r a = .ok v := by
        rcases hi.behind pos m.name (Nat.le_refl _) hpos hg with ⟨-, h⟩ | ⟨d, -, -, h⟩ | ⟨d, r', a', hfull, h, hst⟩
        · rw [hloc] at h; simp at h
        · rw [hloc] at h; simp at h
        · rw [hloc] at h
          simp only [Option.some.injEq, Prod.mk.injEq] at h
          obtain ⟨rfl, rfl⟩ := h
          obtain ⟨v, -, hv⟩ := hs m (by simp) d hfull
          exact ⟨v, hv r a hst⟩
      simp only [Res.ok_bind, hv]
      rcases classMembers_unknown hck hnd (pU := pU) (pK := pK) hw ms (pos + 1) rest locs (objRest w k rest) hN' (hi.mono (by simp)) hun
        (moveNext_objRest rest) hs' with h | ⟨vs, b, rest', h, h'⟩
      · left; simp only [h, Res.err_bind]
      · exact Or.inr ⟨v :: vs, b, rest', by simp only [h, Res.ok_bind], h'⟩

theorem classCleanup_unknown {cfg : Cfg} (hck : cfg.checked = true) {w k b : Bytes} (rest : JMems) (hne : rest ≠ .nil)
    (hb : moveNextChecked b = objRest w k rest) : classCleanup cfg true b = .err .unknownMember := by
  match rest, hne with
  | .cons .., _ =>
    have hbe : b.isEmpty = false := by
      cases b with
      | nil =>
        have : moveNextChecked [] = [] := by decide +kernel
        rw [this] at hb
        simp [objRest] at hb
      | cons _ _ => rfl
    unfold classCleanup
    simp only [hck, assertWeak_checked, hbe, Bool.not_false, ensure_true, Res.ok_bind, moveNext_ck hck, hb]
    simp [objRest, moveToNextClassMember, headIs, ensure]

section
variable {t : TCfg} {Δ : Env} {nm : List Bytes → Bytes → Prop} {ea tc : Bool}
  (hck : t.cfg.checked = true) (henv : EnvOk Δ)
  (hnm : ∀ N n, nm N n → NameOk t N n ∧ (PlainName n ∨ t.escNames = true)) (hea : ea = t.exactAll)
include hck henv hnm hea

theorem memReads_of {ms : List Member} {jm : JMems} (hd : MOk tc jm)
    (hread : ∀ m ∈ ms, ∀ d, jm.get? m.name = some d → ∃ v, Reads Δ nm ea m.ty d v) :
    ∃ f0, ∀ f, f0 ≤ f → MemReads t.cfg.checked (parseU t Δ f) (parseK t Δ f) jm ms := by
  induction ms with
  | nil => exact ⟨0, fun f _ m hm => by cases hm⟩
  | cons x xs ih =>
    obtain ⟨f0, hf0⟩ := ih fun m hm => hread m (List.mem_cons_of_mem _ hm)
    cases hg : jm.get? x.name with
    | none =>
      refine ⟨f0, fun f hf m hm d h => ?_⟩
      rcases List.mem_cons.1 hm with rfl | hm
      · rw [hg] at h; cases h
      · exact hf0 f hf m hm d h
    | some d =>
      obtain ⟨v, hv⟩ := hread x (by simp) d hg
      obtain ⟨f1, hf1⟩ := reads_sem hck henv hnm hea hv (hd.get hg)
      refine ⟨max f0 f1, fun f hf m hm d' h => ?_⟩
      rcases List.mem_cons.1 hm with rfl | hm
      · rw [hg] at h
        cases h
        exact ⟨v, (hf1 f (by omega)).1, (hf1 f (by omega)).2⟩
      · exact hf0 f (by omega) m hm d' h

theorem parseObj_unknown {ms : List Member} {w : Bytes} {jm : JMems}
    (hnd : (ms.map Member.name).Nodup) (hd : DOk tc (.obj w jm))
    (hok : ∀ n ∈ jm.names, nm (ms.map Member.name) n) (honce : ∀ m ∈ ms, jm.names.count m.name ≤ 1)
    (hread : ∀ m ∈ ms, ∀ d, jm.get? m.name = some d → ∃ v, Reads Δ nm ea m.ty d v)
    (hun : ∃ n ∈ jm.names, n ∉ ms.map Member.name) :
    ∃ f0, ∀ f, f0 ≤ f → parseObj t true ms (parseU t Δ f) (parseK t Δ f) (JVal.obj w jm).text = .err .unknownMember := by
  obtain ⟨f0, hf0⟩ := memReads_of hck henv hnm hea hd.mems hread
  refine ⟨f0, fun f hf => ?_⟩
  have hw := hd.wf
  simp only [JVal.WFt] at hw
  have hlocs : ∀ (k : Nat) (n : Bytes), (ms.map Member.name)[k]? = some n →
      (ms.map fun _ => (none : Option (Range × Bytes)))[k]? = some none := by
    intro k n hn
    rw [List.getElem?_map] at hn ⊢
    cases h : ms[k]? with
    | none => rw [h] at hn; simp at hn
    | some m => rfl
  have hinv : CInv t tc false (ms.map Member.name) 0 jm jm (ms.map fun _ => none) := by
    refine ⟨by simp, hw.2, hd.mems.depth, hd.mems.size, fun n hn => hnm _ n (hok n hn), ?_, by simp, ?_, ?_⟩
    · intro n hn
      obtain ⟨m, hm, rfl⟩ := List.mem_map.1 hn
      exact honce m hm
    · exact fun k n d _ hn hg => ⟨hg, hlocs k n hn⟩
    · exact fun k n _ hn hg => Or.inl ⟨hg, hlocs k n hn⟩
  obtain ⟨b₀, hb₀, hmv⟩ := obj_open (k := []) hd.wf
  rw [List.append_nil] at hb₀
  unfold parseObj
  simp only [trim_ck hck, hb₀, Res.ok_bind, hck, assertWeak_checked, headIs, beq_self_eq_true, ensure_true, List.tail_cons]
  rcases classMembers_unknown hck hnd hw.1 ms 0 jm _ (trimChecked b₀) (by simp) hinv hun hmv (hf0 f hf) with h | ⟨vs, b, rest', h, h', n, hn, -⟩
  · rw [h]; rfl
  · rw [h]
    simp only [Res.ok_bind]
    rw [classCleanup_unknown hck rest' (by rintro rfl; simp [JMems.names, JMems.toList] at hn) h']
    rfl
end

/-! ## Zero terminated input -/

/-- The search for `nm` at `pos` with a member that is not mapped ahead: it is hit, or `nm` comes first. -/
theorem findLoopZ_unknown {t : TCfg} {tc : Bool} {N : List Bytes} (hnd : N.Nodup)
    {pos : Nat} {nm : Bytes} (hpos : N[pos]? = some nm) {full : JMems} {w q : Bytes} {k : Nat} (hk : k ≤ q.length) (hw : IsTail tc w) :
    ∀ (rest : JMems) (locs : LocsZ), CInvZ t tc false N pos full rest locs → (∃ n ∈ rest.names, n ∉ N) →
      findLoopZ t true N pos k locs (objRest w q rest) = .err .unknownMember ∨
      ∃ d locs' post tl, rest.get? nm = some d ∧
        findLoopZ t true N pos k locs (objRest w q rest) = .ok (.here, locs', d.text ++ objAfter post tl w q) ∧
        IsWs post ∧ CInvZ t tc false N (pos + 1) full tl locs' ∧ ∃ n ∈ tl.names, n ∉ N
  | .nil, locs, hi, h => by simp [JMems.names, JMems.toList] at h
  | .cons pre n pc qc d post tl, locs, hi, hun => by
    have hwf := hi.wf
    have hdep := hi.depth
    have hsz := hi.size
    simp only [JMems.WFt] at hwf
    obtain ⟨-, hn, hpc, hqc, hd, hpost, htl⟩ := hwf
    simp only [JMems.depth] at hdep
    simp only [JMems.text, List.length_cons, List.length_append] at hsz
    obtain ⟨hok, hpl⟩ := hi.ok n (by simp [JMems_names_cons])
    have hplt : pos < N.length := (List.getElem?_eq_some_iff.1 hpos).1
    have hka : k < (objAfter post tl w q).length := Nat.lt_of_le_of_lt hk (objAfter_gt _ _ _ _)
    have hname := parseNameZ_ok (t := t) (Nat.le_of_lt hka) hn (by omega) hpl hpc hqc hd
    have hobj : objRest w q (.cons pre n pc qc d post tl)
        = chQuote :: (n ++ chQuote :: (pc ++ chColon :: (qc ++ (d.text ++ objAfter post tl w q)))) := rfl
    obtain ⟨r, b, hsk, htr, hst⟩ := skipValueZ_stored (cfg := t.cfg) hd (by omega) (by omega)
      (objAfter_after (tl := tl) (k := q) hpost hw) hka
    have hmv : moveNextChecked b = objRest w q tl := by
      rw [moveNextChecked_trimEq htr, moveNext_obj hpost htl hw]
    have hlt : (objRest w q tl).length < (objRest w q (.cons pre n pc qc d post tl)).length := by
      have := objRest_length w q post tl
      rw [hobj]
      simp only [List.length_append, List.length_cons]
      omega
    have hne : emptyZ k (chQuote :: (n ++ chQuote :: (pc ++ chColon :: (qc ++ (d.text ++ objAfter post tl w q))))) = false :=
      emptyZ_cons (by simp only [List.length_append, List.length_cons]; omega) (by decide)
    by_cases hmem : n ∈ N.drop pos
    · have hun' : ∃ n ∈ tl.names, n ∉ N := by
        obtain ⟨m, hm, hmN⟩ := hun
        rw [JMems_names_cons] at hm
        rcases List.mem_cons.1 hm with rfl | hm
        · exact absurd (List.mem_of_mem_drop hmem) hmN
        · exact ⟨m, hm, hmN⟩
      obtain ⟨j, hj⟩ := List.getElem?_of_mem hmem
      rw [List.getElem?_drop] at hj
      have hfn := findName_present hok hnd hj (by omega : pos ≤ pos + j)
      have hjlt : pos + j < N.length := (List.getElem?_eq_some_iff.1 hj).1
      by_cases hnm : nm = n
      · -- found
        subst hnm
        have hj0 := nodup_getElem?_inj hnd hj hpos
        have hred : ∀ e, findLoopZ t e N pos k locs (objRest w q (.cons pre nm pc qc d post tl))
            = .ok (.here, locs, d.text ++ objAfter post tl w q) := by
          intro e
          rw [findLoopZ.eq_def, hobj]
          simp only [hname, Res.ok_bind]
          rw [if_neg (by rw [hne]; exact (by decide : ¬ (false || (0x22 : UInt8) == 0x7D) = true)), hfn, hj0]
          rw [if_neg (by omega), if_neg (by omega), if_pos rfl]
        have hnN : nm ∉ tl.names := by
          intro hm
          have := hi.once nm (List.mem_of_getElem? hpos)
          rw [JMems_names_cons, List.count_cons_self] at this
          have := List.count_pos_iff.2 hm
          omega
        refine Or.inr ⟨d, locs, post, tl, by rw [JMems_get?_cons, if_pos rfl], hred true, hpost, ?_, hun'⟩
        refine ⟨hi.len, htl, by omega, by omega, ?_, ?_, by simp, ?_, ?_⟩
        · exact fun m hm => hi.ok m (by rw [JMems_names_cons]; exact List.mem_cons_of_mem _ hm)
        · intro m hm
          have := hi.once m hm
          rw [JMems_names_cons, List.count_cons] at this
          omega
        · intro i m d' hik hm hg
          have : m ≠ nm := by rintro rfl; rw [JMems_get?_none.2 hnN] at hg; simp at hg
          exact hi.ahead i m d' (by omega) hm (by rw [JMems_get?_cons, if_neg this]; exact hg)
        · intro i m hik hm hg
          have : m ≠ nm := by rintro rfl; have := nodup_getElem?_inj hnd hm hpos; omega
          exact hi.behind i m (by omega) hm (by rw [JMems_get?_cons, if_neg this]; exact hg)
      · -- a member to be remembered
        rw [JMems_get?_cons, if_neg hnm]
        have hjne : pos + j ≠ pos := by
          intro h
          rw [h, hpos] at hj
          exact hnm (by simpa using hj)
        have hstep := hi.step (setLocZ locs (pos + j) (markRangeZ (d.text ++ objAfter post tl w q) r))
          (by rw [setLocZ, List.length_set]; exact hi.len)
          (fun i m hik hm hmn => setLocZ_get_ne (by
            rintro rfl
            rw [hj] at hm
            exact hmn (by simpa using hm.symm)))
          (fun i hik hm => by
            obtain rfl := nodup_getElem?_inj hnd hm hj
            rw [setLocZ_get (by rw [hi.len]; exact hjlt)]
            rcases hst with ⟨h1, h2⟩ | h
            · exact Or.inl ⟨h1, by simp [markRangeZ, h2]⟩
            · exact Or.inr ⟨_, by simp [h.2.1], h⟩)
        have ih := findLoopZ_unknown hnd hpos hk  hw tl _ hstep hun'
        have hred : findLoopZ t true N pos k locs (objRest w q (.cons pre n pc qc d post tl))
            = findLoopZ t true N pos k
                (setLocZ locs (pos + j) (markRangeZ (d.text ++ objAfter post tl w q) r))
                (objRest w q tl) := by
          rw [hobj] at hlt ⊢
          rw [findLoopZ.eq_def]
          simp only [hname, Res.ok_bind]
          rw [if_neg (by rw [hne]; exact (by decide : ¬ (false || (0x22 : UInt8) == 0x7D) = true)), hfn]
          rw [if_neg (by omega), if_neg (by omega), if_neg hjne]
          simp only [hsk, Res.ok_bind, hmv]
          rw [dif_pos hlt]
        rw [hred]
        exact ih
    · -- an unmapped member
      have hfn := findName_absent hok hmem (by omega)
      left
      rw [findLoopZ.eq_def, hobj]
      simp only [hname, Res.ok_bind]
      rw [if_neg (by rw [hne]; exact (by decide : ¬ (false || (0x22 : UInt8) == 0x7D) = true)), hfn, if_pos ⟨trivial, Nat.le_refl _⟩]

/-- Mapped members that are there can be read. -/
def MemReadsZ (pU : Ty → Nat → Bytes → Res (Val × Bytes)) (pK : Ty → ZRange → Res Val) (full : JMems) (ms : List Member) : Prop :=
  ∀ m ∈ ms, ∀ d, full.get? m.name = some d → ∃ v, SemUZ (pU m.ty) d v ∧ SemKZ (pK m.ty) d v

theorem classMembersZ_unknown {t : TCfg} {tc : Bool} {N : List Bytes} (hnd : N.Nodup)
    {pU : Ty → Nat → Bytes → Res (Val × Bytes)} {pK : Ty → ZRange → Res Val} {full : JMems} {w q : Bytes} {k : Nat} (hk : k ≤ q.length)
    (hw : IsTail tc w) :
    ∀ (ms : List Member) (pos : Nat) (rest : JMems) (locs : LocsZ) (bs : Bytes),
      N.drop pos = ms.map Member.name → CInvZ t tc false N pos full rest locs → (∃ n ∈ rest.names, n ∉ N) →
      moveNextChecked bs = objRest w q rest → MemReadsZ pU pK full ms →
      classMembersZ t true N pU pK k pos ms locs bs = .err .unknownMember ∨
      ∃ vs b rest', classMembersZ t true N pU pK k pos ms locs bs = .ok (vs, b) ∧ moveNextChecked b = objRest w q rest' ∧
        ∃ n ∈ rest'.names, n ∉ N
  | [], pos, rest, locs, bs, hN, hi, hun, hb, _ => Or.inr ⟨[], bs, rest, rfl, hb, hun⟩
  | m :: ms, pos, rest, locs, bs, hN, hi, hun, hb, hs => by
    have hpos : N[pos]? = some m.name := by
      have := congrArg (·[0]?) hN
      simpa [List.getElem?_drop] using this
    have hN' : N.drop (pos + 1) = ms.map Member.name := by
      rw [← List.drop_drop, hN]; rfl
    have hhead : atZ chRBrace k (objRest w q rest) = false := by
      match rest, hun with
      | .nil, h => simp [JMems.names, JMems.toList] at h
      | .cons .., _ => simp [atZ, objRest, frontZ]
    have hs' : MemReadsZ pU pK full ms := fun x hx => hs x (List.mem_cons_of_mem _ hx)
    unfold classMembersZ
    simp only [hb, objRest_okZ hk, Res.ok_bind, ensure_true, findMemberZ, hhead, Bool.not_false, Bool.or_true, trimChecked_objRest]
    -- the search
    have hsearch : (locs[pos]?).join = none →
        (findLoopZ t true N pos k locs (objRest w q rest) = .err .unknownMember ∨
        ∃ d locs' post tl, rest.get? m.name = some d ∧
        findLoopZ t true N pos k locs (objRest w q rest) = .ok (.here, locs', d.text ++ objAfter post tl w q) ∧
        IsWs post ∧ CInvZ t tc false N (pos + 1) full tl locs' ∧ ∃ n ∈ tl.names, n ∉ N) :=
      fun _ => findLoopZ_unknown hnd hpos hk hw rest locs hi hun
    cases hl : (locs[pos]?).join with
    | none =>
      rcases hsearch hl with h | ⟨d, locs', post, tl, hg, hfl, hpost, hi', hun'⟩
      · left
        simp only [h, Res.err_bind]
      · obtain ⟨hfull, -⟩ := hi.ahead pos m.name d (Nat.le_refl _) hpos hg
        obtain ⟨v, hv, -⟩ := hs m (by simp) d hfull
        obtain ⟨r, hr, htr⟩ := hv k _ (Nat.le_of_lt (Nat.lt_of_le_of_lt hk (objAfter_gt _ _ _ _))) (fun _ => ⟨objAfter_after (tl := tl) (k := q) hpost hw, fun _ _ => Nat.lt_of_le_of_lt hk (objAfter_gt _ _ _ _)⟩)
        have hmv : moveNextChecked r = objRest w q tl := by
          rw [moveNextChecked_trimEq htr, moveNext_obj hpost hi'.wf hw]
        simp only [hfl, Res.ok_bind, hr]
        rcases classMembersZ_unknown hnd (pU := pU) (pK := pK) hk hw ms (pos + 1) tl locs' r hN' hi' hun' hmv hs' with h | ⟨vs, b, rest', h, h'⟩
        · left; simp only [h, Res.err_bind]
        · exact Or.inr ⟨v :: vs, b, rest', by simp only [h, Res.ok_bind], h'⟩
    | some r =>
      have hloc : locs[pos]? = some (some r) := by
        cases h : locs[pos]? with
        | none => rw [h] at hl; cases hl
        | some x => rw [h] at hl; simp only [Option.join, Option.bind, id] at hl; rw [hl]
      have hg : rest.get? m.name = none := by
        cases hg : rest.get? m.name with
        | none => rfl
        | some d =>
          have := (hi.ahead pos m.name d (Nat.le_refl _) hpos hg).2
          rw [hloc] at this
          simp at this
      obtain ⟨v, hv⟩ : ∃ v, pK m.ty r = .ok v := by
        rcases hi.behind pos m.name (Nat.le_refl _) hpos hg with ⟨-, h⟩ | ⟨d, -, -, h⟩ | ⟨d, r', hfull, h, hst⟩
        · rw [hloc] at h; simp at h
        · rw [hloc] at h; simp at h
        · rw [hloc] at h
          simp only [Option.some.injEq] at h
          subst h
          obtain ⟨v, -, hv⟩ := hs m (by simp) d hfull
          exact ⟨v, hv r hst⟩
      simp only [Res.ok_bind, hv]
      rcases classMembersZ_unknown hnd (pU := pU) (pK := pK) hk hw ms (pos + 1) rest locs (objRest w q rest) hN' (hi.mono (by simp)) hun
        (moveNext_objRest rest) hs' with h | ⟨vs, b, rest', h, h'⟩
      · left; simp only [h, Res.err_bind]
      · exact Or.inr ⟨v :: vs, b, rest', by simp only [h, Res.ok_bind], h'⟩

theorem classCleanupZ_unknown {w q b : Bytes} {k : Nat} (hk : k ≤ q.length) (rest : JMems) (hne : rest ≠ .nil)
    (hb : moveNextChecked b = objRest w q rest) : classCleanupZ true k b = .err .unknownMember := by
  have hgt := objRest_gt w q rest
  have hle := moveNext_le b
  rw [hb] at hle
  have hm1 : moreZ k b = true := moreZ_of_lt (by omega)
  have hm2 : moreZ k (objRest w q rest) = true := moreZ_of_lt (by omega)
  have hm3 : (frontZ (objRest w q rest) != 0) = true := by
    match rest with
    | .nil => rfl
    | .cons .. => rfl
  unfold classCleanupZ moveToNextClassMemberZ
  simp only [hm1, hm2, hm3, hb, ensure_true, Res.ok_bind, Bool.and_self, toNextMemberZ_objRest]
  match rest, hne with
  | .cons .., _ => simp [objRest, frontZ, ensure]

section
variable {t : TCfg} {Δ : Env} {nm : List Bytes → Bytes → Prop} {ea tc : Bool}
  (hck : t.cfg.checked = true) (henv : EnvOk Δ)
  (hnm : ∀ N n, nm N n → NameOk t N n ∧ (PlainName n ∨ t.escNames = true)) (hea : ea = t.exactAll)
include hck henv hnm hea

theorem memReadsZ_of {ms : List Member} {jm : JMems} (hd : MOk tc jm)
    (hread : ∀ m ∈ ms, ∀ d, jm.get? m.name = some d → ∃ v, Reads Δ nm ea m.ty d v) :
    ∃ f0, ∀ f, f0 ≤ f → MemReadsZ (parseUZ t Δ f) (parseKZ t Δ f) jm ms := by
  induction ms with
  | nil => exact ⟨0, fun f _ m hm => by cases hm⟩
  | cons x xs ih =>
    obtain ⟨f0, hf0⟩ := ih fun m hm => hread m (List.mem_cons_of_mem _ hm)
    cases hg : jm.get? x.name with
    | none =>
      refine ⟨f0, fun f hf m hm d h => ?_⟩
      rcases List.mem_cons.1 hm with rfl | hm
      · rw [hg] at h; cases h
      · exact hf0 f hf m hm d h
    | some d =>
      obtain ⟨v, hv⟩ := hread x (by simp) d hg
      obtain ⟨f1, hf1⟩ := reads_semZ hck henv hnm hea hv (hd.get hg)
      refine ⟨max f0 f1, fun f hf m hm d' h => ?_⟩
      rcases List.mem_cons.1 hm with rfl | hm
      · rw [hg] at h
        cases h
        exact ⟨v, (hf1 f (by omega)).1, (hf1 f (by omega)).2⟩
      · exact hf0 f (by omega) m hm d' h

theorem parseObjZ_unknown {ms : List Member} {w : Bytes} {jm : JMems}
    (hnd : (ms.map Member.name).Nodup) (hd : DOk tc (.obj w jm))
    (hok : ∀ n ∈ jm.names, nm (ms.map Member.name) n) (honce : ∀ m ∈ ms, jm.names.count m.name ≤ 1)
    (hread : ∀ m ∈ ms, ∀ d, jm.get? m.name = some d → ∃ v, Reads Δ nm ea m.ty d v)
    (hun : ∃ n ∈ jm.names, n ∉ ms.map Member.name) :
    ∃ f0, ∀ f, f0 ≤ f → parseObjZ t true ms (parseUZ t Δ f) (parseKZ t Δ f) 0 (JVal.obj w jm).text = .err .unknownMember := by
  obtain ⟨f0, hf0⟩ := memReadsZ_of hck henv hnm hea hd.mems hread
  refine ⟨f0, fun f hf => ?_⟩
  have hw := hd.wf
  simp only [JVal.WFt] at hw
  have hlocs : ∀ (k : Nat) (n : Bytes), (ms.map Member.name)[k]? = some n →
      (ms.map fun _ => (none : Option ZRange))[k]? = some none := by
    intro k n hn
    rw [List.getElem?_map] at hn ⊢
    cases h : ms[k]? with
    | none => rw [h] at hn; simp at hn
    | some m => rfl
  have hinv : CInvZ t tc false (ms.map Member.name) 0 jm jm (ms.map fun _ => none) := by
    refine ⟨by simp, hw.2, hd.mems.depth, hd.mems.size, fun n hn => hnm _ n (hok n hn), ?_, by simp, ?_, ?_⟩
    · intro n hn
      obtain ⟨m, hm, rfl⟩ := List.mem_map.1 hn
      exact honce m hm
    · exact fun k n d _ hn hg => ⟨hg, hlocs k n hn⟩
    · exact fun k n _ hn hg => Or.inl ⟨hg, hlocs k n hn⟩
  obtain ⟨b₀, hb₀, hmv⟩ := obj_open (k := []) hd.wf
  rw [List.append_nil] at hb₀
  unfold parseObjZ
  have hle : (objRest w [] jm).length ≤ b₀.length := by
    rw [← hmv]
    exact Nat.le_trans (moveNext_le _) (trimChecked_suffix b₀).length_le
  have hat : atZ chLBrace 0 (chLBrace :: b₀) = true := atZ_cons (by have := objRest_gt w [] jm; omega)
  simp only [hb₀, hat, Res.ok_bind, ensure_true, List.tail_cons]
  rcases classMembersZ_unknown hnd (q := []) (k := 0) (Nat.le_refl _) hw.1 ms 0 jm _ (trimChecked b₀) (by simp) hinv hun hmv (hf0 f hf) with h | ⟨vs, b, rest', h, h', n, hn, -⟩
  · rw [h]; rfl
  · rw [h]
    simp only [Res.ok_bind]
    rw [classCleanupZ_unknown (q := []) (k := 0) (Nat.le_refl _) rest' (by rintro rfl; simp [JMems.names, JMems.toList] at hn) h']
    rfl
end

/-! ## Tuples with elements left over -/

theorem parseTup_unknown {cfg : Cfg} (hck : cfg.checked = true) {tc : Bool} {pU : Ty → Bytes → Res (Val × Bytes)}
    {ts : List Ty} {w : Bytes} {es rest : JElems} {vs : List Val} (hwf : (JVal.arr w es).WFt tc)
    (hd : es.depth < 4294967295) (hs : TupSem cfg.checked pU rest ts es vs) (hne : rest ≠ .nil) :
    parseTup cfg true ts pU (JVal.arr w es).text = .err .unknownMember := by
  obtain ⟨b, h1, h2, h3, -⟩ := arr_open (k := []) hwf
  simp only [JVal.WFt] at hwf
  have hm := tupMembers_sem (cfg := cfg) (k := []) hwf.1 ts es vs hwf.2 hs
  obtain ⟨hr1, -⟩ := hs.wf hwf.2 hd
  rw [List.append_nil] at h1
  unfold parseTup
  simp only [trim_ck hck, h1, Res.ok_bind, hck, assertWeak_checked, headIs, beq_self_eq_true, ensure_true,
    List.tail_cons, moveNext_ck hck, h2, h3, hm, if_true]
  match rest, hne with
  | .cons pre d post tl, _ =>
    simp only [JElems.WFt] at hr1
    have ht : trimChecked (arrRest w [] (.cons pre d post tl)) = arrRest w [] (.cons pre d post tl) :=
      trimChecked_text d hr1.2.1 _
    obtain ⟨c, cs, hc, -, hc2, -⟩ := text_head d hr1.2.1
    have hcm : (c == chRBrack) = false := by
      cases h : c == chRBrack with
      | false => rfl
      | true =>
        rw [beq_iff_eq] at h
        subst h
        revert hc2; decide
    rw [ht]
    simp only [arrRest, hc, List.cons_append, derefEnd_cons, Res.ok_bind, hcm]
    rfl

theorem parseTupZ_unknown {tc : Bool} {pU : Ty → Nat → Bytes → Res (Val × Bytes)}
    {ts : List Ty} {w : Bytes} {es rest : JElems} {vs : List Val} (hwf : (JVal.arr w es).WFt tc)
    (hd : es.depth < 4294967295) (hs : TupSemZ pU rest ts es vs) (hne : rest ≠ .nil) :
    parseTupZ true ts pU 0 (JVal.arr w es).text = .err .unknownMember := by
  obtain ⟨b, h1, h2, h3, -⟩ := arr_open (k := []) hwf
  simp only [JVal.WFt] at hwf
  have hm := tupMembersZ_sem (k := 0) (q := []) (Nat.le_refl _) hwf.1 ts es vs hwf.2 hs
  obtain ⟨hr1, -⟩ := hs.wf hwf.2 hd
  rw [List.append_nil] at h1
  have hgt := arrRest_gt w [] es
  have hle := moveNext_le b
  rw [h2] at hle
  have h4 : atZ chLBrack 0 (chLBrack :: b) = true := atZ_cons (by omega)
  unfold parseTupZ
  simp only [h1, h4, Res.ok_bind, ensure_true, List.tail_cons, h2, h3, hm]
  unfold arrCleanupZ
  match rest, hne with
  | .cons pre d post tl, _ =>
    simp only [JElems.WFt] at hr1
    have ht : trimChecked (arrRest w [] (.cons pre d post tl)) = arrRest w [] (.cons pre d post tl) :=
      trimChecked_text d hr1.2.1 _
    have hf : (frontZ (arrRest w [] (.cons pre d post tl)) == chRBrack) = false := by
      simpa [arrRest] using text_front hr1.2.1 _
    rw [ht]
    simp only [if_true, hf]
    rfl

/-! ## Classes stored in arrays with elements left over -/

theorem trim_not_close {tc : Bool} {w k b : Bytes} {es : JElems} (hwf : es.WFt tc) (hne : es ≠ .nil)
    (h : moveNextChecked b = arrRest w k es) : ∃ c cs, trimChecked b = c :: cs ∧ c ≠ chRBrack := by
  match es, hne with
  | .cons pre d post tl, _ =>
    simp only [JElems.WFt] at hwf
    obtain ⟨c, cs, hc, -, hc2, -⟩ := text_head d hwf.2.1
    have hcm : c ≠ chRBrack := by rintro rfl; revert hc2; decide
    simp only [arrRest, hc, List.cons_append] at h
    unfold moveNextChecked at h
    cases ht : trimChecked b with
    | nil => rw [ht] at h; simp at h
    | cons x xs =>
      rw [ht] at h
      refine ⟨x, xs, rfl, ?_⟩
      rintro rfl
      simp only [show (chRBrack : UInt8) ≠ chComma by decide, if_false, List.cons.injEq] at h
      exact hcm h.1.symm

theorem endAt_moveNext {tc : Bool} {w k b : Bytes} {es : JElems} (hw : IsTail tc w) (hwf : es.WFt tc) (hne : es ≠ .nil)
    (h : EndAt w k b es) : moveNextChecked b = arrRest w k es := by
  rcases h with ⟨post, hpost, ht⟩ | ⟨h, -⟩
  · rw [moveNextChecked_trimEq ht, moveNext_arr hpost hwf hw]
  · exact absurd h hne

theorem parseOrd_unknown {cfg : Cfg} (hck : cfg.checked = true) {tc : Bool} {pU : Ty → Bytes → Res (Val × Bytes)}
    {ms : List (Option Nat × Ty)} {w : Bytes} {es : JElems} {vs : List Val} (hwf : (JVal.arr w es).WFt tc)
    (hd : es.depth < 4294967295) (hl : ordEnd 0 ms < es.length) (hs : OrdSem cfg.checked pU false 0 ms es vs) :
    parseOrd cfg true ms pU (JVal.arr w es).text = .err .unknownMember := by
  obtain ⟨b, h1, h2, h3, -, h9⟩ := arr_open (k := []) hwf
  simp only [JVal.WFt] at hwf
  rw [List.append_nil] at h1
  obtain ⟨b', es', h4, h5, -, -, h7, h8⟩ := ordMembers_sem (cfg := cfg) (k := []) hwf.1 hs hwf.2 hd (trimChecked b)
    (by rw [moveNextChecked_trim]; exact h2)
  have hne := h7 (by omega)
  have hmv : moveNextChecked b' = arrRest w [] es' := by
    rcases h8 with ⟨-, rfl, rfl⟩ | h
    · rw [moveNextChecked_trim]; exact h2
    · exact endAt_moveNext hwf.1 h5 hne h
  obtain ⟨c, cs, hc, hcm⟩ := trim_not_close h5 hne hmv
  unfold parseOrd
  simp only [trim_ck hck, h1, Res.ok_bind, hck, assertWeak_checked, headIs, beq_self_eq_true, ensure_true,
    List.tail_cons, h4, if_true, hc, derefEnd_cons, beq_eq_false_iff_ne.2 hcm]
  rfl

theorem parseOrdZ_unknown (cfg : Cfg) {tc : Bool} {pU : Ty → Nat → Bytes → Res (Val × Bytes)}
    {ms : List (Option Nat × Ty)} {w : Bytes} {es : JElems} {vs : List Val} (hwf : (JVal.arr w es).WFt tc)
    (hd : es.depth < 4294967295) (hlen : es.text.length < 2 ^ 63) (hl : ordEnd 0 ms < es.length)
    (hs : OrdSemZ pU false 0 ms es vs) :
    parseOrdZ cfg true ms pU 0 (JVal.arr w es).text = .err .unknownMember := by
  obtain ⟨b, h1, h2, h3, -, h9⟩ := arr_open (k := []) hwf
  simp only [JVal.WFt] at hwf
  rw [List.append_nil] at h1
  obtain ⟨b', es', h4, h5, -, -, h7, h8⟩ := ordMembersZ_sem cfg (k := 0) (q := []) (Nat.le_refl _) hwf.1 hs hwf.2 hd hlen
    (trimChecked b) (by rw [moveNextChecked_trim]; exact h2)
  have hne := h7 (by omega)
  have hmv : moveNextChecked b' = arrRest w [] es' := by
    rcases h8 with ⟨-, rfl, rfl⟩ | h
    · rw [moveNextChecked_trim]; exact h2
    · exact endAt_moveNext hwf.1 h5 hne h
  obtain ⟨c, cs, hc, hcm⟩ := trim_not_close h5 hne hmv
  have hgt := arrRest_gt w [] es
  have hle := moveNext_le b
  rw [h2] at hle
  have hat : atZ chLBrack 0 (chLBrack :: b) = true := atZ_cons (by omega)
  unfold parseOrdZ
  simp only [h1, hat, Res.ok_bind, ensure_true, List.tail_cons, h4]
  unfold arrCleanupZ
  simp only [if_true, hc, frontZ_cons, beq_eq_false_iff_ne.2 hcm]
  rfl

section
variable {t : TCfg} {Δ : Env} {nm : List Bytes → Bytes → Prop} {ea tc : Bool}
  (hck : t.cfg.checked = true) (henv : EnvOk Δ)
  (hnm : ∀ N n, nm N n → NameOk t N n ∧ (PlainName n ∨ t.escNames = true)) (hea : ea = t.exactAll)
include hck henv hnm hea

theorem tupSem_of : ∀ (ts : List Ty) (es : JElems), EOk tc es → ts.length < es.toList.length →
    (∀ (p : Nat) (ty : Ty) (d : JVal), ts[p]? = some ty → es.toList[p]? = some d → ∃ v, Reads Δ nm ea ty d v) →
    ∃ rest vs f0, rest ≠ .nil ∧ ∀ f, f0 ≤ f → TupSem t.cfg.checked (parseU t Δ f) rest ts es vs
  | [], es, _, hl, _ => ⟨es, [], 0, by rintro rfl; simp [JElems.toList] at hl, fun _ _ => by simp [TupSem]⟩
  | _ :: _, .nil, _, hl, _ => by simp [JElems.toList] at hl
  | ty :: ts, .cons pre d post tl, hd, hl, hr => by
    obtain ⟨v, hv⟩ := hr 0 ty d rfl rfl
    obtain ⟨a, ha⟩ := reads_sem hck henv hnm hea hv hd.cons.1
    obtain ⟨rest, vs, b, hne, hb⟩ := tupSem_of ts tl hd.cons.2 (by simpa [JElems.toList] using hl)
      fun p ty' d' h1 h2 => hr (p + 1) ty' d' (by simpa using h1) (by simpa [JElems.toList] using h2)
    exact ⟨rest, v :: vs, max a b, hne, fun f hf => ⟨(ha f (by omega)).1, hb f (by omega)⟩⟩

theorem tupSemZ_of : ∀ (ts : List Ty) (es : JElems), EOk tc es → ts.length < es.toList.length →
    (∀ (p : Nat) (ty : Ty) (d : JVal), ts[p]? = some ty → es.toList[p]? = some d → ∃ v, Reads Δ nm ea ty d v) →
    ∃ rest vs f0, rest ≠ .nil ∧ ∀ f, f0 ≤ f → TupSemZ (parseUZ t Δ f) rest ts es vs
  | [], es, _, hl, _ => ⟨es, [], 0, by rintro rfl; simp [JElems.toList] at hl, fun _ _ => by simp [TupSemZ]⟩
  | _ :: _, .nil, _, hl, _ => by simp [JElems.toList] at hl
  | ty :: ts, .cons pre d post tl, hd, hl, hr => by
    obtain ⟨v, hv⟩ := hr 0 ty d rfl rfl
    obtain ⟨a, ha⟩ := reads_semZ hck henv hnm hea hv hd.cons.1
    obtain ⟨rest, vs, b, hne, hb⟩ := tupSemZ_of ts tl hd.cons.2 (by simpa [JElems.toList] using hl)
      fun p ty' d' h1 h2 => hr (p + 1) ty' d' (by simpa using h1) (by simpa [JElems.toList] using h2)
    exact ⟨rest, v :: vs, max a b, hne, fun f hf => ⟨(ha f (by omega)).1, hb f (by omega)⟩⟩

/-! ## Documents -/

theorem fromJson_unknown {i : Nat} {ms : List Member} {ex : Bool} {w : Bytes} {jm : JMems}
    (hi : Δ i = .obj ms ex) (hex : (ex || t.exactAll) = true) (hd : DOk tc (.obj w jm))
    (hok : ∀ n ∈ jm.names, nm (ms.map Member.name) n) (honce : ∀ m ∈ ms, jm.names.count m.name ≤ 1)
    (hread : ∀ m ∈ ms, ∀ d, jm.get? m.name = some d → ∃ v, Reads Δ nm ea m.ty d v)
    (hun : ∃ n ∈ jm.names, n ∉ ms.map Member.name) :
    ∃ f0, ∀ f, f0 ≤ f → fromJson t Δ f (.ref i) (JVal.obj w jm).text = .err .unknownMember := by
  obtain ⟨f0, hf0⟩ := parseObj_unknown hck henv hnm hea (henv.nodup i ms ex hi) hd hok honce hread hun
  refine ⟨f0 + 1, fun f hf => ?_⟩
  obtain ⟨f, rfl⟩ : ∃ g, f = g + 1 := ⟨f - 1, by omega⟩
  have hobj := hf0 f (by omega)
  have hne := text_ne_empty hd.wf []
  rw [List.append_nil] at hne
  unfold fromJson
  simp only [hne, Bool.not_false, ensure_true, Res.ok_bind, if_neg (text_last hd.wf), parseU, hi, hex, hck,
    assertWeak_checked, hobj, Res.err_bind]

theorem fromJsonZ_unknown {i : Nat} {ms : List Member} {ex : Bool} {w : Bytes} {jm : JMems}
    (hi : Δ i = .obj ms ex) (hex : (ex || t.exactAll) = true) (hd : DOk tc (.obj w jm))
    (hok : ∀ n ∈ jm.names, nm (ms.map Member.name) n) (honce : ∀ m ∈ ms, jm.names.count m.name ≤ 1)
    (hread : ∀ m ∈ ms, ∀ d, jm.get? m.name = some d → ∃ v, Reads Δ nm ea m.ty d v)
    (hun : ∃ n ∈ jm.names, n ∉ ms.map Member.name) :
    ∃ f0, ∀ f, f0 ≤ f → fromJsonZ t Δ f (.ref i) (JVal.obj w jm).text = .err .unknownMember := by
  obtain ⟨f0, hf0⟩ := parseObjZ_unknown hck henv hnm hea (henv.nodup i ms ex hi) hd hok honce hread hun
  refine ⟨f0 + 1, fun f hf => ?_⟩
  obtain ⟨f, rfl⟩ : ∃ g, f = g + 1 := ⟨f - 1, by omega⟩
  have hobj := hf0 f (by omega)
  have hne := text_ne_empty hd.wf []
  have hmo := moreZ_text hd.wf (k := 0) (q := []) (Nat.le_refl _)
  rw [List.append_nil] at hne hmo
  unfold fromJsonZ
  simp only [hne, Bool.not_false, ensure_true, Res.ok_bind, if_neg (text_last hd.wf), parseUZ, hi, hmo, hex, hobj,
    Res.err_bind]

theorem fromJson_unknownElem {i : Nat} {ts : List Ty} {ex : Bool} {w : Bytes} {es : JElems}
    (hi : Δ i = .tup ts ex) (hex : (ex || t.exactAll) = true) (hd : DOk tc (.arr w es))
    (hl : ts.length < es.toList.length)
    (hr : ∀ (p : Nat) (ty : Ty) (d : JVal), ts[p]? = some ty → es.toList[p]? = some d → ∃ v, Reads Δ nm ea ty d v) :
    ∃ f0, ∀ f, f0 ≤ f → fromJson t Δ f (.ref i) (JVal.arr w es).text = .err .unknownMember := by
  obtain ⟨rest, vs, f0, hne', hf0⟩ := tupSem_of hck henv hnm hea ts es hd.elems hl hr
  refine ⟨f0 + 1, fun f hf => ?_⟩
  obtain ⟨f, rfl⟩ : ∃ g, f = g + 1 := ⟨f - 1, by omega⟩
  have hobj := parseTup_unknown hck hd.wf hd.elems.depth (hf0 f (by omega)) hne'
  have hne := text_ne_empty hd.wf []
  rw [List.append_nil] at hne
  unfold fromJson
  simp only [hne, Bool.not_false, ensure_true, Res.ok_bind, if_neg (text_last hd.wf), parseU, hi, hex, hobj,
    Res.err_bind]

theorem fromJsonZ_unknownElem {i : Nat} {ts : List Ty} {ex : Bool} {w : Bytes} {es : JElems}
    (hi : Δ i = .tup ts ex) (hex : (ex || t.exactAll) = true) (hd : DOk tc (.arr w es))
    (hl : ts.length < es.toList.length)
    (hr : ∀ (p : Nat) (ty : Ty) (d : JVal), ts[p]? = some ty → es.toList[p]? = some d → ∃ v, Reads Δ nm ea ty d v) :
    ∃ f0, ∀ f, f0 ≤ f → fromJsonZ t Δ f (.ref i) (JVal.arr w es).text = .err .unknownMember := by
  obtain ⟨rest, vs, f0, hne', hf0⟩ := tupSemZ_of hck henv hnm hea ts es hd.elems hl hr
  refine ⟨f0 + 1, fun f hf => ?_⟩
  obtain ⟨f, rfl⟩ : ∃ g, f = g + 1 := ⟨f - 1, by omega⟩
  have hobj := parseTupZ_unknown hd.wf hd.elems.depth (hf0 f (by omega)) hne'
  have hne := text_ne_empty hd.wf []
  rw [List.append_nil] at hne
  unfold fromJsonZ
  simp only [hne, Bool.not_false, ensure_true, Res.ok_bind, if_neg (text_last hd.wf), parseUZ, hi, hex, hobj,
    Res.err_bind]

theorem fromJson_unknownOrd {i : Nat} {ms : List (Option Nat × Ty)} {ex : Bool} {w : Bytes} {es : JElems} {vs : List Val}
    (hi : Δ i = .ord ms ex) (hex : (ex || t.exactAll) = true) (hd : DOk tc (.arr w es)) (hl : ordEnd 0 ms < es.length)
    (hr : ReadsOrdered Δ nm ea false 0 ms es vs) :
    ∃ f0, ∀ f, f0 ≤ f → fromJson t Δ f (.ref i) (JVal.arr w es).text = .err .unknownMember := by
  obtain ⟨f0, hf0⟩ := ordered_sem hck henv hnm hea hr hd.elems
  refine ⟨f0 + 1, fun f hf => ?_⟩
  obtain ⟨f, rfl⟩ : ∃ g, f = g + 1 := ⟨f - 1, by omega⟩
  have hobj := parseOrd_unknown hck hd.wf hd.elems.depth hl (hf0 f (by omega))
  have hne := text_ne_empty hd.wf []
  rw [List.append_nil] at hne
  unfold fromJson
  simp only [hne, Bool.not_false, ensure_true, Res.ok_bind, if_neg (text_last hd.wf), parseU, hi, hex, hck,
    assertWeak_checked, hobj, Res.err_bind]

theorem fromJsonZ_unknownOrd {i : Nat} {ms : List (Option Nat × Ty)} {ex : Bool} {w : Bytes} {es : JElems} {vs : List Val}
    (hi : Δ i = .ord ms ex) (hex : (ex || t.exactAll) = true) (hd : DOk tc (.arr w es)) (hl : ordEnd 0 ms < es.length)
    (hr : ReadsOrdered Δ nm ea false 0 ms es vs) :
    ∃ f0, ∀ f, f0 ≤ f → fromJsonZ t Δ f (.ref i) (JVal.arr w es).text = .err .unknownMember := by
  obtain ⟨f0, hf0⟩ := ordered_semZ hck henv hnm hea hr hd.elems
  refine ⟨f0 + 1, fun f hf => ?_⟩
  obtain ⟨f, rfl⟩ : ∃ g, f = g + 1 := ⟨f - 1, by omega⟩
  have hobj := parseOrdZ_unknown t.cfg hd.wf hd.elems.depth hd.elems.size hl (hf0 f (by omega))
  have hne := text_ne_empty hd.wf []
  have hmo := moreZ_text hd.wf (k := 0) (q := []) (Nat.le_refl _)
  rw [List.append_nil] at hne hmo
  unfold fromJsonZ
  simp only [hne, Bool.not_false, ensure_true, Res.ok_bind, if_neg (text_last hd.wf), parseUZ, hi, hmo, hex, hobj,
    Res.err_bind]
end

end Verif
