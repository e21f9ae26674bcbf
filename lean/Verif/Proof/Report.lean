import Verif.Model.Report
import Verif.Proof.TypedTop

/-!
# Which member a class parse names
-/

namespace Verif

open Spec

/-- `classMembers` is a run of `classMember`. -/
theorem classMembers_cons (t : TCfg) (exact : Bool) (N : List Bytes) (pU : Ty → Bytes → Res (Val × Bytes)) (pK : Ty → Range → Bytes → Res Val)
    (pos : Nat) (m : Member) (ms : List Member) (locs : Locs) (bs : Bytes) :
    classMembers t exact N pU pK pos (m :: ms) locs bs =
      (classMember t exact N pU pK pos m locs bs >>= fun p => classMembers t exact N pU pK (pos + 1) ms p.2.1 p.2.2 >>= fun q => .ok (p.1 :: q.1, q.2)) := by
  conv => lhs; unfold classMembers
  unfold classMember
  cases moveNext t.cfg bs with
  | err e => rfl
  | ub => rfl
  | ok b =>
    simp only [Res.ok_bind]
    cases assertWeak t.cfg.checked (headIs (fun c => c == chQuote || c == chRBrace) b) .missingMemberNameOrEndOfClass with
    | err e => rfl
    | ub => rfl
    | ok u =>
      simp only [Res.ok_bind]
      cases findMember t exact N pos m.ty.isOpt locs b with
      | err e => rfl
      | ub => rfl
      | ok q =>
        obtain ⟨f, locs', b'⟩ := q
        simp only [Res.ok_bind]
        cases f with
        | here =>
          simp only
          cases pU m.ty b' with
          | err e => rfl
          | ub => rfl
          | ok q => rfl
        | known r after =>
          simp only
          cases pK m.ty r after with
          | err e => rfl
          | ub => rfl
          | ok q => rfl
        | absent =>
          simp only
          cases m.ty.isOpt <;> rfl

/-- A member that is missing makes `parse_class_member` throw. -/
theorem classMember_missing {t : TCfg} {exact : Bool} {N : List Bytes} {pU : Ty → Bytes → Res (Val × Bytes)} {pK : Ty → Range → Bytes → Res Val}
    {pos : Nat} {m : Member} {locs : Locs} {bs : Bytes} (h : memberMissing t exact N pos m locs bs = true) :
    classMember t exact N pU pK pos m locs bs = .err .missingMember := by
  unfold memberMissing at h
  unfold classMember
  cases hm : moveNext t.cfg bs with
  | err e => rw [hm] at h; simp at h
  | ub => rw [hm] at h; simp at h
  | ok b =>
    rw [hm] at h
    simp only [Bool.and_eq_true, Bool.or_eq_true, Bool.not_eq_true'] at h
    obtain ⟨h1, h2⟩ := h
    have ha : assertWeak t.cfg.checked (headIs (fun c => c == chQuote || c == chRBrace) b) .missingMemberNameOrEndOfClass = .ok () := by
      rcases h1 with h1 | h1
      · simp [assertWeak, h1]
      · rw [h1]; exact assertWeak_tt ..
    simp only [Res.ok_bind, ha]
    cases hf : findMember t exact N pos m.ty.isOpt locs b with
    | ub => rw [hf] at h2; simp [notFound] at h2
    | err e =>
      rw [hf] at h2
      cases e <;> simp [notFound] at h2 ⊢
    | ok q =>
      obtain ⟨f, locs', b'⟩ := q
      rw [hf] at h2
      cases f with
      | here => simp [notFound] at h2
      | known r a => simp [notFound] at h2
      | absent =>
        simp only [notFound, Bool.not_eq_true'] at h2
        simp [h2]

/-- If a name is given, reading the members ended with that exception. -/
theorem missingNamed_sound {t : TCfg} {exact : Bool} {N : List Bytes} {pU : Ty → Bytes → Res (Val × Bytes)} {pK : Ty → Range → Bytes → Res Val} :
    ∀ (ms : List Member) (pos : Nat) (locs : Locs) (bs n : Bytes), missingNamed t exact N pU pK pos ms locs bs = some n →
      classMembers t exact N pU pK pos ms locs bs = .err .missingMember ∧ ∃ m ∈ ms, m.name = n
  | [], _, _, _, _, h => by simp [missingNamed] at h
  | m :: ms, pos, locs, bs, n, h => by
    unfold missingNamed at h
    rw [classMembers_cons]
    by_cases hm : memberMissing t exact N pos m locs bs = true
    · rw [if_pos hm] at h
      rw [classMember_missing hm]
      exact ⟨rfl, m, by simp, by simpa using h⟩
    · rw [if_neg hm] at h
      cases hc : classMember t exact N pU pK pos m locs bs with
      | err e => rw [hc] at h; simp at h
      | ub => rw [hc] at h; simp at h
      | ok p =>
        obtain ⟨v, locs', b⟩ := p
        rw [hc] at h
        obtain ⟨h1, m', h2, h3⟩ := missingNamed_sound ms (pos + 1) locs' b n h
        simp only [Res.ok_bind, h1, Res.err_bind]
        exact ⟨trivial, m', by simp [h2], h3⟩

/-- One member of a document that has it right: the step of `classMembers_prefix`. -/
theorem classMember_sem {t : TCfg} {tc exact : Bool} {N : List Bytes} (hnd : N.Nodup)
    {pU : Ty → Bytes → Res (Val × Bytes)} {pK : Ty → Range → Bytes → Res Val} {full : JMems} {w k : Bytes}
    (hw : IsTail tc w) {m : Member} {ms : List Member} {v : Val} {vs : List Val} {pos : Nat} {rest : JMems} {locs : Locs} {bs : Bytes}
    (hpos : N[pos]? = some m.name) (hi : CInv t tc exact N pos full rest locs)
    (hb : moveNextChecked bs = objRest w k rest) (hs : MemSem t.cfg.checked pU pK full (m :: ms) (v :: vs)) :
    ∃ b rest' locs', classMember t exact N pU pK pos m locs bs = .ok (v, locs', b) ∧
        moveNextChecked b = objRest w k rest' ∧ CInv t tc exact N (pos + 1) full rest' locs' := by
  obtain ⟨hm, hs⟩ := hs
  obtain ⟨hf1, hf2⟩ := findLoop_sem hnd hpos (k := k) hw rest locs hi
  unfold classMember
  simp only [moveNext_of hb (objRest_ne _ _ _), Res.ok_bind, assertWeak_tt, objRest_head]
  cases hg : rest.get? m.name with
  | some d =>
    obtain ⟨hfull, hloc⟩ := hi.ahead pos m.name d (Nat.le_refl _) hpos hg
    obtain ⟨locs', post, tl, hfl, hpost, hd, hi'⟩ := hf1 d hg
    have hhead : headIs (fun c => c == chRBrace) (objRest w k rest) = false := by
      match rest, hg with
      | .nil, hg => simp [JMems.get?, JMems.toList] at hg
      | .cons .., _ => rfl
    have hsem : SemU t.cfg.checked (pU m.ty) d v := by
      rcases hm with ⟨d', h1, h2, -⟩ | ⟨h1, -⟩
      · rw [hfull] at h1
        obtain rfl : d = d' := by simpa using h1
        exact h2
      · rw [hfull] at h1; simp at h1
    obtain ⟨r, hr, htr⟩ := hsem _ (fun _ => objAfter_follows (tl := tl) (k := k) _ _ hpost hw)
      (fun _ => objAfter_nonsp _ _ _ _)
    have hmv : moveNextChecked r = objRest w k tl := by
      rw [moveNextChecked_trimEq htr, moveNext_obj hpost hi'.wf hw]
    refine ⟨r, tl, locs', ?_, hmv, hi'⟩
    simp only [findMember, hhead, hloc, Bool.not_false, Bool.or_true, assertWeak_tt,
      Res.ok_bind, trimUnchecked_objRest, Option.join, Option.bind, hfl, hr, id]
  | none =>
    rcases hi.behind pos m.name (Nat.le_refl _) hpos hg with ⟨hfull, hloc⟩ | ⟨d, hfull, rfl, hloc⟩ |
      ⟨d, r, a, hfull, hloc, hst⟩
    · obtain ⟨hck, hopt, rfl⟩ : t.cfg.checked = true ∧ m.ty.isOpt = true ∧ v = .none := by
        rcases hm with ⟨d', h1, -⟩ | ⟨-, h⟩
        · rw [hfull] at h1; simp at h1
        · exact h
      obtain ⟨locs', hfl, hi'⟩ := hf2 hck hg
      refine ⟨chRBrace :: k, .nil, locs', ?_, moveNext_objRest (w := w) (k := k) .nil, hi'⟩
      simp only [findMember, hloc, hopt, Bool.true_or, assertWeak_tt,
        Res.ok_bind, trimUnchecked_objRest, Option.join, Option.bind, hfl, if_true, id]
    · obtain ⟨hck, hopt, rfl⟩ : t.cfg.checked = true ∧ m.ty.isOpt = true ∧ v = .none := by
        rcases hm with ⟨d', h1, -, -, h⟩ | ⟨h1, -⟩
        · rw [hfull] at h1
          exact h (by simpa using h1.symm)
        · rw [hfull] at h1; simp at h1
      obtain ⟨locs', hfl, hi'⟩ := hf2 hck hg
      refine ⟨chRBrace :: k, .nil, locs', ?_, moveNext_objRest (w := w) (k := k) .nil, hi'⟩
      simp only [findMember, hloc, hopt, Bool.true_or, assertWeak_tt,
        Res.ok_bind, trimUnchecked_objRest, Option.join, Option.bind, hfl, if_true, id]
    · have hsem : SemK (pK m.ty) d v := by
        rcases hm with ⟨d', h1, -, h2, -⟩ | ⟨h1, -⟩
        · rw [hfull] at h1
          obtain rfl : d = d' := by simpa using h1
          exact h2
        · rw [hfull] at h1; simp at h1
      have hi' : CInv t tc exact N (pos + 1) full rest locs := hi.mono fun he n hn => by
        refine mem_drop_succ (hi.left he n hn) hpos ?_
        rintro rfl
        exact (JMems_get?_none.1 hg) hn
      refine ⟨objRest w k rest, rest, locs, ?_, moveNext_objRest rest, hi'⟩
      simp only [findMember, hloc, Option.join, Option.bind, Option.isSome_some, Bool.or_true, Bool.true_or,
        assertWeak_tt, Res.ok_bind, trimUnchecked_objRest, hsem r a hst, id]

/-- Members that are there are passed. -/
theorem missingNamed_prefix {t : TCfg} {tc exact : Bool} {N : List Bytes} (hnd : N.Nodup)
    {pU : Ty → Bytes → Res (Val × Bytes)} {pK : Ty → Range → Bytes → Res Val} {full : JMems} {w k : Bytes}
    (hw : IsTail tc w) (ms₂ : List Member) :
    ∀ (ms : List Member) (vs : List Val) (pos : Nat) (rest : JMems) (locs : Locs) (bs : Bytes),
      N.drop pos = (ms ++ ms₂).map Member.name → CInv t tc exact N pos full rest locs →
      moveNextChecked bs = objRest w k rest → MemSem t.cfg.checked pU pK full ms vs →
      ∃ b rest' locs', missingNamed t exact N pU pK pos (ms ++ ms₂) locs bs = missingNamed t exact N pU pK (pos + ms.length) ms₂ locs' b ∧
        moveNextChecked b = objRest w k rest' ∧ CInv t tc exact N (pos + ms.length) full rest' locs'
  | [], [], pos, rest, locs, bs, hN, hi, hb, _ => ⟨bs, rest, locs, rfl, hb, hi⟩
  | m :: ms, v :: vs, pos, rest, locs, bs, hN, hi, hb, hs => by
    have hpos : N[pos]? = some m.name := by
      have := congrArg (·[0]?) hN
      simpa [List.getElem?_drop] using this
    have hN' : N.drop (pos + 1) = (ms ++ ms₂).map Member.name := by
      rw [← List.drop_drop, hN]; rfl
    have hlen : pos + (m :: ms).length = pos + 1 + ms.length := by simp only [List.length_cons]; omega
    obtain ⟨b, rest', locs', h1, h2, h3⟩ := classMember_sem hnd hw hpos hi hb hs
    obtain ⟨b', rest'', locs'', h4, h5⟩ := missingNamed_prefix hnd hw ms₂ ms vs (pos + 1) rest' locs' b hN' h3 h2 hs.2
    refine ⟨b', rest'', locs'', ?_, by rw [hlen]; exact h5⟩
    rw [hlen, ← h4]
    conv => lhs; rw [List.cons_append]; unfold missingNamed
    have hmm : memberMissing t exact N pos m locs bs ≠ true := by
      intro hm
      rw [classMember_missing hm] at h1
      simp at h1
    rw [if_neg hmm, h1]
  | [], _ :: _, _, _, _, _, _, _, _, h => by simp [MemSem] at h
  | _ :: _, [], _, _, _, _, _, _, _, h => by simp [MemSem] at h

end Verif
