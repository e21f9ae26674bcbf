import Verif.Proof.SoundBasic
import Verif.Proof.Exact

/-!
# What an accepted document looks like: classes
-/

namespace Verif

open Spec

/-! ## One step of the search -/

/-- A quote in the body of a string stands behind a backslash. -/
theorem toQuote_body {n : Bytes} (hn : IsStrBody n) (hq : chQuote ∈ n) (k : Bytes) :
    (toQuote (n ++ chQuote :: k)).1.getLast? = some chBslash := by
  have add : ∀ (c : UInt8) (cs : Bytes), (toQuote cs).1.getLast? = some chBslash → c ≠ chQuote → (toQuote (c :: cs)).1.getLast? = some chBslash := by
    intro c cs h hc
    unfold toQuote
    rw [if_neg hc]
    simp only
    rw [List.getLast?_cons, h]
    rfl
  induction hn with
  | nil => simp at hq
  | @plain c cs h1 h2 h3 _ ih =>
    rcases List.mem_cons.1 hq with rfl | hq
    · exact absurd rfl h2
    · exact add _ _ (ih hq) h2
  | @esc c cs hc _ ih =>
    by_cases hcq : c = chQuote
    · subst hcq
      simp [toQuote]
    · simp only [List.mem_cons] at hq
      rcases hq with h | h | hq
      · cases h
      · exact absurd h.symm hcq
      · exact add _ _ (add _ _ (ih hq) hcq) (by decide)
  | @uni a b c d cs ha hb hc hd _ ih =>
    have hx : ∀ {x : UInt8}, IsHex x → x ≠ chQuote := by
      rintro x hx rfl
      simp [IsHex, IsDig] at hx
    simp only [List.mem_cons] at hq
    rcases hq with h | h | h | h | h | h | hq
    · cases h
    · cases h
    · exact absurd h.symm (hx ha)
    · exact absurd h.symm (hx hb)
    · exact absurd h.symm (hx hc)
    · exact absurd h.symm (hx hd)
    · exact add _ _ (add _ _ (add _ _ (add _ _ (add _ _ (add _ _ (ih hq) (hx hd)) (hx hc)) (hx hb)) (hx ha)) (by decide)) (by decide)

theorem parseName_sound {t : TCfg} (hck : t.cfg.checked = true) {tc : Bool} {n pc qc k x b : Bytes} {d : JVal}
    (hn : IsStrBody n) (hl : n.length < 2 ^ 63) (hpc : IsWs pc) (hqc : IsWs qc) (hd : d.WFt tc)
    (h : parseName t (chQuote :: (n ++ chQuote :: (pc ++ chColon :: (qc ++ (d.text ++ k))))) = .ok (x, b)) :
    x = n ∧ b = d.text ++ k := by
  cases he : t.escNames with
  | true =>
    rw [parseName_ck hn hl (Or.inr he) hpc hqc hd] at h
    simp only [Res.ok.injEq, Prod.mk.injEq] at h
    exact ⟨h.1.symm, h.2.symm⟩
  | false =>
    by_cases hq : chQuote ∈ n
    · exfalso
      have := toQuote_body hn hq (pc ++ chColon :: (qc ++ (d.text ++ k)))
      unfold parseName at h
      simp [he, this, hck, headIs, ensure] at h
    · have hnm := trimEndOfName_ck (cfg := t.cfg) (text_nonsp hd k) hpc hqc
      rw [trimChecked_text d hd] at hnm
      unfold parseName at h
      simp only [assertWeak_tt, headIs, beq_self_eq_true, Res.ok_bind, deref_cons, he, Bool.false_eq_true, if_false, List.tail_cons,
        toQuote_plain hq, hck, assertWeak_checked] at h
      simp only [Res.bind_eq_ok] at h
      obtain ⟨_, -, b', hb', h⟩ := h
      rw [hnm] at hb'
      simp only [Res.ok.injEq] at hb'
      simp only [Res.ok.injEq, Prod.mk.injEq] at h
      exact ⟨h.1.symm, by rw [← h.2, hb']⟩

section
variable {t : TCfg} (hck : t.cfg.checked = true) {tc exact : Bool} {N : List Bytes} {w k : Bytes} (hw : IsTail tc w)
include hck hw

theorem findLoop_step {pos : Nat} {locs : Locs} {pre n pc qc : Bytes} {d : JVal} {post : Bytes} {tl : JMems}
    (hok : MOk tc (.cons pre n pc qc d post tl)) {f : Found} {locs' : Locs} {b : Bytes}
    (h : findLoop t exact N pos locs (objRest w k (.cons pre n pc qc d post tl)) = .ok (f, locs', b)) :
    (N.length ≤ findName t N pos n ∧ exact = false ∧ findLoop t exact N pos locs (objRest w k tl) = .ok (f, locs', b)) ∨
    (findName t N pos n = pos ∧ pos < N.length ∧ f = .here ∧ locs' = locs ∧ b = d.text ++ objAfter post tl w k) ∨
    (findName t N pos n < N.length ∧ findName t N pos n ≠ pos ∧ ∃ l, findLoop t exact N pos l (objRest w k tl) = .ok (f, locs', b)) := by
  obtain ⟨hdo, -, hlen⟩ := hok.cons
  have hwf := hok.wf
  simp only [JMems.WFt] at hwf
  obtain ⟨-, hn, hpc, hqc, hd, hpost, htl⟩ := hwf
  have hobj : objRest w k (.cons pre n pc qc d post tl)
      = chQuote :: (n ++ chQuote :: (pc ++ chColon :: (qc ++ (d.text ++ objAfter post tl w k)))) := rfl
  obtain ⟨r, b₀, hsk, htr, -⟩ := skipValue_stored (cfg := t.cfg) hd hdo.depth hdo.size
    (objAfter_after (tl := tl) (k := k) hpost hw) (objAfter_nonsp _ _ _ _)
  have hmv : moveNextChecked b₀ = objRest w k tl := by
    rw [moveNextChecked_trimEq htr, moveNext_obj hpost htl hw]
  rw [findLoop.eq_def, hobj] at h
  simp only at h
  rw [if_neg (by decide)] at h
  simp only [Res.bind_eq_ok] at h
  obtain ⟨⟨x, bx⟩, hx, h⟩ := h
  obtain ⟨rfl, rfl⟩ := parseName_sound hck hn hlen hpc hqc hd hx
  simp only at h
  split at h
  · cases h
  · rename_i hex
    split at h
    · rename_i hle
      simp only [hsk, Res.ok_bind, moveNext_ck hck, hmv] at h
      split at h
      · refine Or.inl ⟨hle, ?_, h⟩
        cases he : exact with
        | false => rfl
        | true => exact absurd ⟨he, hle⟩ hex
      · cases h
    · rename_i hlt
      split at h
      · rename_i heq
        simp only [Res.ok.injEq, Prod.mk.injEq] at h
        obtain ⟨rfl, rfl, rfl⟩ := h
        exact Or.inr (Or.inl ⟨heq, by omega, rfl, rfl, rfl⟩)
      · rename_i hne
        simp only [hsk, Res.ok_bind, hck, Bool.true_eq_false, false_and, if_false, moveNext_ck hck, hmv] at h
        split at h
        · exact Or.inr (Or.inr ⟨by omega, hne, _, h⟩)
        · cases h

theorem findLoop_walk {pos : Nat} : ∀ (rest : JMems) (locs : Locs), MOk tc rest → ∀ {f : Found} {locs' : Locs} {b : Bytes},
    findLoop t exact N pos locs (objRest w k rest) = .ok (f, locs', b) →
    (f = .absent ∧ b = objRest w k .nil) ∨
    (f = .here ∧ ∃ d post tl, b = d.text ++ objAfter post tl w k ∧ IsWs post ∧ DOk tc d ∧ MOk tc tl)
  | .nil, locs, _, f, locs', b, h => by
    rw [findLoop.eq_def] at h
    simp only [objRest, if_true, Res.ok.injEq, Prod.mk.injEq] at h
    exact Or.inl ⟨h.1.symm, h.2.2.symm⟩
  | .cons pre n pc qc d post tl, locs, hok, f, locs', b, h => by
    obtain ⟨hdo, htl, -⟩ := hok.cons
    have hwf := hok.wf
    simp only [JMems.WFt] at hwf
    rcases findLoop_step hck hw hok h with ⟨-, -, h⟩ | ⟨-, -, rfl, -, rfl⟩ | ⟨-, -, l, h⟩
    · exact findLoop_walk tl locs htl h
    · exact Or.inr ⟨rfl, d, post, tl, rfl, hwf.2.2.2.2.2.1, hdo, htl⟩
    · exact findLoop_walk tl l htl h

/-- One member of a class, taken apart. -/
theorem classMembers_step {pU : Ty → Bytes → Res (Val × Bytes)} {pK : Ty → Range → Bytes → Res Val} {m : Member} {ms : List Member}
    {pos : Nat} {rest : JMems} (hok : MOk tc rest) {locs : Locs} {bs b : Bytes} {vs : List Val} (hb : moveNextChecked bs = objRest w k rest)
    (h : classMembers t exact N pU pK pos (m :: ms) locs bs = .ok (vs, b)) :
    (∃ r a v vs', (locs[pos]?).join = some (r, a) ∧ pK m.ty r a = .ok v ∧
      classMembers t exact N pU pK (pos + 1) ms locs (objRest w k rest) = .ok (vs', b)) ∨
    ((locs[pos]?).join = none ∧ ∃ locs' b' v b₂ vs', findLoop t exact N pos locs (objRest w k rest) = .ok (.here, locs', b') ∧
      pU m.ty b' = .ok (v, b₂) ∧ classMembers t exact N pU pK (pos + 1) ms locs' b₂ = .ok (vs', b)) ∨
    ((locs[pos]?).join = none ∧ m.ty.isOpt = true ∧ ∃ locs' vs', findLoop t exact N pos locs (objRest w k rest) = .ok (.absent, locs', chRBrace :: k) ∧
      classMembers t exact N pU pK (pos + 1) ms locs' (chRBrace :: k) = .ok (vs', b)) := by
  unfold classMembers at h
  simp only [moveNext_ck hck, hb, Res.ok_bind, assertWeak_tt, objRest_head] at h
  simp only [Res.bind_eq_ok, findMember, trimUnchecked_objRest, Res.ok.injEq] at h
  obtain ⟨⟨f, locs', b'⟩, ⟨_, -, _, rfl, hf⟩, ⟨v, b₂⟩, hv, ⟨vs', b₃⟩, hcm, hres⟩ := h
  simp only [Prod.mk.injEq] at hres
  obtain ⟨-, rfl⟩ := hres
  split at hf
  · rename_i r a hj
    simp only [Res.ok.injEq, Prod.mk.injEq] at hf
    obtain ⟨rfl, rfl, rfl⟩ := hf
    simp only [Res.bind_eq_ok, Res.ok.injEq, Prod.mk.injEq] at hv
    obtain ⟨v', hv, rfl, rfl⟩ := hv
    exact Or.inl ⟨r, a, v', vs', hj, hv, hcm⟩
  · rename_i hj
    rcases findLoop_walk hck hw rest locs hok hf with ⟨rfl, rfl⟩ | ⟨rfl, -⟩
    · simp only at hv
      split at hv
      · rename_i hopt
        simp only [Res.ok.injEq, Prod.mk.injEq] at hv
        obtain ⟨-, rfl⟩ := hv
        exact Or.inr (Or.inr ⟨hj, hopt, locs', vs', hf, hcm⟩)
      · cases hv
    · exact Or.inr (Or.inl ⟨hj, locs', b', v, b₂, vs', hf, hv, hcm⟩)

theorem classMembers_walk {pU : Ty → Bytes → Res (Val × Bytes)} {pK : Ty → Range → Bytes → Res Val} {S : Ty → Prop} {P : Ty → JVal → Prop}
    (hU : ∀ ty d, S ty → DOk tc d → SoundU (pU ty) d (P ty d)) :
    ∀ (ms : List Member) (pos : Nat) (rest : JMems) (locs : Locs) (bs b : Bytes) (vs : List Val), (∀ m ∈ ms, S m.ty) → MOk tc rest →
      moveNextChecked bs = objRest w k rest → classMembers t exact N pU pK pos ms locs bs = .ok (vs, b) →
      ∃ rest', moveNextChecked b = objRest w k rest' ∧ MOk tc rest'
  | [], pos, rest, locs, bs, b, vs, hS, hok, hb, h => by
    simp only [classMembers, Res.ok.injEq, Prod.mk.injEq] at h
    obtain ⟨-, rfl⟩ := h
    exact ⟨rest, hb, hok⟩
  | m :: ms, pos, rest, locs, bs, b, vs, hS, hok, hb, h => by
    rcases classMembers_step hck hw hok hb h with ⟨r, a, v, vs', -, -, h⟩ | ⟨-, locs', b', v, b₂, vs', hf, hp, h⟩ | ⟨-, -, locs', vs', -, h⟩
    · exact classMembers_walk hU ms _ rest locs _ b vs' (fun x hx => hS x (List.mem_cons_of_mem _ hx)) hok (moveNext_objRest rest) h
    · rcases findLoop_walk hck hw rest locs hok hf with ⟨h, -⟩ | ⟨-, d, post, tl, rfl, hpost, hdo, htl⟩
      · cases h
      · obtain ⟨htr, -⟩ := hU m.ty d (hS m (List.mem_cons_self ..)) hdo _ _ _ (objAfter_after (tl := tl) (k := k) hpost hw) hp
        refine classMembers_walk hU ms _ tl locs' b₂ b vs' (fun x hx => hS x (List.mem_cons_of_mem _ hx)) htl ?_ h
        rw [moveNextChecked_trimEq htr, moveNext_obj hpost htl.wf hw]
    · exact classMembers_walk hU ms _ .nil locs' _ b vs' (fun x hx => hS x (List.mem_cons_of_mem _ hx)) ⟨by simp [JMems.WFt], by simp [JMems.depth], by simp [JMems.text]⟩
        (moveNext_objRest (w := w) (k := k) .nil) h

/-- The members, whatever their order. -/
theorem classMembers_loose (hnd : N.Nodup) {pU : Ty → Bytes → Res (Val × Bytes)} {pK : Ty → Range → Bytes → Res Val} {S : Ty → Prop} {P Q : Ty → JVal → Prop}
    (hU : ∀ ty d, S ty → DOk tc d → SoundU (pU ty) d (P ty d))
    (hK : ∀ ty d r a v, S ty → DOk tc d → Stored d r a → pK ty r a = .ok v → Q ty d) {full : JMems} (hfull : MOk tc full) :
    ∀ (ms : List Member) (pos : Nat) (rest : JMems) (locs : Locs) (bs b : Bytes) (vs : List Val), (∀ m ∈ ms, S m.ty) →
      N.drop pos = ms.map Member.name → CInv t tc exact N pos full rest locs → moveNextChecked bs = objRest w k rest →
      classMembers t exact N pU pK pos ms locs bs = .ok (vs, b) →
      (∀ m ∈ ms, full.get? m.name = none → m.ty.isOpt = true) ∧
      ∀ m ∈ ms, ∀ d, full.get? m.name = some d → P m.ty d ∨ (d = .null ∧ m.ty.isOpt = true) ∨ Q m.ty d
  | [], pos, rest, locs, bs, b, vs, hS, hN, hi, hb, h => by simp
  | m :: ms, pos, rest, locs, bs, b, vs, hS, hN, hi, hb, h => by
    have hpos : N[pos]? = some m.name := by
      have := congrArg (·[0]?) hN
      simpa [List.getElem?_drop] using this
    have hN' : N.drop (pos + 1) = ms.map Member.name := by
      rw [← List.drop_drop, hN]; rfl
    have hok : MOk tc rest := ⟨hi.wf, hi.depth, hi.size⟩
    obtain ⟨hf1, hf2⟩ := findLoop_sem hnd hpos (k := k) hw rest locs hi
    have done : ((full.get? m.name = none → m.ty.isOpt = true) ∧
          ∀ d, full.get? m.name = some d → P m.ty d ∨ (d = .null ∧ m.ty.isOpt = true) ∨ Q m.ty d) →
        ((∀ m ∈ ms, full.get? m.name = none → m.ty.isOpt = true) ∧
          ∀ m ∈ ms, ∀ d, full.get? m.name = some d → P m.ty d ∨ (d = .null ∧ m.ty.isOpt = true) ∨ Q m.ty d) →
        (∀ x ∈ m :: ms, full.get? x.name = none → x.ty.isOpt = true) ∧
          ∀ x ∈ m :: ms, ∀ d, full.get? x.name = some d → P x.ty d ∨ (d = .null ∧ x.ty.isOpt = true) ∨ Q x.ty d := by
      rintro ⟨h1, h2⟩ ⟨h3, h4⟩
      refine ⟨fun x hx => ?_, fun x hx => ?_⟩
      · rcases List.mem_cons.1 hx with rfl | hx
        · exact h1
        · exact h3 x hx
      · rcases List.mem_cons.1 hx with rfl | hx
        · exact h2
        · exact h4 x hx
    rcases classMembers_step hck hw hok hb h with ⟨r, a, v, vs', hj, hp, h⟩ | ⟨hj, locs', b', v, b₂, vs', hf, hp, h⟩ |
      ⟨hj, hopt, locs', vs', hf, h⟩
    · -- passed before
      have hloc : locs[pos]? = some (some (r, a)) := by
        cases hl : locs[pos]? with
        | none => rw [hl] at hj; cases hj
        | some x => rw [hl] at hj; simp only [Option.join, Option.bind, id] at hj; rw [hj]
      have hg : rest.get? m.name = none := by
        cases hg : rest.get? m.name with
        | none => rfl
        | some d =>
          have := (hi.ahead pos m.name d (Nat.le_refl _) hpos hg).2
          rw [hloc] at this
          simp at this
      have hi' : CInv t tc exact N (pos + 1) full rest locs := hi.mono fun he n hn => by
        refine mem_drop_succ (hi.left he n hn) hpos ?_
        rintro rfl
        exact (JMems_get?_none.1 hg) hn
      refine done ?_ (classMembers_loose hnd hU hK hfull ms _ rest locs _ b vs' (fun x hx => hS x (List.mem_cons_of_mem _ hx)) hN' hi' (moveNext_objRest rest) h)
      rcases hi.behind pos m.name (Nat.le_refl _) hpos hg with ⟨-, h⟩ | ⟨d, -, -, h⟩ | ⟨d, r', a', hfl, h, hst⟩
      · rw [hloc] at h; simp at h
      · rw [hloc] at h; simp at h
      · rw [hloc] at h
        simp only [Option.some.injEq, Prod.mk.injEq] at h
        obtain ⟨rfl, rfl⟩ := h
        refine ⟨fun h => by rw [hfl] at h; simp at h, fun d' hd' => ?_⟩
        rw [hfl] at hd'
        obtain rfl : d = d' := by simpa using hd'
        exact Or.inr (Or.inr (hK m.ty d r a v (hS m (List.mem_cons_self ..)) (hfull.get hfl) hst hp))
    · -- at the cursor
      cases hg : rest.get? m.name with
      | none =>
        obtain ⟨l, hl, -⟩ := hf2 hck hg
        rw [hf] at hl
        simp at hl
      | some d =>
        obtain ⟨hfl, -⟩ := hi.ahead pos m.name d (Nat.le_refl _) hpos hg
        obtain ⟨l, post, tl, hl, hpost, hd, hi'⟩ := hf1 d hg
        rw [hf] at hl
        simp only [Res.ok.injEq, Prod.mk.injEq, true_and] at hl
        obtain ⟨rfl, rfl⟩ := hl
        obtain ⟨htr, hP⟩ := hU m.ty d (hS m (List.mem_cons_self ..)) (hfull.get hfl) _ _ _ (objAfter_after (tl := tl) (k := k) hpost hw) hp
        refine done ⟨fun h => by rw [hfl] at h; simp at h, fun d' hd' => ?_⟩
          (classMembers_loose hnd hU hK hfull ms _ tl locs' b₂ b vs' (fun x hx => hS x (List.mem_cons_of_mem _ hx)) hN' hi' (by
            rw [moveNextChecked_trimEq htr, moveNext_obj hpost hi'.wf hw]) h)
        rw [hfl] at hd'
        obtain rfl : d = d' := by simpa using hd'
        exact Or.inl hP
    · -- not there, or `null`
      cases hg : rest.get? m.name with
      | some d =>
        obtain ⟨l, post, tl, hl, -⟩ := hf1 d hg
        rw [hf] at hl
        simp at hl
      | none =>
        obtain ⟨l, hl, hi'⟩ := hf2 hck hg
        rw [hf] at hl
        simp only [Res.ok.injEq, Prod.mk.injEq, true_and, and_true] at hl
        subst hl
        refine done ⟨fun _ => hopt, fun d hd => ?_⟩
          (classMembers_loose hnd hU hK hfull ms _ .nil locs' _ b vs' (fun x hx => hS x (List.mem_cons_of_mem _ hx)) hN' hi' (moveNext_objRest (w := w) (k := k) .nil) h)
        rcases hi.behind pos m.name (Nat.le_refl _) hpos hg with ⟨h, -⟩ | ⟨d', h, rfl, -⟩ | ⟨d', r', a', h, hloc, -⟩
        · rw [hd] at h; simp at h
        · rw [hd] at h
          exact Or.inr (Or.inl ⟨by simpa using h, hopt⟩)
        · rw [hloc] at hj
          simp [Option.join] at hj

end

section
variable {t : TCfg} (hck : t.cfg.checked = true) {tc : Bool} {N : List Bytes} {w k : Bytes} (hw : IsTail tc w)
include hck hw

/-- A member that is not mapped stays ahead. -/
theorem classMembers_strange (hnd : N.Nodup) {pU : Ty → Bytes → Res (Val × Bytes)} {pK : Ty → Range → Bytes → Res Val} {S : Ty → Prop} {P : Ty → JVal → Prop}
    (hU : ∀ ty d, S ty → DOk tc d → SoundU (pU ty) d (P ty d)) {full : JMems} (hfull : MOk tc full) :
    ∀ (ms : List Member) (pos : Nat) (rest : JMems) (locs : Locs) (bs b : Bytes) (vs : List Val), (∀ m ∈ ms, S m.ty) →
      N.drop pos = ms.map Member.name → CInv t tc false N pos full rest locs → (∃ n ∈ rest.names, n ∉ N) →
      moveNextChecked bs = objRest w k rest → classMembers t true N pU pK pos ms locs bs = .ok (vs, b) →
      ∃ rest', moveNextChecked b = objRest w k rest' ∧ rest' ≠ .nil
  | [], pos, rest, locs, bs, b, vs, hS, hN, hi, hun, hb, h => by
    simp only [classMembers, Res.ok.injEq, Prod.mk.injEq] at h
    obtain ⟨-, rfl⟩ := h
    refine ⟨rest, hb, ?_⟩
    rintro rfl
    simp [JMems.names, JMems.toList] at hun
  | m :: ms, pos, rest, locs, bs, b, vs, hS, hN, hi, hun, hb, h => by
    have hpos : N[pos]? = some m.name := by
      have := congrArg (·[0]?) hN
      simpa [List.getElem?_drop] using this
    have hN' : N.drop (pos + 1) = ms.map Member.name := by
      rw [← List.drop_drop, hN]; rfl
    have hok : MOk tc rest := ⟨hi.wf, hi.depth, hi.size⟩
    have hsearch := findLoop_unknown hck hnd hpos (k := k) hw rest locs hi hun
    rcases classMembers_step hck hw hok hb h with ⟨r, a, v, vs', hj, hp, h⟩ | ⟨hj, locs', b', v, b₂, vs', hf, hp, h⟩ |
      ⟨hj, hopt, locs', vs', hf, h⟩
    · exact classMembers_strange hnd hU hfull ms _ rest locs _ b vs' (fun x hx => hS x (List.mem_cons_of_mem _ hx)) hN' (hi.mono (by simp)) hun (moveNext_objRest rest) h
    · rcases hsearch with h' | ⟨d, l, post, tl, hg, hl, hpost, hi', hun'⟩
      · rw [hf] at h'; cases h'
      · rw [hf] at hl
        simp only [Res.ok.injEq, Prod.mk.injEq, true_and] at hl
        obtain ⟨rfl, rfl⟩ := hl
        obtain ⟨hfl, -⟩ := hi.ahead pos m.name d (Nat.le_refl _) hpos hg
        obtain ⟨htr, -⟩ := hU m.ty d (hS m (List.mem_cons_self ..)) (hfull.get hfl) _ _ _ (objAfter_after (tl := tl) (k := k) hpost hw) hp
        exact classMembers_strange hnd hU hfull ms _ tl locs' b₂ b vs' (fun x hx => hS x (List.mem_cons_of_mem _ hx)) hN' hi' hun' (by
            rw [moveNextChecked_trimEq htr, moveNext_obj hpost hi'.wf hw]) h
    · rcases hsearch with h' | ⟨d, l, post, tl, hg, hl, -⟩
      · rw [hf] at h'; cases h'
      · rw [hf] at hl
        simp at hl

end

/-! ## Members in order -/

theorem mapped_cons (N : List Bytes) (pre n pc qc : Bytes) (d : JVal) (post : Bytes) (tl : JMems) :
    ((JMems.cons pre n pc qc d post tl).mapped N).map Prod.fst = if n ∈ N then n :: (tl.mapped N).map Prod.fst else (tl.mapped N).map Prod.fst := by
  simp only [JMems.mapped, JMems.toList, List.filter_cons, List.contains_iff_mem]
  split <;> rfl

section
variable {t : TCfg} (hck : t.cfg.checked = true) {tc exact : Bool} {N : List Bytes} {w k : Bytes} (hw : IsTail tc w)
include hck hw

theorem findLoop_inorder (hnd : N.Nodup) {pos : Nat} {nm : Bytes} (hpos : N[pos]? = some nm) :
    ∀ (rest : JMems) (locs : Locs), MOk tc rest → (∀ n ∈ rest.names, NameOk t N n) → (rest.mapped N).map Prod.fst <+: N.drop pos →
    ∀ {f : Found} {locs' : Locs} {b : Bytes}, findLoop t exact N pos locs (objRest w k rest) = .ok (f, locs', b) →
    locs' = locs ∧ ((f = .absent ∧ b = objRest w k .nil ∧ ∀ n ∈ N, rest.get? n = none) ∨
    (f = .here ∧ ∃ d post tl, rest.get? nm = some d ∧ b = d.text ++ objAfter post tl w k ∧ IsWs post ∧ DOk tc d ∧ MOk tc tl ∧
      (∀ n ∈ tl.names, NameOk t N n) ∧ (tl.mapped N).map Prod.fst <+: N.drop (pos + 1) ∧
      ∀ n ∈ N, n ≠ nm → tl.get? n = rest.get? n))
  | .nil, locs, _, _, _, f, locs', b, h => by
    rw [findLoop.eq_def] at h
    simp only [objRest, if_true, Res.ok.injEq, Prod.mk.injEq] at h
    exact ⟨h.2.1.symm, Or.inl ⟨h.1.symm, h.2.2.symm, fun n _ => by simp [JMems.get?, JMems.toList]⟩⟩
  | .cons pre n pc qc d post tl, locs, hok, hnm, hord, f, locs', b, h => by
    obtain ⟨hdo, htl, -⟩ := hok.cons
    have hwf := hok.wf
    simp only [JMems.WFt] at hwf
    obtain ⟨hlt, hget⟩ := List.getElem?_eq_some_iff.1 hpos
    have hdrop : N.drop pos = nm :: N.drop (pos + 1) := by rw [List.drop_eq_getElem_cons hlt, hget]
    have hnm0 : NameOk t N n := hnm n (by simp [JMems_names_cons])
    have hnm' : ∀ n ∈ tl.names, NameOk t N n := fun m hm => hnm m (by rw [JMems_names_cons]; exact List.mem_cons_of_mem _ hm)
    rw [mapped_cons] at hord
    by_cases hn : n ∈ N
    · rw [if_pos hn, hdrop, List.cons_prefix_cons] at hord
      obtain ⟨rfl, hord⟩ := hord
      have hfn := findName_present hnm0 hnd hpos (Nat.le_refl _)
      rcases findLoop_step hck hw hok h with ⟨h', -⟩ | ⟨-, -, rfl, rfl, rfl⟩ | ⟨-, h', -⟩
      · omega
      · refine ⟨rfl, Or.inr ⟨rfl, d, post, tl, by rw [JMems_get?_cons, if_pos rfl], rfl, hwf.2.2.2.2.2.1, hdo, htl, hnm', hord, ?_⟩⟩
        intro m _ hm
        rw [JMems_get?_cons, if_neg hm]
      · exact absurd hfn h'
    · rw [if_neg hn] at hord
      have hfn := findName_absent hnm0 (pos := pos) (fun h => hn (List.mem_of_mem_drop h)) (by omega)
      have hne : ∀ m ∈ N, m ≠ n := by rintro m hm rfl; exact hn hm
      rcases findLoop_step hck hw hok h with ⟨-, -, h⟩ | ⟨h', -⟩ | ⟨h', -⟩
      · obtain ⟨h1, h2⟩ := findLoop_inorder hnd hpos tl locs htl hnm' hord h
        refine ⟨h1, ?_⟩
        rcases h2 with ⟨rfl, rfl, h2⟩ | ⟨rfl, d', post', tl', h3, h4, h5, h6, h7, h8, h9, h10⟩
        · exact Or.inl ⟨rfl, rfl, fun m hm => by rw [JMems_get?_cons, if_neg (hne m hm)]; exact h2 m hm⟩
        · refine Or.inr ⟨rfl, d', post', tl', ?_, h4, h5, h6, h7, h8, h9, ?_⟩
          · rw [JMems_get?_cons, if_neg (hne nm (List.mem_of_getElem? hpos))]; exact h3
          · intro m hm hmn
            rw [JMems_get?_cons, if_neg (hne m hm)]
            exact h10 m hm hmn
      · omega
      · omega

theorem classMembers_inorder (hnd : N.Nodup) {pU : Ty → Bytes → Res (Val × Bytes)} {pK : Ty → Range → Bytes → Res Val} {S : Ty → Prop} {P : Ty → JVal → Prop}
    (hU : ∀ ty d, S ty → DOk tc d → SoundU (pU ty) d (P ty d)) :
    ∀ (ms : List Member) (pos : Nat) (rest : JMems) (locs : Locs) (bs b : Bytes) (vs : List Val), (∀ m ∈ ms, S m.ty) →
      N.drop pos = ms.map Member.name → MOk tc rest → (∀ n ∈ rest.names, NameOk t N n) → (rest.mapped N).map Prod.fst <+: N.drop pos →
      (∀ i : Nat, (locs[i]?).join = none) → moveNextChecked bs = objRest w k rest →
      classMembers t exact N pU pK pos ms locs bs = .ok (vs, b) →
      ∀ m ∈ ms, ∀ d, rest.get? m.name = some d → P m.ty d
  | [], pos, rest, locs, bs, b, vs, hS, hN, hok, hnm, hord, hl, hb, h => by simp
  | m :: ms, pos, rest, locs, bs, b, vs, hS, hN, hok, hnm, hord, hl, hb, h => by
    have hpos : N[pos]? = some m.name := by
      have := congrArg (·[0]?) hN
      simpa [List.getElem?_drop] using this
    have hN' : N.drop (pos + 1) = ms.map Member.name := by
      rw [← List.drop_drop, hN]; rfl
    have hmem : ∀ x ∈ m :: ms, x.name ∈ N := fun x hx => by
      have : x.name ∈ N.drop pos := by rw [hN]; exact List.mem_map_of_mem hx
      exact List.mem_of_mem_drop this
    rcases classMembers_step hck hw hok hb h with ⟨r, a, v, vs', hj, -⟩ | ⟨-, locs', b', v, b₂, vs', hf, hp, h'⟩ |
      ⟨-, hopt, locs', vs', hf, h'⟩
    · rw [hl] at hj; cases hj
    · obtain ⟨rfl, h2⟩ := findLoop_inorder hck hw hnd hpos rest locs hok hnm hord hf
      rcases h2 with ⟨h2, -⟩ | ⟨-, d, post, tl, hg, rfl, hpost, hdo, htl, hnm', hord', hsame⟩
      · cases h2
      · obtain ⟨htr, hP⟩ := hU m.ty d (hS m (List.mem_cons_self ..)) hdo _ _ _ (objAfter_after (tl := tl) (k := k) hpost hw) hp
        have ih := classMembers_inorder hnd hU ms (pos + 1) tl locs' b₂ b vs' (fun x hx => hS x (List.mem_cons_of_mem _ hx)) hN' htl hnm' hord' hl
          (by rw [moveNextChecked_trimEq htr, moveNext_obj hpost htl.wf hw]) h'
        intro x hx d' hd'
        by_cases hxm : x.name = m.name
        · rcases List.mem_cons.1 hx with rfl | hx'
          · rw [hg] at hd'
            obtain rfl : d = d' := by simpa using hd'
            exact hP
          · exfalso
            have hnd' : ((m :: ms).map Member.name).Nodup := by rw [← hN]; exact hnd.sublist (List.drop_sublist _ _)
            rw [List.map_cons, List.nodup_cons] at hnd'
            exact hnd'.1 (by rw [← hxm]; exact List.mem_map_of_mem hx')
        · rcases List.mem_cons.1 hx with rfl | hx'
          · exact absurd rfl hxm
          · exact ih x hx' d' (by rw [hsame _ (hmem x hx) hxm]; exact hd')
    · obtain ⟨rfl, h2⟩ := findLoop_inorder hck hw hnd hpos rest locs hok hnm hord hf
      rcases h2 with ⟨-, -, h2⟩ | ⟨h2, -⟩
      · intro x hx d hd
        rw [h2 _ (hmem x hx)] at hd
        cases hd
      · cases h2

end

/-! ## Classes -/

theorem parseObj_sound {t : TCfg} (hck : t.cfg.checked = true) {exact : Bool} {ms : List Member} {Δ : Env} {nm : List Bytes → Bytes → Prop} {ea : Bool}
    (hnm : ∀ N n, nm N n → NameOk t N n ∧ (PlainName n ∨ t.escNames = true))
    {pU : Ty → Bytes → Res (Val × Bytes)} {pK : Ty → Range → Bytes → Res Val} (hnd : (ms.map Member.name).Nodup)
    {S : Ty → Prop} (hS : ∀ m ∈ ms, S m.ty) (hU : ∀ ty d, S ty → DOk false d → SoundU (pU ty) d (Shaped Δ nm ea ty d))
    (hK : ∀ ty d r a v, S ty → DOk false d → Stored d r a → pK ty r a = .ok v → Loose Δ nm ea ty d) {d : JVal} (hd : DOk false d) :
    SoundU (parseObj t exact ms pU pK) d (∃ w jm, d = .obj w jm ∧ ShapedObj Δ nm ea ms exact jm) := by
  intro k v r hk h
  unfold parseObj at h
  simp only [Res.bind_eq_ok, trim_ck hck, Res.ok.injEq] at h
  obtain ⟨_, rfl, _, hst, _, rfl, ⟨vs, b⟩, hcm, b', hcl, hres⟩ := h
  simp only [Prod.mk.injEq] at hres
  obtain ⟨-, rfl⟩ := hres
  obtain ⟨c0, cs0, hc0, -⟩ := text_head d hd.wf
  rw [trimChecked_text d hd.wf] at hst hcm
  obtain ⟨w, jm, rfl⟩ : ∃ w es, d = .obj w es := by
    apply starts_object hd.wf hc0
    by_cases hq : c0 = chLBrace
    · exact hq
    · simp [hck, hc0, headIs, ensure, hq] at hst
  have hwf := hd.wf
  simp only [JVal.WFt] at hwf
  obtain ⟨b₀, hb₀, hmv⟩ := obj_open (k := k) hd.wf
  rw [trimChecked_text _ hd.wf] at hb₀
  rw [hb₀, List.tail_cons] at hcm
  obtain ⟨rest', hrest, hrok⟩ := classMembers_walk hck hwf.1 hU ms 0 jm _ _ b vs hS hd.mems hmv hcm
  have hlocs : ∀ (k : Nat) (n : Bytes), (ms.map Member.name)[k]? = some n →
      (ms.map fun _ => (none : Option (Range × Bytes)))[k]? = some none := by
    intro k n hn
    rw [List.getElem?_map] at hn ⊢
    cases h : ms[k]? with
    | none => rw [h] at hn; simp at hn
    | some m => rfl
  have hinv : ∀ e : Bool, NamesClear nm ms jm → (e = true → ∀ n ∈ jm.names, n ∈ ms.map Member.name) →
      CInv t false e (ms.map Member.name) 0 jm jm (ms.map fun _ => none) := by
    intro e hcl he
    refine ⟨by simp, hwf.2, hd.mems.depth, hd.mems.size, fun n hn => hnm _ n (hcl.1 n hn), ?_, he, ?_, ?_⟩
    · intro n hn
      obtain ⟨m, hm, rfl⟩ := List.mem_map.1 hn
      exact hcl.2 m hm
    · exact fun k n d _ hn hg => ⟨hg, hlocs k n hn⟩
    · exact fun k n _ hn hg => Or.inl ⟨hg, hlocs k n hn⟩
  have hall : NamesClear nm ms jm → exact = true → ∀ n ∈ jm.names, n ∈ ms.map Member.name := by
    intro hcl' he n hn
    subst he
    by_cases hin : n ∈ ms.map Member.name
    · exact hin
    · exfalso
      obtain ⟨rest₂, h1, h2⟩ := classMembers_strange hck hwf.1 hnd hU hd.mems ms 0 jm _ _ b vs hS (by simp) (hinv false hcl' (by simp))
        ⟨n, hn, hin⟩ hmv hcm
      rw [classCleanup_unknown hck rest₂ h2 h1] at hcl
      cases hcl
  have hloose : NamesClear nm ms jm → _ := fun hcl' =>
    classMembers_loose hck hwf.1 hnd hU hK hd.mems ms 0 jm _ _ b vs hS (by simp) (hinv exact hcl' (hall hcl')) hmv hcm
  refine ⟨?_, w, jm, rfl, .mk (fun h => (hloose h).1) ?_ ?_ ?_⟩
  · by_cases hne : exact = true → rest' = .nil
    · rw [classCleanup_sem hwf.1 rest' hrok.wf hrok.depth hne hrest (by simp [hck])] at hcl
      simp only [Res.ok.injEq] at hcl
      rw [← hcl]
      exact trimChecked_te (TrimEq.refl k)
    · simp only [Classical.not_imp] at hne
      obtain ⟨rfl, hne⟩ := hne
      rw [classCleanup_unknown hck rest' hne hrest] at hcl
      cases hcl
  · intro h he n hn
    obtain ⟨m, hm, hmn⟩ := List.mem_map.1 (hall h he n hn)
    exact ⟨m, hm, hmn⟩
  · intro h m hm d hd'
    rcases (hloose h).2 m hm d hd' with h | ⟨rfl, hopt⟩ | h
    · exact .shaped h
    · cases hty : m.ty with
      | opt ty => exact .shaped .null
      | _ => rw [hty] at hopt; simp [Ty.isOpt] at hopt
    · exact h
  · intro hcl' hord
    refine classMembers_inorder hck hwf.1 hnd hU ms 0 jm _ _ b vs hS (by simp) hd.mems (fun n hn => (hnm _ n (hcl'.1 n hn)).1)
      hord (fun i => ?_) hmv hcm
    rw [List.getElem?_map]
    cases ms[i]? <;> rfl

end Verif
