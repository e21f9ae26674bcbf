import Verif.Proof.TypedTop
import Verif.Proof.ValueRange
import Verif.Spec.Dep

/-!
# Members that depend on another member: the search for members, with positions
-/

namespace Verif

open Spec

theorem names_app (a b : JMems) : (a.app b).names = a.names ++ b.names := by
  match a with
  | .nil => rfl
  | .cons .. => simp only [JMems.app, JMems_names_cons, List.cons_append, names_app]

theorem get?_app (a b : JMems) (n : Bytes) : (a.app b).get? n = (a.get? n).or (b.get? n) := by
  match a with
  | .nil => simp [JMems.app, JMems.get?, JMems.toList]
  | .cons .. =>
    simp only [JMems.app, JMems_get?_cons, get?_app]
    split <;> simp

theorem mem_names_iff {jm : JMems} {n : Bytes} : n ∈ jm.names ↔ ∃ d, jm.get? n = some d := by
  constructor
  · intro h
    cases hg : jm.get? n with
    | none => exact absurd h (JMems_get?_none.1 hg)
    | some d => exact ⟨d, rfl⟩
  · rintro ⟨d, hd⟩
    by_contra h
    rw [JMems_get?_none.2 h] at hd
    cases hd

theorem Before.mem {jm : JMems} {m n : Bytes} (h : jm.Before m n) : m ∈ jm.names := by
  unfold JMems.Before at h
  have := List.idxOf_le_length (a := n) (l := jm.names)
  exact List.idxOf_lt_length_iff.1 (by omega)

/-- A member behind `nm` stands in the rest. -/
theorem Before.rest {U tl : JMems} {pre nm pc qc post : Bytes} {d : JVal} {n : Bytes}
    (h : (U.app (.cons pre nm pc qc d post tl)).Before nm n)
    (hn : n ∈ (U.app (.cons pre nm pc qc d post tl)).names)
    (ho : (U.app (.cons pre nm pc qc d post tl)).names.count nm ≤ 1) : n ∈ tl.names := by
  unfold JMems.Before at h
  rw [names_app, JMems_names_cons] at h hn ho
  have hU : nm ∉ U.names := by
    intro hm
    have := List.count_pos_iff.2 hm
    simp only [List.count_append, List.count_cons_self] at ho
    omega
  rw [List.idxOf_append_of_notMem hU, List.idxOf_cons_self] at h
  have hnU : n ∉ U.names := by
    intro hm
    rw [List.idxOf_append_of_mem hm] at h
    have := List.idxOf_lt_length_of_mem hm
    omega
  rw [List.idxOf_append_of_notMem hnU] at h
  have hne : n ≠ nm := by
    rintro rfl
    rw [List.idxOf_cons_self] at h
    omega
  rcases List.mem_append.1 hn with h' | h'
  · exact absurd h' hnU
  · rcases List.mem_cons.1 h' with h' | h'
    · exact absurd h' hne
    · exact h'

/-- A member in front of `n` stands in front of it. -/
theorem Before.front {U tl : JMems} {pre n pc qc post : Bytes} {d : JVal} {m : Bytes}
    (h : (U.app (.cons pre n pc qc d post tl)).Before m n) : m ∈ U.names := by
  unfold JMems.Before at h
  rw [names_app, JMems_names_cons] at h
  by_contra hm
  have h1 : (U.names ++ n :: tl.names).idxOf n ≤ U.names.length := by
    by_cases hn : n ∈ U.names
    · rw [List.idxOf_append_of_mem hn]
      exact Nat.le_of_lt (List.idxOf_lt_length_of_mem hn)
    · rw [List.idxOf_append_of_notMem hn, List.idxOf_cons_self]; omega
  rw [List.idxOf_append_of_notMem hm] at h
  omega

/-- The member at position `p` is read as the value, if it is not passed over before or from its range. -/
def MemAt (ck : Bool) (pU : Ty → Bytes → Res (Val × Bytes)) (pK : Ty → Range → Bytes → Res Val) (full : JMems) (w k : Bytes)
    (N : List Bytes) (p : Nat) (m : Member) (v : Val) : Prop :=
  (∃ d, full.get? m.name = some d ∧ SemU ck (pU m.ty) d v ∧
    (full.InPlace N p ∨ ∀ r a, Stored d r a → At full w k m.name a → pK m.ty r a = .ok v) ∧
    (d = .null → m.ty.isOpt = true ∧ v = .none)) ∨
  (full.get? m.name = none ∧ m.ty.isOpt = true ∧ v = .none)

/-- Same, for the members from position `p` on. -/
def MemsAt (ck : Bool) (pU : Ty → Bytes → Res (Val × Bytes)) (pK : Ty → Range → Bytes → Res Val) (full : JMems) (w k : Bytes)
    (N : List Bytes) : Nat → List Member → List Val → Prop
  | _, [], [] => True
  | p, m :: ms, v :: vs => MemAt ck pU pK full w k N p m v ∧ MemsAt ck pU pK full w k N (p + 1) ms vs
  | _, _, _ => False

/-- `classMembers` with the positions of the members. -/
theorem classMembers_at {t : TCfg} (hck : t.cfg.checked = true) {tc exact : Bool} {N : List Bytes} (hnd : N.Nodup)
    {pU : Ty → Bytes → Res (Val × Bytes)} {pK : Ty → Range → Bytes → Res Val} {full : JMems} {w k : Bytes}
    (hw : IsTail tc w) (honce : ∀ n ∈ N, full.names.count n ≤ 1) :
    ∀ (ms : List Member) (vs : List Val) (pos : Nat) (rest : JMems) (locs : Locs) (bs : Bytes),
      N.drop pos = ms.map Member.name → CInv t tc exact N pos full rest locs → (∃ U : JMems, full = U.app rest) →
      AtAll full w k N locs →
      (∀ (p : Nat) n, pos ≤ p → N[p]? = some n → full.InPlace N p → n ∈ full.names → n ∈ rest.names) →
      moveNextChecked bs = objRest w k rest → MemsAt t.cfg.checked pU pK full w k N pos ms vs →
      ∃ b rest' locs', classMembers t exact N pU pK pos ms locs bs = .ok (vs, b) ∧
        moveNextChecked b = objRest w k rest' ∧ CInv t tc exact N (pos + ms.length) full rest' locs'
  | [], [], pos, rest, locs, bs, hN, hi, _, _, _, hb, _ => ⟨bs, rest, locs, by simp [classMembers], hb, hi⟩
  | m :: ms, v :: vs, pos, rest, locs, bs, hN, hi, ⟨U, hU⟩, hA, hP, hb, hs => by
    obtain ⟨hm, hs⟩ := hs
    have hpos : N[pos]? = some m.name := by
      have := congrArg (·[0]?) hN
      simpa [List.getElem?_drop] using this
    have hN' : N.drop (pos + 1) = ms.map Member.name := by
      rw [← List.drop_drop, hN]; rfl
    obtain ⟨hf1, hf2⟩ := findLoop_pos hnd hpos (k := k) hw rest locs hi
    have hlen : pos + (m :: ms).length = pos + 1 + ms.length := by simp only [List.length_cons]; omega
    rw [hlen]
    unfold classMembers
    simp only [moveNext_of hb (objRest_ne _ _ _), Res.ok_bind, assertWeak_tt, objRest_head]
    cases hg : rest.get? m.name with
    | some d =>
      obtain ⟨hfull, hloc⟩ := hi.ahead pos m.name d (Nat.le_refl _) hpos hg
      obtain ⟨locs', post, tl, hfl, hpost, hd, hi', ⟨V, p1, p2, p3, hV⟩, hA'⟩ := hf1 d hg
      have hhead : headIs (fun c => c == chRBrace) (objRest w k rest) = false := by
        match rest, hg with
        | .nil, hg => simp [JMems.get?, JMems.toList] at hg
        | .cons .., _ => rfl
      have hsem : SemU t.cfg.checked (pU m.ty) d v := by
        rcases hm with ⟨d', h1, h2, -⟩ | ⟨h1, -⟩
        · rw [hfull] at h1
          obtain rfl : d = d' := by simpa using h1
          exact h2
        · rw [hfull] at h1; simp at h1
      obtain ⟨r, hr, htr⟩ := hsem _ (fun _ => objAfter_follows (tl := tl) (k := k) _ _ hpost hw)
        (fun _ => objAfter_nonsp _ _ _ _)
      have hmv : moveNextChecked r = objRest w k tl := by
        rw [moveNextChecked_trimEq htr, moveNext_obj hpost hi'.wf hw]
      have hUV : full = (U.app V).app (.cons p1 m.name p2 p3 d post tl) := by rw [JMems.app_assoc, ← hV]; exact hU
      have hP' : ∀ (p : Nat) n, pos + 1 ≤ p → N[p]? = some n → full.InPlace N p → n ∈ full.names → n ∈ tl.names := by
        intro p n hp hn hin hmem
        have hb := (hin pos m.name n (by omega) hpos hn).1
        have ho := honce m.name (List.mem_of_getElem? hpos)
        rw [hUV] at hb hmem ho
        exact Before.rest hb hmem ho
      obtain ⟨b, rest', locs'', h1, h2⟩ := classMembers_at hck hnd hw honce ms vs (pos + 1) tl locs' r hN' hi'
        ⟨(U.app V).app (.cons p1 m.name p2 p3 d post .nil), by rw [JMems.app_assoc]; exact hUV⟩ (hA' U hU hA) hP' hmv hs
      refine ⟨b, rest', locs'', ?_, h2⟩
      simp only [findMember, hhead, hloc, Bool.not_false, Bool.or_true, assertWeak_tt,
        Res.ok_bind, trimUnchecked_objRest, Option.join, Option.bind, hfl, hr, h1, id]
    | none =>
      have hgone : full.get? m.name = none ∨ full.get? m.name = some .null →
          ∀ (p : Nat) n, pos + 1 ≤ p → N[p]? = some n → full.InPlace N p → n ∉ full.names := by
        intro hor p n hp hn hin hmem
        obtain ⟨hb, hz⟩ := hin pos m.name n (by omega) hpos hn
        have hmf := Before.mem hb
        rcases hor with h | h
        · exact JMems_get?_none.1 h hmf
        · refine JMems_get?_none.1 hg (hP pos m.name (Nat.le_refl _) hpos ?_ hmf)
          intro j n₁ n₂ hj h1 h2
          rw [hpos] at h2
          obtain rfl : m.name = n₂ := by simpa using h2
          exact ⟨hz h j n₁ hj h1, (hin j n₁ n (by omega) h1 hn).2⟩
      rcases hi.behind pos m.name (Nat.le_refl _) hpos hg with ⟨hfull, hloc⟩ | ⟨d, hfull, rfl, hloc⟩ |
        ⟨d, r, a, hfull, hloc, hst⟩
      · obtain ⟨hopt, rfl⟩ : m.ty.isOpt = true ∧ v = .none := by
          rcases hm with ⟨d', h1, -⟩ | ⟨-, h⟩
          · rw [hfull] at h1; simp at h1
          · exact h
        obtain ⟨locs', hfl, hi', hA'⟩ := hf2 hck hg
        obtain ⟨b, rest', locs'', h1, h2⟩ := classMembers_at hck hnd hw honce ms vs (pos + 1) .nil locs' (chRBrace :: k) hN' hi'
          ⟨full, (JMems.app_nil full).symm⟩ (hA' U hU hA)
          (fun p n hp hn hin hmem => absurd hmem (hgone (Or.inl hfull) p n hp hn hin))
          (moveNext_objRest (w := w) (k := k) .nil) hs
        refine ⟨b, rest', locs'', ?_, h2⟩
        simp only [findMember, hloc, hopt, Bool.true_or, assertWeak_tt,
          Res.ok_bind, trimUnchecked_objRest, Option.join, Option.bind, hfl, if_true, h1, id]
      · obtain ⟨hopt, rfl⟩ : m.ty.isOpt = true ∧ v = .none := by
          rcases hm with ⟨d', h1, -, -, h⟩ | ⟨h1, -⟩
          · rw [hfull] at h1
            exact h (by simpa using h1.symm)
          · rw [hfull] at h1; simp at h1
        obtain ⟨locs', hfl, hi', hA'⟩ := hf2 hck hg
        obtain ⟨b, rest', locs'', h1, h2⟩ := classMembers_at hck hnd hw honce ms vs (pos + 1) .nil locs' (chRBrace :: k) hN' hi'
          ⟨full, (JMems.app_nil full).symm⟩ (hA' U hU hA)
          (fun p n hp hn hin hmem => absurd hmem (hgone (Or.inr hfull) p n hp hn hin))
          (moveNext_objRest (w := w) (k := k) .nil) hs
        refine ⟨b, rest', locs'', ?_, h2⟩
        simp only [findMember, hloc, hopt, Bool.true_or, assertWeak_tt,
          Res.ok_bind, trimUnchecked_objRest, Option.join, Option.bind, hfl, if_true, h1, id]
      · -- the member was passed before
        have hk : pK m.ty r a = .ok v := by
          rcases hm with ⟨d', h1, -, h2, -⟩ | ⟨h1, -⟩
          · rw [hfull] at h1
            obtain rfl : d = d' := by simpa using h1
            rcases h2 with hin | h2
            · exact absurd (hP pos m.name (Nat.le_refl _) hpos hin (mem_names_iff.2 ⟨d, hfull⟩)) (JMems_get?_none.1 hg)
            · exact h2 r a hst (hA pos m.name r a hpos hloc)
          · rw [hfull] at h1; simp at h1
        have hi' : CInv t tc exact N (pos + 1) full rest locs := hi.mono fun he n hn => by
          refine mem_drop_succ (hi.left he n hn) hpos ?_
          rintro rfl
          exact (JMems_get?_none.1 hg) hn
        obtain ⟨b, rest', locs'', h1, h2⟩ := classMembers_at hck hnd hw honce ms vs (pos + 1) rest locs (objRest w k rest) hN' hi'
          ⟨U, hU⟩ hA (fun p n hp => hP p n (by omega)) (moveNext_objRest rest) hs
        refine ⟨b, rest', locs'', ?_, h2⟩
        simp only [findMember, hloc, Option.join, Option.bind, Option.isSome_some, Bool.or_true, Bool.true_or,
          assertWeak_tt, Res.ok_bind, trimUnchecked_objRest, hk, h1, id]
  | [], _ :: _, _, _, _, _, _, _, _, _, _, _, h => by simp [MemsAt] at h
  | _ :: _, [], _, _, _, _, _, _, _, _, _, _, h => by simp [MemsAt] at h

/-- A class, in front of the text `k`. -/
theorem parseObj_at {t : TCfg} (hck : t.cfg.checked = true) {tc exact : Bool} {ms : List Member}
    (hnd : (ms.map Member.name).Nodup) {pU : Ty → Bytes → Res (Val × Bytes)} {pK : Ty → Range → Bytes → Res Val}
    {w : Bytes} {jm : JMems} {vs : List Val} (hwf : (JVal.obj w jm).WFt tc) (hd : jm.depth < 4294967295)
    (hsz : (JVal.obj w jm).text.length < 2 ^ 63)
    (hok : ∀ n ∈ jm.names, NameOk t (ms.map Member.name) n ∧ (PlainName n ∨ t.escNames = true))
    (honce : ∀ m ∈ ms, jm.names.count m.name ≤ 1)
    (hex : exact = true → ∀ n ∈ jm.names, ∃ m ∈ ms, m.name = n) (k : Bytes)
    (hs : MemsAt t.cfg.checked pU pK jm w k (ms.map Member.name) 0 ms vs) :
    ∃ r, parseObj t exact ms pU pK ((JVal.obj w jm).text ++ k) = .ok (.cls vs, r) ∧ TrimEq r k := by
  obtain ⟨b, hb, hmv⟩ := obj_open (k := k) hwf
  simp only [JVal.WFt] at hwf
  have hlen : jm.text.length < 2 ^ 63 := by
    match jm with
    | .nil => simp [JMems.text]
    | .cons .. =>
      simp only [JVal.text, JMems.text, List.length_cons, List.length_append, List.length_nil] at hsz ⊢
      omega
  have hlocs : ∀ (k : Nat) (n : Bytes), (ms.map Member.name)[k]? = some n →
      (ms.map fun _ => (none : Option (Range × Bytes)))[k]? = some none := by
    intro k n hn
    rw [List.getElem?_map] at hn ⊢
    cases h : ms[k]? with
    | none => rw [h] at hn; simp at hn
    | some m => rfl
  have hinv : CInv t tc exact (ms.map Member.name) 0 jm jm (ms.map fun _ => none) := by
    refine ⟨by simp, hwf.2, by omega, hlen, hok, ?_, ?_, ?_, ?_⟩
    · intro n hn
      obtain ⟨m, hm, rfl⟩ := List.mem_map.1 hn
      exact honce m hm
    · intro he n hn
      obtain ⟨m, hm, rfl⟩ := hex he n hn
      exact List.mem_map_of_mem hm
    · exact fun k n d _ hn hg => ⟨hg, hlocs k n hn⟩
    · exact fun k n _ hn hg => Or.inl ⟨hg, hlocs k n hn⟩
  have honce' : ∀ n ∈ ms.map Member.name, jm.names.count n ≤ 1 := by
    intro n hn
    obtain ⟨m, hm, rfl⟩ := List.mem_map.1 hn
    exact honce m hm
  obtain ⟨b', rest', locs', h1, h2, h3⟩ := classMembers_at (t := t) hck hnd (k := k) hwf.1 honce' ms vs 0 jm _ (trimChecked b)
    (by simp) hinv ⟨.nil, rfl⟩ (fun j n r a hj hl => by rw [hlocs j n hj] at hl; simp at hl) (fun _ _ _ _ _ h => h) hmv hs
  have h5 : exact = true → rest' = .nil := by
    intro he
    match rest' with
    | .nil => rfl
    | .cons _ n _ _ _ _ _ =>
      have := h3.left he n (by simp [JMems_names_cons])
      rw [Nat.zero_add, ← List.length_map (f := Member.name), List.drop_length] at this
      simp at this
  have hcl := classCleanup_sem (cfg := t.cfg) hwf.1 rest' h3.wf h3.depth h5 h2 (fun h => by rw [hck] at h; simp at h)
  unfold parseObj
  have htb : trimChecked b ≠ [] := by
    intro h
    rw [h] at hmv
    exact objRest_ne w k jm hmv.symm
  simp only [trim_of hb (by simp), trim_of rfl htb, Res.ok_bind, assertWeak_tt, headIs, beq_self_eq_true,
    List.tail_cons, h1, hcl]
  exact ⟨_, rfl, trimChecked_te (TrimEq.refl k)⟩

/-- Every value of a class that was read comes from one of the two parsers, or is empty. -/
theorem classMembers_from {t : TCfg} {exact : Bool} {N : List Bytes} {pU : Ty → Bytes → Res (Val × Bytes)} {pK : Ty → Range → Bytes → Res Val} :
    ∀ (ms : List Member) (vs : List Val) (pos : Nat) (locs : Locs) (bs b : Bytes),
      classMembers t exact N pU pK pos ms locs bs = .ok (vs, b) → ∀ (p : Nat) m v, ms[p]? = some m → vs[p]? = some v →
        (∃ b r, pU m.ty b = .ok (v, r)) ∨ (∃ r a, pK m.ty r a = .ok v) ∨ (m.ty.isOpt = true ∧ v = .none)
  | [], vs, pos, locs, bs, b, _, p, m, v, hm, _ => by simp at hm
  | m0 :: ms, vs, pos, locs, bs, b, h, p, m, v, hm, hv => by
    unfold classMembers at h
    obtain ⟨b1, -, h⟩ := Res.bind_eq_ok.1 h
    obtain ⟨-, -, h⟩ := Res.bind_eq_ok.1 h
    obtain ⟨⟨found, locs', b2⟩, -, h⟩ := Res.bind_eq_ok.1 h
    obtain ⟨⟨v0, b3⟩, h0, h⟩ := Res.bind_eq_ok.1 h
    obtain ⟨⟨vs', b4⟩, h1, h⟩ := Res.bind_eq_ok.1 h
    simp only [Res.ok.injEq, Prod.mk.injEq] at h
    obtain ⟨rfl, rfl⟩ := h
    match p with
    | p + 1 => exact classMembers_from ms vs' (pos + 1) locs' b3 b4 h1 p m v (by simpa using hm) (by simpa using hv)
    | 0 =>
      simp only [List.getElem?_cons_zero, Option.some.injEq] at hm hv
      subst hm hv
      cases found with
      | here => exact Or.inl ⟨_, _, h0⟩
      | known r a =>
        obtain ⟨x, hx, h0⟩ := Res.bind_eq_ok.1 h0
        simp only [Res.ok.injEq, Prod.mk.injEq] at h0
        exact Or.inr (Or.inl ⟨r, a, h0.1 ▸ hx⟩)
      | absent =>
        cases ho : m0.ty.isOpt with
        | true =>
          simp only [ho, if_true, Res.ok.injEq, Prod.mk.injEq] at h0
          exact Or.inr (Or.inr ⟨rfl, h0.1.symm⟩)
        | false => simp [ho] at h0

theorem classMembers_len {t : TCfg} {exact : Bool} {N : List Bytes} {pU : Ty → Bytes → Res (Val × Bytes)} {pK : Ty → Range → Bytes → Res Val} :
    ∀ (ms : List Member) (vs : List Val) (pos : Nat) (locs : Locs) (bs b : Bytes),
      classMembers t exact N pU pK pos ms locs bs = .ok (vs, b) → vs.length = ms.length
  | [], vs, pos, locs, bs, b, h => by
    simp only [classMembers, Res.ok.injEq, Prod.mk.injEq] at h
    rw [← h.1]; rfl
  | m0 :: ms, vs, pos, locs, bs, b, h => by
    unfold classMembers at h
    obtain ⟨b1, -, h⟩ := Res.bind_eq_ok.1 h
    obtain ⟨-, -, h⟩ := Res.bind_eq_ok.1 h
    obtain ⟨⟨found, locs', b2⟩, -, h⟩ := Res.bind_eq_ok.1 h
    obtain ⟨⟨v0, b3⟩, h0, h⟩ := Res.bind_eq_ok.1 h
    obtain ⟨⟨vs', b4⟩, h1, h⟩ := Res.bind_eq_ok.1 h
    simp only [Res.ok.injEq, Prod.mk.injEq] at h
    rw [← h.1, List.length_cons, List.length_cons, classMembers_len ms vs' _ _ _ _ h1]

/-- Same, for the whole class; there is one value for each member. -/
theorem parseObj_from {t : TCfg} {exact : Bool} {ms : List Member} {pU : Ty → Bytes → Res (Val × Bytes)} {pK : Ty → Range → Bytes → Res Val}
    {bs r : Bytes} {v : Val} (h : parseObj t exact ms pU pK bs = .ok (v, r)) :
    ∃ vs, v = .cls vs ∧ vs.length = ms.length ∧ ∀ (p : Nat) m x, ms[p]? = some m → vs[p]? = some x →
        (∃ b r, pU m.ty b = .ok (x, r)) ∨ (∃ r a, pK m.ty r a = .ok x) ∨ (m.ty.isOpt = true ∧ x = .none) := by
  unfold parseObj at h
  obtain ⟨b1, -, h⟩ := Res.bind_eq_ok.1 h
  obtain ⟨-, -, h⟩ := Res.bind_eq_ok.1 h
  obtain ⟨b2, -, h⟩ := Res.bind_eq_ok.1 h
  obtain ⟨⟨vs, b3⟩, h1, h⟩ := Res.bind_eq_ok.1 h
  obtain ⟨b4, -, h⟩ := Res.bind_eq_ok.1 h
  simp only [Res.ok.injEq, Prod.mk.injEq] at h
  exact ⟨vs, h.1.symm, classMembers_len ms vs 0 _ _ _ h1, classMembers_from ms vs 0 _ _ _ h1⟩

end Verif
