import Verif.Proof.WriteReads
import Verif.Proof.CommentTypedMain
import Verif.Spec.Minified

/-!
# The writer leaves no gaps when asked not to
-/

namespace Verif

open Spec

/-! ## Documents without gaps -/

mutual
theorem noGaps_wfc (cc : UInt8) (d : JVal) (h : d.WF) (hg : d.NoGaps) : d.WFc cc (fun g => g = []) (fun g => g = []) := by
  match d with
  | .null | .tru | .fls => trivial
  | .num _ | .str _ => simpa only [JVal.WF, JVal.WFt, JVal.WFc] using h
  | .arr w .nil => exact hg.1
  | .arr w (.cons pre v post tl) =>
    simp only [JVal.WF, JVal.WFt, JElems.WFt, JVal.NoGaps, JElems.NoGaps] at h hg
    obtain ⟨-, -, h1, -, h2⟩ := h
    obtain ⟨rfl, rfl, g1, rfl, g2⟩ := hg
    exact ⟨rfl, rfl, noGaps_wfc cc v h1 g1, ⟨rfl, by simp⟩, noGapsE_wfc cc tl h2 g2⟩
  | .obj w .nil => exact hg.1
  | .obj w (.cons pre n pc qc v post tl) =>
    simp only [JVal.WF, JVal.WFt, JMems.WFt, JVal.NoGaps, JMems.NoGaps] at h hg
    obtain ⟨-, -, hn, -, -, h1, -, h2⟩ := h
    obtain ⟨rfl, rfl, rfl, rfl, g1, rfl, g2⟩ := hg
    exact ⟨rfl, rfl, hn, rfl, rfl, noGaps_wfc cc v h1 g1, ⟨rfl, by simp⟩, noGapsM_wfc cc tl h2 g2⟩
theorem noGapsE_wfc (cc : UInt8) (d : JElems) (h : d.WFt false) (hg : d.NoGaps) : d.WFc cc (fun g => g = []) (fun g => g = []) := by
  match d with
  | .nil => trivial
  | .cons pre v post tl =>
    obtain ⟨-, h1, -, h2⟩ := h
    obtain ⟨rfl, g1, rfl, g2⟩ := hg
    exact ⟨rfl, noGaps_wfc cc v h1 g1, ⟨rfl, by simp⟩, noGapsE_wfc cc tl h2 g2⟩
theorem noGapsM_wfc (cc : UInt8) (d : JMems) (h : d.WFt false) (hg : d.NoGaps) : d.WFc cc (fun g => g = []) (fun g => g = []) := by
  match d with
  | .nil => trivial
  | .cons pre n pc qc v post tl =>
    obtain ⟨-, hn, -, -, h1, -, h2⟩ := h
    obtain ⟨rfl, rfl, rfl, g1, rfl, g2⟩ := hg
    exact ⟨rfl, hn, rfl, rfl, noGaps_wfc cc v h1 g1, ⟨rfl, by simp⟩, noGapsM_wfc cc tl h2 g2⟩
end

/-! ## What is written -/

variable {w : WCfg} {Δ : Env} {P T : Bytes → Prop}

theorem nextMember_min (hp : w.pretty = false) (n : Nat) : nextMember w n = [] := by simp [nextMember, hp]

theorem spaceText_min (hp : w.pretty = false) : spaceText w = [] := by simp [spaceText, hp]

theorem closing_min (hp : w.pretty = false) (ht : w.tc = false) (n : Nat) (e : Bool) : closing w n e = [] := by
  simp [closing, trailing, nextMember, hp, ht]

theorem gapElems_ng (hp : w.pretty = false) (n k : Nat) {es : JElems} (h : es.NoGaps) : (gapElems w n k es).NoGaps := by
  induction k with
  | zero => exact h
  | succ k ih => exact ⟨by simp [nextMember_min hp], trivial, rfl, ih⟩

theorem layTxt_ng {seven : Bool} {k : TxtKind} {s : Bytes} {d : JVal} (hT : MinText s) (h : HasTxt k s) (hd : layTxt seven k s = .ok d) :
    d.NoGaps := by
  rcases layTxt_cases h hd with ⟨rfl, -⟩ | ⟨rfl, hk⟩
  · trivial
  · obtain ⟨h1, h2⟩ := docOf_hasTxt h hk
    exact hT _ h1 (by simpa using h2)

mutual
theorem layVal_ng (hp : w.pretty = false) (ht : w.tc = false) (hT : ∀ s, T s → MinText s) (n : Nat) (ty : Ty) (v : Val) (h : HasTy Δ P T ty v) {d : JVal}
    (hd : layVal w Δ n ty v = .ok d) : d.NoGaps := by
  match v with
  | .bool b =>
    simp only [layVal, Res.ok.injEq] at hd
    subst hd
    cases b <;> trivial
  | .int i =>
    cases ty <;> simp only [HasTy] at h
    simp only [layVal, Res.ok.injEq] at hd
    subst hd
    trivial
  | .str s =>
    cases ty <;> simp only [HasTy] at h
    simp only [layVal] at hd
    rw [Res.bind_eq_ok] at hd
    obtain ⟨b, hb, hd⟩ := hd
    cases hd
    trivial
  | .txt s =>
    cases ty <;> simp only [HasTy] at h
    simp only [layVal] at hd
    exact layTxt_ng (hT _ h.1) h.2 hd
  | .date x =>
    cases ty <;> simp only [HasTy] at h
    rename_i k
    cases k <;> simp only at h
    simp only [layVal] at hd
    rw [Res.bind_eq_ok] at hd
    obtain ⟨c, hc, hd⟩ := hd
    cases hd
    trivial
  | .real x =>
    cases ty <;> simp only [HasTy] at h
    rename_i k
    cases k <;> simp only at h
    obtain ⟨t, ht2, -⟩ := toChars_reads h
    simp only [layVal, ht2, Res.ok_bind, Res.ok.injEq] at hd
    subst hd
    trivial
  | .lit x =>
    cases ty <;> simp only [HasTy] at h
    rename_i k
    cases k <;> simp only at h
    rename_i al l
    obtain ⟨d', b, h1, h2, -, h3⟩ := layLit_cases (al := al) h
    simp only [layVal, h1, Res.ok.injEq] at hd
    subst hd
    rcases h3 with ⟨-, rfl⟩ | ⟨-, -, rfl | rfl | ⟨rfl, i, -, hn⟩⟩
    · trivial
    · trivial
    · trivial
    · trivial
  | .none =>
    simp only [layVal, Res.ok.injEq] at hd
    subst hd
    trivial
  | .some v =>
    cases ty <;> simp only [HasTy] at h
    simp only [layVal] at hd
    exact layVal_ng hp ht hT n _ v h.2 hd
  | .arr vs =>
    cases ty <;> simp only [HasTy] at h
    simp only [layVal] at hd
    rw [Res.bind_eq_ok] at hd
    obtain ⟨es, he, hd⟩ := hd
    cases hd
    exact ⟨closing_min hp ht _ _, layElems_ng hp ht hT _ _ vs h he⟩
  | .map kvs =>
    cases ty <;> simp only [HasTy] at h
    simp only [layVal] at hd
    rw [Res.bind_eq_ok] at hd
    obtain ⟨es, he, hd⟩ := hd
    cases hd
    exact ⟨closing_min hp ht _ _, layPairs_ng hp ht hT _ _ kvs h he⟩
  | .cls vs =>
    cases ty <;> simp only [HasTy] at h
    rename_i i
    simp only [layVal] at hd
    cases hi : Δ i with
    | obj ms ex =>
      simp only [hi] at h hd
      rw [Res.bind_eq_ok] at hd
      obtain ⟨es, he, hd⟩ := hd
      cases hd
      exact ⟨closing_min hp ht _ _, layMembers_ng hp ht hT _ ms vs h he⟩
    | tup ts ex =>
      simp only [hi] at h hd
      rw [Res.bind_eq_ok] at hd
      obtain ⟨es, he, hd⟩ := hd
      cases hd
      refine ⟨?_, layTuple_ng hp ht hT _ ts vs h he⟩
      split
      · exact nextMember_min hp _
      · exact closing_min hp ht _ _
    | ord ms ex =>
      simp only [hi] at h hd
      rw [Res.bind_eq_ok] at hd
      obtain ⟨es, he, hd⟩ := hd
      cases hd
      refine ⟨?_, layOrdered_ng hp ht hT _ _ ms vs h he⟩
      split
      · exact nextMember_min hp _
      · exact closing_min hp ht _ _
    | var alts => simp only [hi] at h
    | ivar tag sw alts => simp only [hi] at h
  | .alt k v =>
    obtain ⟨ty', h1, -, h2⟩ := hasTy_alt h
    simp only [layVal, h1] at hd
    exact layVal_ng hp ht hT n ty' v h2 hd

theorem layElems_ng (hp : w.pretty = false) (ht : w.tc = false) (hT : ∀ s, T s → MinText s) (n : Nat) (ty : Ty) (vs : List Val) (h : HasElems Δ P T ty vs) {es : JElems}
    (hd : layElems w Δ n ty vs = .ok es) : es.NoGaps := by
  match vs with
  | [] =>
    simp only [layElems, Res.ok.injEq] at hd
    subst hd
    trivial
  | v :: vs =>
    rw [HasElems] at h
    simp only [layElems] at hd
    rw [Res.bind_eq_ok] at hd
    obtain ⟨d, h1, hd⟩ := hd
    rw [Res.bind_eq_ok] at hd
    obtain ⟨es', h2, hd⟩ := hd
    cases hd
    exact ⟨nextMember_min hp _, layVal_ng hp ht hT n ty v h.1 h1, rfl, layElems_ng hp ht hT n ty vs h.2 h2⟩

theorem layPairs_ng (hp : w.pretty = false) (ht : w.tc = false) (hT : ∀ s, T s → MinText s) (n : Nat) (ty : Ty) (kvs : List (Bytes × Val)) (h : HasPairs Δ P T ty kvs) {es : JMems}
    (hd : layPairs w Δ n ty kvs = .ok es) : es.NoGaps := by
  match kvs with
  | [] =>
    simp only [layPairs, Res.ok.injEq] at hd
    subst hd
    trivial
  | (k, v) :: kvs =>
    rw [HasPairs] at h
    simp only [layPairs] at hd
    rw [Res.bind_eq_ok] at hd
    obtain ⟨b, h0, hd⟩ := hd
    rw [Res.bind_eq_ok] at hd
    obtain ⟨d, h1, hd⟩ := hd
    rw [Res.bind_eq_ok] at hd
    obtain ⟨es', h2, hd⟩ := hd
    cases hd
    exact ⟨nextMember_min hp _, rfl, spaceText_min hp, layVal_ng hp ht hT n ty v h.2.1 h1,
      rfl, layPairs_ng hp ht hT n ty kvs h.2.2 h2⟩

theorem layMembers_ng (hp : w.pretty = false) (ht : w.tc = false) (hT : ∀ s, T s → MinText s) (n : Nat) (ms : List Member) (vs : List Val)
    (h : HasList Δ P T (ms.map Member.ty) vs) {es : JMems}
    (hd : layMembers w Δ n ms vs = .ok es) : es.NoGaps := by
  match vs with
  | [] =>
    simp only [layMembers, Res.ok.injEq] at hd
    subst hd
    trivial
  | v :: vs =>
    cases ms with
    | nil => simp [HasList] at h
    | cons m ms =>
      simp only [List.map_cons, HasList] at h
      simp only [layMembers] at hd
      split at hd
      · exact layMembers_ng hp ht hT n ms vs h.2 hd
      · rw [Res.bind_eq_ok] at hd
        obtain ⟨d, h1, hd⟩ := hd
        rw [Res.bind_eq_ok] at hd
        obtain ⟨es', h2, hd⟩ := hd
        cases hd
        exact ⟨nextMember_min hp _, rfl, spaceText_min hp, layVal_ng hp ht hT n _ v h.1 h1,
          rfl, layMembers_ng hp ht hT n ms vs h.2 h2⟩

theorem layTuple_ng (hp : w.pretty = false) (ht : w.tc = false) (hT : ∀ s, T s → MinText s) (n : Nat) (ts : List Ty) (vs : List Val) (h : HasList Δ P T ts vs) {es : JElems}
    (hd : layTuple w Δ n ts vs = .ok es) : es.NoGaps := by
  match vs with
  | [] =>
    simp only [layTuple, Res.ok.injEq] at hd
    subst hd
    trivial
  | v :: vs =>
    cases ts with
    | nil => simp [HasList] at h
    | cons ty ts =>
      rw [HasList] at h
      simp only [layTuple] at hd
      rw [Res.bind_eq_ok] at hd
      obtain ⟨d, h1, hd⟩ := hd
      rw [Res.bind_eq_ok] at hd
      obtain ⟨es', h2, hd⟩ := hd
      cases hd
      exact ⟨nextMember_min hp _, layVal_ng hp ht hT n ty v h.1 h1, rfl, layTuple_ng hp ht hT n ts vs h.2 h2⟩

theorem layOrdered_ng (hp : w.pretty = false) (ht : w.tc = false) (hT : ∀ s, T s → MinText s) (n idx : Nat) (ms : List (Option Nat × Ty)) (vs : List Val)
    (h : HasList Δ P T (ms.map Prod.snd) vs) {es : JElems}
    (hd : layOrdered w Δ n idx ms vs = .ok es) : es.NoGaps := by
  match vs with
  | [] =>
    simp only [layOrdered, Res.ok.injEq] at hd
    subst hd
    trivial
  | v :: vs =>
    cases ms with
    | nil => simp [HasList] at h
    | cons m ms =>
      simp only [List.map_cons, HasList] at h
      simp only [layOrdered] at hd
      rw [Res.bind_eq_ok] at hd
      obtain ⟨d, h1, hd⟩ := hd
      rw [Res.bind_eq_ok] at hd
      obtain ⟨es', h2, hd⟩ := hd
      cases hd
      exact gapElems_ng hp _ _ ⟨nextMember_min hp _, layVal_ng hp ht hT n _ v h.1 h1, rfl, layOrdered_ng hp ht hT n _ ms vs h.2 h2⟩
end


end Verif
