import Verif.Proof.DepMain
import Verif.Proof.WriteReads

/-!
# Members that depend on another member: writing
-/

namespace Verif

open Spec

/-! ## The plan -/

theorem contains_false {l : List Bytes} {n : Bytes} : l.contains n = false ↔ n ∉ l := by simp

/-- What the first pass gives. -/
def PlanOk (all : List DMember) (vals : List Val) (ms : List DMember) (vs : List Val) (seen : List Bytes) : Prop :=
  ∃ is seen', planTags all vals seen ms vs = .ok (is, seen') ∧ (is.map OutItem.name).Nodup ∧ (∀ i ∈ is, i.name ∉ seen) ∧
    (∀ n, n ∈ seen' ↔ n ∈ seen ∨ n ∈ is.map OutItem.name) ∧
    (∀ i ∈ is, ∃ m v d x, (m, v) ∈ ms.zip vs ∧ Present m v ∧ m.ty.dep = some d ∧ depValue all vals m.ty = some x ∧
      i = ⟨d.name, .plain d.ty, x⟩) ∧
    (∀ m v d, (m, v) ∈ ms.zip vs → Present m v → m.ty.dep = some d → d.name ∈ seen')

theorem planTags_ok {all : List DMember} {vals : List Val} :
    ∀ (ms : List DMember) (vs : List Val) (seen : List Bytes), ms.length = vs.length →
      (∀ m v, (m, v) ∈ ms.zip vs → Present m v → ∀ d, m.ty.dep = some d → ∃ x, depValue all vals m.ty = some x) →
      (∀ m v, (m, v) ∈ ms.zip vs → m.vis = true → ∀ d, m.ty.dep = some d → Present m v) → PlanOk all vals ms vs seen
  | [], [], seen, _, _, _ => ⟨[], seen, by simp [planTags], by simp, by simp, by simp, by simp, by simp⟩
  | [], _ :: _, _, h, _, _ => by simp at h
  | _ :: _, [], _, h, _, _ => by simp at h
  | m :: ms, v :: vs, seen, hl, hx, hv => by
    have hv' : ∀ m v, (m, v) ∈ ms.zip vs → m.vis = true → ∀ d, m.ty.dep = some d → Present m v := fun m v h => hv m v (by simp [h])
    have hl' : ms.length = vs.length := by simpa using hl
    have hx' : ∀ m v, (m, v) ∈ ms.zip vs → Present m v → ∀ d, m.ty.dep = some d → ∃ x, depValue all vals m.ty = some x :=
      fun m v h => hx m v (by simp [h])
    have key : ∀ seen, (∀ d, Present m v → m.ty.dep = some d → d.name ∈ seen) →
        planTags all vals seen (m :: ms) (v :: vs) = planTags all vals seen ms vs → PlanOk all vals (m :: ms) (v :: vs) seen := by
      intro seen hs he
      obtain ⟨is, seen', h1, h2, h3, h4, h5, h6⟩ := planTags_ok (all := all) (vals := vals) ms vs seen hl' hx' hv'
      refine ⟨is, seen', by rw [he, h1], h2, h3, h4, fun i hi => ?_, fun m' v' d hm hp hd => ?_⟩
      · obtain ⟨m, v, d, x, h, r⟩ := h5 i hi
        exact ⟨m, v, d, x, by simp [h], r⟩
      · simp only [List.zip_cons_cons, List.mem_cons, Prod.mk.injEq] at hm
        rcases hm with ⟨rfl, rfl⟩ | hm
        · exact (h4 _).2 (Or.inl (hs d hp hd))
        · exact h6 m' v' d hm hp hd
    cases hd : m.ty.dep with
    | none => exact key seen (by simp [hd]) (by simp [planTags, hd])
    | some d =>
      by_cases hpr : Present m v
      · have hop : (m.opt && !m.vis && v.isNone) = false := by
          rcases hpr with h | h
          · simp [h]
          · cases v <;> simp [Val.isNone] at h ⊢
        by_cases hsn : d.name ∈ seen
        · exact key seen (fun d' _ h => by rw [hd] at h; cases h; exact hsn) (by simp [planTags, hd, hop, hsn])
        · obtain ⟨x, hxx⟩ := hx m v (by simp) hpr d hd
          obtain ⟨is, seen', h1, h2, h3, h4, h5, h6⟩ := planTags_ok (all := all) (vals := vals) ms vs (d.name :: seen) hl' hx' hv'
          refine ⟨⟨d.name, .plain d.ty, x⟩ :: is, seen', ?_, ?_, ?_, ?_, ?_, ?_⟩
          · simp [planTags, hd, hop, hsn, hxx, h1]
          · simp only [List.map_cons, List.nodup_cons]
            refine ⟨fun h => ?_, h2⟩
            obtain ⟨i, hi, he⟩ := List.mem_map.1 h
            exact h3 i hi (by simp [he])
          · intro i hi
            rcases List.mem_cons.1 hi with rfl | hi
            · exact hsn
            · intro h
              exact h3 i hi (by simp [h])
          · intro n
            rw [h4]
            simp only [List.map_cons, List.mem_cons]
            tauto
          · intro i hi
            rcases List.mem_cons.1 hi with rfl | hi
            · exact ⟨m, v, d, x, by simp, hpr, hd, hxx, rfl⟩
            · obtain ⟨m, v, d, x, h, r⟩ := h5 i hi
              exact ⟨m, v, d, x, by simp [h], r⟩
          · intro m' v' d' hm hp hd'
            simp only [List.zip_cons_cons, List.mem_cons, Prod.mk.injEq] at hm
            rcases hm with ⟨rfl, rfl⟩ | hm
            · rw [hd] at hd'
              cases hd'
              exact (h4 _).2 (Or.inl (by simp))
            · exact h6 m' v' d' hm hp hd'
      · have hop : (m.opt && !m.vis && v.isNone) = true := by
          have hvis : m.vis = false := by
            cases hm : m.vis with
            | false => rfl
            | true => exact absurd (hv m v (by simp) hm d hd) hpr
          rw [hvis]
          unfold Present at hpr
          simp only [not_or, Bool.not_eq_false, not_not] at hpr
          simp [hpr.1, hpr.2, Val.isNone]
        exact key seen (fun d' h => absurd h hpr) (by simp [planTags, hd, hop])

/-- Whether a member is written in the second pass. -/
def planKeep (seen : List Bytes) (p : DMember × Val) : Bool := !seen.contains p.1.name && !(p.1.opt && p.2.isNone)

/-- What is written for it. -/
def planItem (p : DMember × Val) : OutItem := ⟨p.1.name, p.1.ty, if p.1.opt then p.2.inner else p.2⟩

theorem planMembers_ok (seen0 : List Bytes) :
    ∀ (ms : List DMember) (vs : List Val) (seen : List Bytes), ms.length = vs.length → (ms.map DMember.name).Nodup →
      (∀ m ∈ ms, m.name ∈ seen ↔ m.name ∈ seen0) →
      planMembers seen ms vs = .ok (((ms.zip vs).filter (planKeep seen0)).map planItem)
  | [], [], _, _, _, _ => by simp [planMembers]
  | [], _ :: _, _, h, _, _ => by simp at h
  | _ :: _, [], _, h, _, _ => by simp at h
  | m :: ms, v :: vs, seen, hl, hnd, hs => by
    simp only [List.map_cons, List.nodup_cons] at hnd
    have hl' : ms.length = vs.length := by simpa using hl
    have hs1 : ∀ m' ∈ ms, m'.name ∈ seen ↔ m'.name ∈ seen0 := fun m' hm => hs m' (by simp [hm])
    have hs2 : ∀ m' ∈ ms, m'.name ∈ m.name :: seen ↔ m'.name ∈ seen0 := by
      intro m' hm
      rw [List.mem_cons, hs1 m' hm]
      refine ⟨?_, Or.inr⟩
      rintro (h | h)
      · exact absurd (h ▸ List.mem_map_of_mem hm) hnd.1
      · exact h
    have h0 := hs m (by simp)
    by_cases hsn : m.name ∈ seen
    · have := h0.1 hsn
      simp [planMembers, hsn, planKeep, this, planMembers_ok seen0 ms vs seen hl' hnd.2 hs1]
    · have hs0 : m.name ∉ seen0 := fun h => hsn (h0.2 h)
      cases ho : (m.opt && v.isNone) with
      | true => simp [planMembers, hsn, planKeep, hs0, ho, planMembers_ok seen0 ms vs _ hl' hnd.2 hs2]
      | false => simp [planMembers, hsn, planKeep, hs0, ho, planMembers_ok seen0 ms vs _ hl' hnd.2 hs2, planItem]

/-! ## What is written for the items -/

/-- The type and value as which an item is written. -/
def OutItem.flat (i : OutItem) : Ty × Val :=
  match i.ty, i.val with
  | .plain ty, v => (ty, v)
  | .tagged _ _ _ alts, .alt k v => (alts.getD k .bool, v)
  | .sized _ elem, .cls [_, a] => (.arr elem, a)
  | .pairs i, v => (.arr (.ref i), v)
  | _, _ => (.bool, .none)

section
variable {w : WCfg} {Δ : Env} {P T : Bytes → Prop}

theorem isOpt_none {ty : Ty} {v : Val} (ho : ty.isOpt = false) (h : HasTy Δ P T ty v) : v.isNone = false := by
  cases v with
  | none =>
    cases ty <;> simp [HasTy, Ty.isOpt] at h ho
  | _ => rfl

theorem writeKvs_elems (henv : EnvOk Δ) {i : Nat} {k x : Member} {ex : Bool} (hi : Δ i = .obj [k, x] ex) (hk : k.ty.isOpt = false)
    (hx : x.ty.isOpt = false) (n : Nat) : ∀ xs : List Val, HasElems Δ P T (.ref i) xs → writeKvs w Δ n i xs = writeElems w Δ n (.ref i) xs
  | [], _ => by simp [writeKvs, writeElems]
  | v :: xs, h => by
    rw [HasElems] at h
    have hne : x.name ≠ k.name := by
      have := henv.nodup i _ ex hi
      simp only [List.map_cons, List.map_nil, List.nodup_cons, List.mem_cons, List.not_mem_nil, or_false] at this
      exact fun h => this.1 h.symm
    have hp : writePair w Δ n i v = writeVal w Δ n (.ref i) v := by
      have h1 := h.1
      cases v <;> simp only [HasTy, hi, reduceCtorEq] at h1
      rename_i vs
      match vs with
      | [] => simp [HasList] at h1
      | [a] => simp [HasList] at h1
      | a :: b :: c :: vs => simp [HasList] at h1
      | [a, b] =>
        simp only [List.map_cons, List.map_nil, HasList] at h1
        have ha := isOpt_none hk h1.1
        have hb := isOpt_none hx h1.2.1
        simp only [writePair, hi, writeVal, writeMembers, ha, hb]
        simp [hne]
        cases writeVal w Δ (n + 1) k.ty a <;> simp
        cases writeVal w Δ (n + 1) x.ty b <;> simp
    simp only [writeKvs, writeElems, hp, writeKvs_elems henv hi hk hx n xs h.2]

/-- A value of the type is written as a value of the types of `Verif.Model.Typed`. -/
theorem writeDep_flat (henv : EnvOk Δ) {ms : List DMember} {vs : List Val} (i : OutItem) (h : HasDep Δ P T ms vs i.ty i.val) (n : Nat) :
    writeDep w Δ n i.ty i.val = writeVal w Δ n i.flat.1 i.flat.2 ∧ HasTy Δ P T i.flat.1 i.flat.2 ∧ i.flat.2 ≠ .none := by
  obtain ⟨nm, ty, val⟩ := i
  cases ty with
  | plain ty => exact ⟨rfl, h.2, h.1⟩
  | tagged tag sw wr alts =>
    obtain ⟨k, x, ty, hv, hx, hk, ht, -⟩ := h
    simp only at hv
    subst hv
    have : alts.getD k .bool = ty := by simp [List.getD, hk]
    simp only [writeDep, OutItem.flat, hk, this]
    exact ⟨trivial, ht, hx⟩
  | sized size elem =>
    obtain ⟨n, x, xs, hv, ht, -⟩ := h
    simp only at hv
    subst hv
    exact ⟨rfl, ht, by simp [OutItem.flat]⟩
  | pairs i =>
    obtain ⟨k, x, ex, xs, hv, hi, hk, hx, ht⟩ := h
    simp only at hv
    subst hv
    refine ⟨?_, ht, by simp [OutItem.flat]⟩
    rw [HasTy] at ht
    simp only [writeDep, OutItem.flat, writeVal, writeKvs_elems henv hi hk hx (n + 1) xs ht]

theorem writeItems_flat (n : Nat) : ∀ (items : List OutItem) (first : Bool) (seen : List Bytes),
    (∀ i ∈ items, writeDep w Δ n i.ty i.val = writeVal w Δ n i.flat.1 i.flat.2 ∧ i.flat.2 ≠ .none) →
    (items.map OutItem.name).Nodup → (∀ i ∈ items, i.name ∉ seen) →
    writeItems w Δ n first items = writeMembers w Δ n seen first (items.map fun i => ⟨i.name, i.flat.1⟩) (items.map fun i => i.flat.2)
  | [], first, seen, _, _, _ => by simp [writeItems, writeMembers]
  | i :: items, first, seen, h, hnd, hs => by
    simp only [List.map_cons, List.nodup_cons] at hnd
    obtain ⟨h1, h2⟩ := h i (by simp)
    have h3 : i.flat.2.isNone = false := by
      revert h2
      cases i.flat.2 <;> simp [Val.isNone]
    have h4 : seen.contains i.name = false := contains_false.2 (hs i (by simp))
    have ih := writeItems_flat n items false (i.name :: seen) (fun j hj => h j (by simp [hj])) hnd.2 (fun j hj => by
      rw [List.mem_cons, not_or]
      exact ⟨fun he => hnd.1 (he ▸ List.mem_map_of_mem hj), hs j (by simp [hj])⟩)
    simp only [writeItems, List.map_cons, writeMembers, h1, h3, h4, ih, Bool.and_false, Bool.false_eq_true, if_false]

/-- The members of the object, when none is empty. -/
theorem layMembers_all (n : Nat) : ∀ (M : List Member) (V : List Val) (jm : JMems), layMembers w Δ n M V = .ok jm → M.length = V.length →
    (∀ v ∈ V, v ≠ .none) → jm.names = M.map Member.name ∧ ((M.map Member.name).Nodup → ∀ m x, (m, x) ∈ M.zip V →
      ∃ d, jm.get? m.name = some d ∧ layVal w Δ n m.ty x = .ok d)
  | [], [], jm, h, _, _ => by
    simp only [layMembers, Res.ok.injEq] at h
    subst h
    simp [JMems.names, JMems.toList]
  | [], _ :: _, _, _, h, _ => by simp at h
  | _ :: _, [], _, _, h, _ => by simp at h
  | m :: M, v :: V, jm, h, hl, hv => by
    have h3 : v.isNone = false := by
      have := hv v (by simp)
      revert this
      cases v <;> simp [Val.isNone]
    simp only [layMembers, h3, Bool.and_false, Bool.false_eq_true, if_false] at h
    obtain ⟨d, hd, h⟩ := Res.bind_eq_ok.1 h
    obtain ⟨es, he, h⟩ := Res.bind_eq_ok.1 h
    simp only [Res.ok.injEq] at h
    subst h
    obtain ⟨i1, i2⟩ := layMembers_all n M V es he (by simpa using hl) (fun v h => hv v (by simp [h]))
    refine ⟨by simp [JMems_names_cons, i1], fun hnd m' x hm => ?_⟩
    simp only [List.map_cons, List.nodup_cons] at hnd
    simp only [List.zip_cons_cons, List.mem_cons, Prod.mk.injEq] at hm
    rcases hm with ⟨rfl, rfl⟩ | hm
    · exact ⟨d, by simp [JMems_get?_cons], hd⟩
    · obtain ⟨d', h1, h2⟩ := i2 hnd.2 m' x hm
      refine ⟨d', ?_, h2⟩
      have : m'.name ≠ m.name := fun he => hnd.1 (he ▸ List.mem_map_of_mem (List.of_mem_zip hm).1)
      simp [JMems_get?_cons, this, h1]

theorem boxed_bareLit {v : Val} (hv : v.boxed = true) : v.bareLit = false := by
  cases v <;> first | rfl | simp [Val.boxed] at hv

theorem layVal_boxed {n : Nat} {ty : Ty} {v : Val} {d : JVal} (hv : v.boxed = true) (hd : layVal w Δ n ty v = .ok d) :
    d.jkind ≠ .number ∧ d.jkind ≠ .string := by
  cases v <;> simp [Val.boxed] at hv
  · rename_i b
    simp only [layVal, Res.ok.injEq] at hd
    subst hd
    cases b <;> simp [JVal.jkind]
  · cases ty <;> simp only [layVal, reduceCtorEq] at hd
    obtain ⟨es, -, hd⟩ := Res.bind_eq_ok.1 hd
    simp only [Res.ok.injEq] at hd
    subst hd
    simp [JVal.jkind]
  · cases ty <;> simp only [layVal, reduceCtorEq] at hd
    obtain ⟨es, -, hd⟩ := Res.bind_eq_ok.1 hd
    simp only [Res.ok.injEq] at hd
    subst hd
    simp [JVal.jkind]
  · cases ty <;> simp only [layVal, reduceCtorEq] at hd
    rename_i i
    cases hi : Δ i <;> simp only [hi, reduceCtorEq] at hd
    all_goals
      obtain ⟨es, -, hd⟩ := Res.bind_eq_ok.1 hd
      simp only [Res.ok.injEq] at hd
      subst hd
      simp [JVal.jkind]

end

/-! ## Positions -/

theorem idxOf_sublist {a b : Bytes} : ∀ {L1 L2 : List Bytes}, L1.Sublist L2 → L2.Nodup → a ∈ L1 → b ∈ L1 → L2.idxOf a < L2.idxOf b →
    L1.idxOf a < L1.idxOf b
  | _, _, .slnil, _, ha, _, _ => by simp at ha
  | _, _, @List.Sublist.cons _ l1 l2 c h, hnd, ha, hb, hlt => by
    have hca : c ≠ a := by rintro rfl; exact (List.nodup_cons.1 hnd).1 (h.subset ha)
    have hcb : c ≠ b := by rintro rfl; exact (List.nodup_cons.1 hnd).1 (h.subset hb)
    rw [List.idxOf_cons_ne _ hca, List.idxOf_cons_ne _ hcb] at hlt
    exact idxOf_sublist h (List.nodup_cons.1 hnd).2 ha hb (by omega)
  | _, _, @List.Sublist.cons_cons _ l1 l2 c h, hnd, ha, hb, hlt => by
    by_cases hcb : c = b
    · subst hcb
      rw [List.idxOf_cons_self] at hlt
      omega
    · by_cases hca : c = a
      · subst hca
        rw [List.idxOf_cons_self, List.idxOf_cons_ne _ hcb]
        omega
      · rw [List.idxOf_cons_ne _ hca, List.idxOf_cons_ne _ hcb] at hlt ⊢
        have ha' : a ∈ l1 := by
          rcases List.mem_cons.1 ha with h' | h'
          · exact absurd h'.symm hca
          · exact h'
        have hb' : b ∈ l1 := by
          rcases List.mem_cons.1 hb with h' | h'
          · exact absurd h'.symm hcb
          · exact h'
        have := idxOf_sublist h (List.nodup_cons.1 hnd).2 ha' hb' (by omega)
        omega

theorem idxOf_getElem? {L : List Bytes} (hnd : L.Nodup) {p : Nat} {n : Bytes} (h : L[p]? = some n) : L.idxOf n = p := by
  obtain ⟨hp, rfl⟩ := List.getElem?_eq_some_iff.1 h
  exact List.Nodup.idxOf_getElem hnd p hp

end Verif
