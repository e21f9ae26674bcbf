import Verif.Proof.SchemaReads
import Verif.Proof.WriteReads

/-!
# The writer does not write `null` for members that are left out
-/

namespace Verif

open Spec

variable {w : WCfg} {Δ : Env} {P T : Bytes → Prop}

theorem schemaTyWith_opt {r : Nat → Option STy} {ty : Ty} {s : STy} (h : schemaTyWith r (.opt ty) = some s) :
    ∃ t, schemaTyWith r ty = some t ∧ s = .null t := by
  simp only [schemaTyWith, Option.map_eq_some_iff] at h
  obtain ⟨t, ht, rfl⟩ := h
  exact ⟨t, ht, rfl⟩

theorem schemaMems_cons {r : Ty → Option STy} {m : Member} {ms : List Member} {sms : SMems}
    (h : schemaMems r (m :: ms) = some sms) :
    ∃ t tl, r m.ty = some t ∧ schemaMems r ms = some tl ∧ sms = .cons m.name none t tl := by
  simp only [schemaMems, Option.bind_eq_bind, Option.bind_eq_some_iff] at h
  obtain ⟨t, ht, tl, htl, h⟩ := h
  cases h
  exact ⟨t, tl, ht, htl, rfl⟩

theorem schemaTys_cons {r : Ty → Option STy} {ty : Ty} {ts : List Ty} {sts : STys}
    (h : schemaTys r (ty :: ts) = some sts) :
    ∃ t tl, r ty = some t ∧ schemaTys r ts = some tl ∧ sts = .cons t tl := by
  simp only [schemaTys, Option.bind_eq_bind, Option.bind_eq_some_iff] at h
  obtain ⟨t, ht, tl, htl, h⟩ := h
  cases h
  exact ⟨t, tl, ht, htl, rfl⟩

theorem schemaOrd_cons {r : Ty → Option STy} {want : Option Nat} {ty : Ty} {ms : List (Option Nat × Ty)} {sts : STys}
    (h : schemaOrd r ((want, ty) :: ms) = some sts) :
    ∃ t tl, want = none ∧ r ty = some t ∧ schemaOrd r ms = some tl ∧ sts = .cons t tl := by
  cases want with
  | some _ => simp [schemaOrd] at h
  | none =>
    simp only [schemaOrd, Option.bind_eq_bind, Option.bind_eq_some_iff, Option.isSome_none, Bool.false_eq_true,
      ite_false] at h
    obtain ⟨t, ht, tl, htl, h⟩ := h
    cases h
    exact ⟨t, tl, rfl, ht, htl, rfl⟩

theorem schemaTyWith_some_not {r : Nat → Option STy} {ty : Ty} {t : STy} (hr : ∀ i s, r i = some s → s.isNull = false)
    (h : schemaTyWith r ty = some t) (ho : ty.isOpt = false) : t.isNull = false := by
  cases ty with
  | bool => cases h; rfl
  | int i rc => simp only [schemaTyWith, Option.some.injEq] at h; subst h; split <;> rfl
  | str => cases h; rfl
  | txt k =>
    cases k with
    | custom c => cases c <;> cases h; rfl
    | raw => cases h
    | quoted => cases h
    | _ => cases h; rfl
  | opt => cases ho
  | arr ty =>
    simp only [schemaTyWith, Option.map_eq_some_iff] at h
    obtain ⟨t, ht, rfl⟩ := h
    rfl
  | map ty =>
    simp only [schemaTyWith, Option.map_eq_some_iff] at h
    obtain ⟨t, ht, rfl⟩ := h
    rfl
  | ref i => exact hr i t h

theorem schemaRef_not_null {f i : Nat} {s : STy} (h : schemaRef Δ f i = some s) : s.isNull = false := by
  cases f with
  | zero => cases h
  | succ f =>
    rw [schemaRef] at h
    split at h <;> first | cases h | skip
    all_goals
      simp only [Option.map_eq_some_iff] at h
      obtain ⟨t, ht, rfl⟩ := h
      rfl

theorem nullsOmitted_cons {name : Bytes} {dep : Option Bytes} {t : STy} {tl : SMems}
    (h : (SMems.cons name dep t tl).NullsOmitted) (ht : t.isNull = false) : t.NullsOmitted ∧ tl.NullsOmitted := by
  cases t <;> first | exact h | cases ht

mutual
theorem layVal_noNull (f n : Nat) (ty : Ty) (v : Val) (h : HasTy Δ P T ty v) {d : JVal} (hd : layVal w Δ n ty v = .ok d)
    {s : STy} (hs : schemaTyWith (schemaRef Δ f) ty = some s) (ho : s.NullsOmitted) : d.noNull := by
  match v with
  | .bool b =>
    simp only [layVal, Res.ok.injEq] at hd
    subst hd
    cases b <;> trivial
  | .int i =>
    cases ty <;> simp only [HasTy] at h
    simp only [layVal, Res.ok.injEq] at hd
    subst hd
    trivial
  | .str s =>
    cases ty <;> simp only [HasTy] at h
    simp only [layVal] at hd
    rw [Res.bind_eq_ok] at hd
    obtain ⟨b, hb, hd⟩ := hd
    cases hd
    trivial
  | .txt b =>
    cases ty <;> simp only [HasTy] at h
    simp only [layVal] at hd
    rcases layTxt_cases h.2 hd with ⟨rfl, _⟩ | ⟨_, rfl | rfl⟩
    · trivial
    · cases hs
    · cases hs
  | .date x =>
    cases ty <;> simp only [HasTy] at h
    rename_i k
    cases k <;> simp only [layVal] at hd <;> first | cases hd | skip
    rw [Res.bind_eq_ok] at hd
    obtain ⟨c, _, hd⟩ := hd
    cases hd
    trivial
  | .real x =>
    cases ty <;> simp only [HasTy] at h
    rename_i k
    cases k <;> simp only [layVal] at hd <;> first | cases hd | skip
    rw [Res.bind_eq_ok] at hd
    obtain ⟨c, _, hd⟩ := hd
    cases hd
    trivial
  | .lit x =>
    cases ty <;> simp only [HasTy] at h
    rename_i k
    cases k <;> simp only at h
    cases hs
  | .none =>
    cases ty <;> simp [HasTy] at h
    obtain ⟨t, _, rfl⟩ := schemaTyWith_opt hs
    exact ho.elim
  | .some v =>
    cases ty <;> simp only [HasTy] at h
    obtain ⟨t, _, rfl⟩ := schemaTyWith_opt hs
    exact (ho : False).elim
  | .arr vs =>
    cases ty <;> simp only [HasTy] at h
    simp only [layVal] at hd
    rw [Res.bind_eq_ok] at hd
    obtain ⟨es, he, hd⟩ := hd
    cases hd
    simp only [schemaTyWith, Option.map_eq_some_iff] at hs
    obtain ⟨t, ht, rfl⟩ := hs
    exact layElems_noNull f _ _ vs h he ht ho
  | .map kvs =>
    cases ty <;> simp only [HasTy] at h
    simp only [layVal] at hd
    rw [Res.bind_eq_ok] at hd
    obtain ⟨es, he, hd⟩ := hd
    cases hd
    simp only [schemaTyWith, Option.map_eq_some_iff] at hs
    obtain ⟨t, ht, rfl⟩ := hs
    exact layPairs_noNull f _ _ kvs h he ht ho
  | .cls vs =>
    cases ty <;> simp only [HasTy] at h
    rename_i i
    simp only [layVal] at hd
    rw [schemaTyWith] at hs
    cases f with
    | zero => cases hs
    | succ f =>
    rw [schemaRef] at hs
    cases hi : Δ i with
    | obj ms ex =>
      simp only [hi, Option.map_eq_some_iff] at h hd hs
      obtain ⟨sms, hsm, rfl⟩ := hs
      rw [Res.bind_eq_ok] at hd
      obtain ⟨es, he, hd⟩ := hd
      cases hd
      exact layMembers_noNull f _ ms vs h he hsm ho
    | tup ts ex =>
      simp only [hi, Option.map_eq_some_iff] at h hd hs
      obtain ⟨sms, hsm, rfl⟩ := hs
      rw [Res.bind_eq_ok] at hd
      obtain ⟨es, he, hd⟩ := hd
      cases hd
      exact layTuple_noNull f _ ts vs h he hsm ho
    | ord ms ex =>
      simp only [hi, Option.map_eq_some_iff] at h hd hs
      obtain ⟨sms, hsm, rfl⟩ := hs
      rw [Res.bind_eq_ok] at hd
      obtain ⟨es, he, hd⟩ := hd
      cases hd
      exact layOrdered_noNull f _ _ ms vs h he hsm ho
    | var alts => simp only [hi] at h
    | ivar tag sw alts => simp only [hi] at h
  | .alt k v =>
    cases ty <;> simp only [HasTy] at h
    rename_i i
    rw [schemaTyWith] at hs
    cases f with
    | zero => cases hs
    | succ f =>
    rw [schemaRef] at hs
    cases hi : Δ i <;> simp only [hi, reduceCtorEq] at h hs
theorem layElems_noNull (f n : Nat) (ty : Ty) (vs : List Val) (h : HasElems Δ P T ty vs) {es : JElems}
    (hd : layElems w Δ n ty vs = .ok es)
    {s : STy} (hs : schemaTyWith (schemaRef Δ f) ty = some s) (ho : s.NullsOmitted) : es.noNull := by
  match vs with
  | [] =>
    simp only [layElems, Res.ok.injEq] at hd
    subst hd
    trivial
  | v :: vs =>
    rw [HasElems] at h
    simp only [layElems] at hd
    rw [Res.bind_eq_ok] at hd
    obtain ⟨d, h1, hd⟩ := hd
    rw [Res.bind_eq_ok] at hd
    obtain ⟨es', h2, hd⟩ := hd
    cases hd
    exact ⟨layVal_noNull f n ty v h.1 h1 hs ho, layElems_noNull f n ty vs h.2 h2 hs ho⟩
theorem layPairs_noNull (f n : Nat) (ty : Ty) (kvs : List (Bytes × Val)) (h : HasPairs Δ P T ty kvs) {es : JMems}
    (hd : layPairs w Δ n ty kvs = .ok es)
    {s : STy} (hs : schemaTyWith (schemaRef Δ f) ty = some s) (ho : s.NullsOmitted) : es.noNull := by
  match kvs with
  | [] =>
    simp only [layPairs, Res.ok.injEq] at hd
    subst hd
    trivial
  | (k, v) :: kvs =>
    rw [HasPairs] at h
    simp only [layPairs] at hd
    rw [Res.bind_eq_ok] at hd
    obtain ⟨b, h0, hd⟩ := hd
    rw [Res.bind_eq_ok] at hd
    obtain ⟨d, h1, hd⟩ := hd
    rw [Res.bind_eq_ok] at hd
    obtain ⟨es', h2, hd⟩ := hd
    cases hd
    exact ⟨layVal_noNull f n ty v h.2.1 h1 hs ho, layPairs_noNull f n ty kvs h.2.2 h2 hs ho⟩
theorem layMembers_noNull (f n : Nat) (ms : List Member) (vs : List Val) (h : HasList Δ P T (ms.map Member.ty) vs) {es : JMems}
    (hd : layMembers w Δ n ms vs = .ok es)
    {s : SMems} (hs : schemaMems (schemaTyWith (schemaRef Δ f)) ms = some s) (ho : s.NullsOmitted) : es.noNull := by
  match vs with
  | [] =>
    simp only [layMembers, Res.ok.injEq] at hd
    subst hd
    trivial
  | v :: vs =>
    cases ms with
    | nil => simp [HasList] at h
    | cons m ms =>
      obtain ⟨t, tl, ht, htl, rfl⟩ := schemaMems_cons hs
      simp only [List.map_cons, HasList] at h
      simp only [layMembers] at hd
      cases hm : m.ty.isOpt with
      | false =>
        simp only [hm, Bool.false_and, Bool.false_eq_true, ite_false] at hd
        rw [Res.bind_eq_ok] at hd
        obtain ⟨d, h1, hd⟩ := hd
        rw [Res.bind_eq_ok] at hd
        obtain ⟨es', h2, hd⟩ := hd
        cases hd
        have ho := nullsOmitted_cons ho (schemaTyWith_some_not (fun _ _ => schemaRef_not_null) ht hm)
        exact ⟨layVal_noNull f n _ v h.1 h1 ht ho.1, layMembers_noNull f n ms vs h.2 h2 htl ho.2⟩
      | true =>
        obtain ⟨ty', hty⟩ : ∃ ty', m.ty = .opt ty' := by
          cases hty : m.ty <;> rw [hty] at hm <;> first | exact ⟨_, rfl⟩ | cases hm
        rw [hty] at ht hd h
        obtain ⟨t', ht', rfl⟩ := schemaTyWith_opt ht
        match v with
        | .none =>
          simp only [Ty.isOpt, Val.isNone, Bool.and_self, ite_true] at hd
          exact layMembers_noNull f n ms vs h.2 hd htl ho.2
        | .some v =>
          simp only [Val.isNone, Bool.and_false, Bool.false_eq_true, ite_false] at hd
          rw [Res.bind_eq_ok] at hd
          obtain ⟨d, h1, hd⟩ := hd
          rw [Res.bind_eq_ok] at hd
          obtain ⟨es', h2, hd⟩ := hd
          cases hd
          rw [HasTy] at h
          simp only [layVal] at h1
          exact ⟨layVal_noNull f n _ v h.1.2 h1 ht' ho.1, layMembers_noNull f n ms vs h.2 h2 htl ho.2⟩
        | .bool _ => simp [HasTy] at h
        | .int _ => simp [HasTy] at h
        | .str _ => simp [HasTy] at h
        | .txt _ => simp [HasTy] at h
        | .date _ => simp [HasTy] at h
        | .arr _ => simp [HasTy] at h
        | .map _ => simp [HasTy] at h
        | .cls _ => simp [HasTy] at h
theorem layTuple_noNull (f n : Nat) (ts : List Ty) (vs : List Val) (h : HasList Δ P T ts vs) {es : JElems}
    (hd : layTuple w Δ n ts vs = .ok es)
    {s : STys} (hs : schemaTys (schemaTyWith (schemaRef Δ f)) ts = some s) (ho : s.NullsOmitted) : es.noNull := by
  match vs with
  | [] =>
    simp only [layTuple, Res.ok.injEq] at hd
    subst hd
    trivial
  | v :: vs =>
    cases ts with
    | nil => simp [HasList] at h
    | cons ty ts =>
      obtain ⟨t, tl, ht, htl, rfl⟩ := schemaTys_cons hs
      rw [HasList] at h
      simp only [layTuple] at hd
      rw [Res.bind_eq_ok] at hd
      obtain ⟨d, h1, hd⟩ := hd
      rw [Res.bind_eq_ok] at hd
      obtain ⟨es', h2, hd⟩ := hd
      cases hd
      exact ⟨layVal_noNull f n ty v h.1 h1 ht ho.1, layTuple_noNull f n ts vs h.2 h2 htl ho.2⟩
theorem layOrdered_noNull (f n idx : Nat) (ms : List (Option Nat × Ty)) (vs : List Val) (h : HasList Δ P T (ms.map Prod.snd) vs)
    {es : JElems} (hd : layOrdered w Δ n idx ms vs = .ok es)
    {s : STys} (hs : schemaOrd (schemaTyWith (schemaRef Δ f)) ms = some s) (ho : s.NullsOmitted) : es.noNull := by
  match vs with
  | [] =>
    simp only [layOrdered, Res.ok.injEq] at hd
    subst hd
    trivial
  | v :: vs =>
    cases ms with
    | nil => simp [HasList] at h
    | cons m ms =>
      obtain ⟨want, ty⟩ := m
      obtain ⟨t, tl, rfl, ht, htl, rfl⟩ := schemaOrd_cons hs
      simp only [List.map_cons, HasList] at h
      simp only [layOrdered] at hd
      rw [Res.bind_eq_ok] at hd
      obtain ⟨d, h1, hd⟩ := hd
      rw [Res.bind_eq_ok] at hd
      obtain ⟨es', h2, hd⟩ := hd
      simp only [Option.getD_none, Nat.sub_self, gapElems] at hd
      cases hd
      exact ⟨layVal_noNull f n ty v h.1 h1 ht ho.1, layOrdered_noNull f n (idx + 1) ms vs h.2 h2 htl ho.2⟩
end

/-! ## The names in a type written out -/

theorem schemaMems_names {r : Ty → Option STy} (hr : ∀ ty s, r ty = some s → s.NamesOk P) : (ms : List Member) →
    (∀ m ∈ ms, P m.name) → {sms : SMems} → schemaMems r ms = some sms → sms.NamesOk P
  | [], _, _, hs => by
    cases hs
    trivial
  | m :: ms, hn, _, hs => by
    obtain ⟨t, tl, ht, htl, rfl⟩ := schemaMems_cons hs
    exact ⟨hn m (List.mem_cons_self ..), fun d h => (by cases h), hr _ _ ht,
      schemaMems_names hr ms (fun x hx => hn x (List.mem_cons_of_mem _ hx)) htl⟩

theorem schemaTys_names {r : Ty → Option STy} (hr : ∀ ty s, r ty = some s → s.NamesOk P) : (ts : List Ty) →
    {sts : STys} → schemaTys r ts = some sts → sts.NamesOk P
  | [], _, hs => by
    cases hs
    trivial
  | ty :: ts, _, hs => by
    obtain ⟨t, tl, ht, htl, rfl⟩ := schemaTys_cons hs
    exact ⟨hr _ _ ht, schemaTys_names hr ts htl⟩

theorem schemaOrd_names {r : Ty → Option STy} (hr : ∀ ty s, r ty = some s → s.NamesOk P) : (ms : List (Option Nat × Ty)) →
    {sts : STys} → schemaOrd r ms = some sts → sts.NamesOk P
  | [], _, hs => by
    cases hs
    trivial
  | (want, ty) :: ts, _, hs => by
    obtain ⟨t, tl, _, ht, htl, rfl⟩ := schemaOrd_cons hs
    exact ⟨hr _ _ ht, schemaOrd_names hr ts htl⟩

theorem schemaTyWith_names {r : Nat → Option STy} (hr : ∀ i s, r i = some s → s.NamesOk P) :
    (ty : Ty) → (s : STy) → schemaTyWith r ty = some s → s.NamesOk P
  | .bool, _, hs => by cases hs; trivial
  | .int t _, s, hs => by
    simp only [schemaTyWith, Option.some.injEq] at hs
    subst hs
    split <;> trivial
  | .str _, _, hs => by cases hs; trivial
  | .txt (.rawStr _), _, hs => by cases hs; trivial
  | .txt .date, _, hs => by cases hs; trivial
  | .txt (.custom .str), _, hs => by cases hs; trivial
  | .txt (.real ..), _, hs => by cases hs; trivial
  | .opt ty, s, hs => by
    simp only [schemaTyWith, Option.map_eq_some_iff] at hs
    obtain ⟨t, ht, rfl⟩ := hs
    exact schemaTyWith_names hr ty t ht
  | .arr ty, s, hs => by
    simp only [schemaTyWith, Option.map_eq_some_iff] at hs
    obtain ⟨t, ht, rfl⟩ := hs
    exact schemaTyWith_names hr ty t ht
  | .map ty, s, hs => by
    simp only [schemaTyWith, Option.map_eq_some_iff] at hs
    obtain ⟨t, ht, rfl⟩ := hs
    exact schemaTyWith_names hr ty t ht
  | .ref i, s, hs => hr i s hs

theorem schemaRef_names (hn : ∀ i ms ex, Δ i = .obj ms ex → ∀ m ∈ ms, P m.name) :
    (f i : Nat) → (s : STy) → schemaRef Δ f i = some s → s.NamesOk P
  | 0, _, _, hs => by cases hs
  | f + 1, i, s, hs => by
    have ih := schemaTyWith_names (schemaRef_names hn f)
    rw [schemaRef] at hs
    split at hs
    · next ms ex hi =>
      simp only [Option.map_eq_some_iff] at hs
      obtain ⟨sms, hsm, rfl⟩ := hs
      exact schemaMems_names ih ms (hn i ms ex hi) hsm
    · next ts ex hi =>
      simp only [Option.map_eq_some_iff] at hs
      obtain ⟨sms, hsm, rfl⟩ := hs
      exact schemaTys_names ih ts hsm
    · next ms ex hi =>
      simp only [Option.map_eq_some_iff] at hs
      obtain ⟨sms, hsm, rfl⟩ := hs
      exact schemaOrd_names ih ms hsm
    · cases hs
    · cases hs

end Verif
